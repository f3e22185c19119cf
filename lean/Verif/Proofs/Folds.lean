import Verif.Proofs.Canon

/-! Handles held by a list of slots; `left_fold` and `tree_fold`. -/

namespace Teddy

open SM

/-- Handles `ext` plus those in the slots `xs`. -/
def extL (ext : Ptr → Nat) (xs : List (Option Ptr)) : Ptr → Nat :=
  fun p => ext p + xs.count (some p)

/-- Everything reachable from a counted handle is unchanged. -/
structure KeepsH (ext : Ptr → Nat) (s s' : Mgr) : Prop where
  kind : ∀ p q, 0 < ext p → Reach s.kind p q → s'.kind q = s.kind q
  i2l : s'.idx2lvl = s.idx2lvl
  l2i : s'.lvl2idx = s.lvl2idx

theorem Reach.trans {kind : Ptr → Kind} {p q r : Ptr} (h : Reach kind p q) (h' : Reach kind q r) :
    Reach kind p r := by
  induction h with
  | refl => exact h'
  | step hk hq _ ih => exact .step hk hq (ih h')

section
variable {E : Env} {c : Cfg} {ext : Ptr → Nat} {s : Mgr}

theorem KeepsH.refl (ext : Ptr → Nat) (s : Mgr) : KeepsH ext s s := ⟨fun _ _ _ _ => rfl, rfl, rfl⟩

theorem KeepsH.reach {s' : Mgr} (k : KeepsH ext s s') {p q r : Ptr} (hp : 0 < ext p)
    (h1 : Reach s.kind p q) (h : Reach s.kind q r) : Reach s'.kind q r := by
  induction h with
  | refl => exact .refl
  | step hk hq _ ih =>
      exact .step (by rw [k.kind p _ hp h1]; exact hk) hq
        (ih (h1.trans (.step hk hq .refl)))

theorem KeepsH.trans {s1 s2 s3 : Mgr} (a : KeepsH ext s1 s2) (b : KeepsH ext s2 s3) :
    KeepsH ext s1 s3 where
  kind p q hp h := (b.kind p q hp (a.reach hp .refl h)).trans (a.kind p q hp h)
  i2l := b.i2l.trans a.i2l
  l2i := b.l2i.trans a.l2i

theorem KeepsH.mono {ext' : Ptr → Nat} {s' : Mgr} (k : KeepsH ext' s s')
    (h : ∀ p, 0 < ext p → 0 < ext' p) : KeepsH ext s s' :=
  ⟨fun p q hp hr => k.kind p q (h p hp) hr, k.i2l, k.l2i⟩

theorem KeepsH.ev_iff {s' : Mgr} (k : KeepsH ext s s') {p : Ptr} (hp : 0 < ext p) {x : Asg}
    {v : Int} : Ev s'.kind x p v ↔ Ev s.kind x p v :=
  Ev.transfer_iff (fun q => Reach s.kind p q) (fun q hq => k.kind p q hp hq)
    (fun _ _ _ hq hk _ hr => hq.trans (.step hk hr .refl)) .refl

theorem KeepsH.den {s' : Mgr} (k : KeepsH ext s s') {p : Ptr} (hp : 0 < ext p) {f : Asg → Int}
    (h : Den c s p f) : Den c s' p f := fun x hx => (k.ev_iff hp).2 (h x hx)

theorem KeepsX.toH {ext' : Ptr → Nat} {s' : Mgr} (k : KeepsX ext s ext' s') : KeepsH ext s s' :=
  ⟨fun _ q hp hr => k.kind q (hr.prot (.root (Or.inr (Or.inl hp)))), k.i2l, k.l2i⟩

theorem KeepsH.of_kind {s' : Mgr} (hk : s'.kind = s.kind) (h1 : s'.idx2lvl = s.idx2lvl)
    (h2 : s'.lvl2idx = s.lvl2idx) : KeepsH ext s s' := ⟨fun _ _ _ _ => by rw [hk], h1, h2⟩

/-- What an operation that makes a diagram of `f` from live diagrams guarantees. -/
structure Res (E : Env) (ext : Ptr → Nat) (s : Mgr) (f : Asg → Int) (r : Ptr) (s' : Mgr) :
    Prop where
  good : Good E (addExt ext r) s'
  keeps : KeepsH ext s s'
  den : Den E.c s' r f
  mark : ∀ p, s'.mark p = true → s.mark p = true

theorem NewDiagram.res {f : Asg → Int} {r : Ptr} {s' : Mgr} (h : NewDiagram E ext s f r s') :
    Res E ext s f r s' := ⟨h.handle.good, h.handle.keeps.toH, h.den, h.mark⟩

theorem Good.ext_eq {ext' : Ptr → Nat} (g : Good E ext s) (h : ∀ p, ext p = ext' p) :
    Good E ext' s := by
  have : ext = ext' := funext h
  rw [← this]; exact g

theorem handle_prot {p : Ptr} (h : 0 < ext p) : Prot ext [] s p := .root (Or.inr (Or.inl h))

/-- The slots `xs` hold diagrams of the functions `fs`. -/
def Holds (c : Cfg) (s : Mgr) : List Ptr → List (Asg → Int) → Prop :=
  List.Forall₂ (fun p f => Den c s p f)

theorem Holds.keeps {s' : Mgr} {ps : List Ptr} {fs : List (Asg → Int)} (h : Holds c s ps fs)
    (k : KeepsH ext s s') (hp : ∀ p ∈ ps, 0 < ext p) : Holds c s' ps fs := by
  induction h with
  | nil => exact .nil
  | cons h1 _ ih =>
      exact .cons (k.den (hp _ (by simp)) h1) (ih (fun p hm => hp p (by simp [hm])))

theorem leftFoldLoop_good {op : BinOp} (hau : E.auto = false) (hca : E.cache = true)
    (hΓ : E.Γ (opType E.c op).id = opType E.c op) :
    ∀ (ds : List Ptr) (gs : List (Asg → Int)) (r : Ptr) (f : Asg → Int) (s : Mgr),
      Good E (addExt ext r) s → Den E.c s r f → (∀ d ∈ ds, 0 < ext d) → Holds E.c s ds gs →
      FoldOK E.c (opType E.c op) f gs →
      Ok (leftFoldLoop E.c op ds r) s (fun r' s' =>
        Res E ext s (fun x => (gs.map (fun g => g x)).foldl (opType E.c op).val (f x)) r' s') := by
  intro ds
  induction ds with
  | nil =>
      intro gs r f s g hd _ hh _
      cases hh
      exact Ok.pure ⟨g, KeepsH.refl _ _, hd, fun _ h => h⟩
  | cons d ds ih =>
      intro gs r f s g hd hds hh hok
      cases hh with
      | cons h1 h2 =>
          rename_i gf gs
          have hpd : 0 < addExt ext r d := by
            have := hds d (by simp)
            simp only [addExt, upd_apply]
            split <;> omega
          have hpr : 0 < addExt ext r r := by simp [addExt]
          simp only [leftFoldLoop]
          refine Ok.bind (apply_good hau hca hΓ g (handle_prot hpr) (handle_prot hpd) hd h1 hok.1) ?_
          intro r' s1 nd
          have res := nd.res
          have hpos : 0 < addExt (addExt ext r) r' r := by
            simp only [addExt, upd_apply]
            split <;> simp
          refine Ok.bind (dropHandle_good res.good hpos) ?_
          rintro ⟨⟩ s2 ⟨g2, hm2, hk2, h1', h2', _⟩
          have e : ∀ p, subExt (addExt (addExt ext r) r') r p = addExt ext r' p := by
            intro p
            simp only [subExt, addExt, upd_apply]
            by_cases e1 : p = r <;> by_cases e2 : p = r'
            · subst e1; subst e2; simp
            · subst e1; simp [e2]
            · subst e2; simp [e1]
            · simp [e1, e2]
          have k2 : KeepsH ext s s2 :=
            (res.keeps.mono (fun p hp => by
              simp only [addExt, upd_apply]; split <;> omega)).trans
              (KeepsH.of_kind hk2 h1' h2')
          refine (ih gs r' _ s2 (g2.ext_eq e) (fun x hx => by rw [hk2]; exact res.den x hx)
            (fun d hd => hds d (by simp [hd])) (Holds.keeps h2 k2 (fun p hp => hds p (by simp [hp])))
            hok.2).mono ?_
          intro r'' s3 res3
          refine ⟨res3.good, k2.trans res3.keeps, res3.den, ?_⟩
          intro p hp
          have := res3.mark p hp
          rw [hm2] at this
          exact res.mark p this

theorem leftFold_good {op : BinOp} (hau : E.auto = false) (hca : E.cache = true)
    (hΓ : E.Γ (opType E.c op).id = opType E.c op) (g : Good E ext s) {d : Ptr} {ds : List Ptr}
    {f : Asg → Int} {gs : List (Asg → Int)} (hds : ∀ p ∈ d :: ds, 0 < ext p)
    (hh : Holds E.c s (d :: ds) (f :: gs)) (hok : FoldOK E.c (opType E.c op) f gs) :
    Ok (leftFold E.c op (d :: ds)) s (fun r s' =>
      Res E ext s (fun x => (gs.map (fun g => g x)).foldl (opType E.c op).val (f x)) r s') := by
  cases hh with
  | cons h1 h2 =>
      simp only [leftFold]
      refine Ok.bind (copy_diagram g (handle_prot (hds d (by simp))) h1) ?_
      intro r s1 nd
      have res := nd.res
      refine (leftFoldLoop_good hau hca hΓ ds gs r f s1 res.good res.den
        (fun p hp => hds p (by simp [hp]))
        (Holds.keeps h2 res.keeps (fun p hp => hds p (by simp [hp]))) hok).mono ?_
      intro r' s2 res2
      exact ⟨res2.good, res.keeps.trans res2.keeps, res2.den,
        fun p hp => res.mark p (res2.mark p hp)⟩

/-! ### tree_fold -/

theorem count_set {xs : List (Option Ptr)} {i : Nat} {o b a : Option Ptr}
    (h : xs[i]? = some o) :
    (xs.set i b).count a + (if o = a then 1 else 0) = xs.count a + (if b = a then 1 else 0) := by
  induction xs generalizing i with
  | nil => simp at h
  | cons x xs ih =>
      cases i with
      | zero =>
          simp at h; subst h
          simp only [List.set_cons_zero, List.count_cons, beq_iff_eq]
          omega
      | succ i =>
          simp at h
          have := ih h
          simp only [List.set_cons_succ, List.count_cons]
          omega

/-- Slot `j` holds a diagram of `f`. -/
def HoldsAt (c : Cfg) (s : Mgr) (xs : List (Option Ptr)) (j : Nat) (f : Asg → Int) : Prop :=
  ∃ p, xs[j]? = some (some p) ∧ Den c s p f

theorem extL_pos {xs : List (Option Ptr)} {j : Nat} {p : Ptr} (h : xs[j]? = some (some p)) :
    0 < extL ext xs p := by
  have : 0 < xs.count (some p) := List.count_pos_iff.2 (List.mem_of_getElem? h)
  unfold extL; omega

theorem HoldsAt.keeps {s' : Mgr} {xs : List (Option Ptr)} {j : Nat} {f : Asg → Int}
    (h : HoldsAt c s xs j f) (k : KeepsH (extL ext xs) s s') : HoldsAt c s' xs j f := by
  obtain ⟨p, h1, h2⟩ := h
  exact ⟨p, h1, k.den (extL_pos h1) h2⟩

theorem HoldsAt.kind {s' : Mgr} {xs : List (Option Ptr)} {j : Nat} {f : Asg → Int}
    (h : HoldsAt c s xs j f) (hk : s'.kind = s.kind) : HoldsAt c s' xs j f := by
  obtain ⟨p, h1, h2⟩ := h
  exact ⟨p, h1, fun x hx => by rw [hk]; exact h2 x hx⟩

theorem HoldsAt.set_ne {xs : List (Option Ptr)} {i j : Nat} {f : Asg → Int} {o : Option Ptr}
    (h : HoldsAt c s xs j f) (hij : i ≠ j) : HoldsAt c s (xs.set i o) j f := by
  obtain ⟨p, h1, h2⟩ := h
  exact ⟨p, by rw [List.getElem?_set_ne hij]; exact h1, h2⟩

/-- Assigning a fresh handle to a slot. -/
theorem assignSlot_good {xs : List (Option Ptr)} {i : Nat} {o : Option Ptr} {r : Ptr}
    (hi : xs[i]? = some o) (g : Good E (addExt (extL ext xs) r) s) :
    Ok (assignSlot xs i (some r)) s (fun ys s' => ys = xs.set i (some r) ∧
      Good E (extL ext ys) s' ∧ s'.mark = s.mark ∧ s'.kind = s.kind ∧ s'.idx2lvl = s.idx2lvl ∧
      s'.lvl2idx = s.lvl2idx) := by
  unfold assignSlot
  rw [hi]
  cases o with
  | some old =>
      dsimp only
      have hpos : 0 < addExt (extL ext xs) r old := by
        have := extL_pos (ext := ext) hi
        simp only [addExt, upd_apply]
        split <;> omega
      refine Ok.bind (dropHandle_good g hpos) ?_
      rintro ⟨⟩ s1 ⟨g1, hm, hk, h1, h2, _⟩
      refine Ok.pure ⟨rfl, g1.ext_eq ?_, hm, hk, h1, h2⟩
      intro p
      have := count_set (b := some r) (a := some p) hi
      simp only [subExt, addExt, extL, upd_apply]
      simp only [Option.some.injEq] at this
      by_cases e1 : p = old <;> by_cases e2 : p = r
      · subst e1; subst e2; simp at this ⊢; omega
      · subst e1; simp [Ne.symm e2] at this ⊢; simp [e2]; omega
      · subst e2; simp [Ne.symm e1, e1] at this ⊢; omega
      · simp [e1, e2, Ne.symm e1, Ne.symm e2] at this ⊢; omega
  | none =>
      refine Ok.pure ⟨rfl, g.ext_eq ?_, rfl, rfl, rfl, rfl⟩
      intro p
      have := count_set (b := some r) (a := some p) hi
      simp only [addExt, extL, upd_apply]
      simp only [Option.some.injEq, reduceCtorEq, if_false] at this
      by_cases e2 : p = r
      · subst e2; simp at this ⊢; omega
      · simp [e2, Ne.symm e2] at this ⊢; omega

theorem pairUp_length {α : Type} (op : α → α → α) (l : List α) :
    (pairUp op l).length = l.length / 2 + l.length % 2 := by
  match l with
  | [] => simp [pairUp]
  | [a] => simp [pairUp]
  | a :: b :: l =>
      have := pairUp_length op l
      simp only [pairUp, List.length_cons, this]
      omega

theorem pairUp_get {α : Type} (op : α → α → α) (l : List α) {j : Nat} {a b : α}
    (ha : l[2 * j]? = some a) (hb : l[2 * j + 1]? = some b) :
    (pairUp op l)[j]? = some (op a b) := by
  match l, j with
  | [], j => simp at ha
  | [x], 0 => simp at hb
  | [x], j + 1 => simp [Nat.mul_add] at ha
  | x :: y :: l, 0 => simp at ha hb; subst ha hb; rfl
  | x :: y :: l, j + 1 =>
      simp only [pairUp]
      have e1 : 2 * (j + 1) = 2 * j + 1 + 1 := by omega
      rw [e1] at ha hb
      simp at ha hb
      simpa using pairUp_get op l ha hb

theorem pairUp_last {α : Type} (op : α → α → α) (l : List α) {m : Nat} {a : α}
    (hl : l.length = 2 * m + 1) (ha : l[2 * m]? = some a) : (pairUp op l)[m]? = some a := by
  match l, m with
  | [], m => simp at hl
  | [x], 0 => simpa [pairUp] using ha
  | [x], m + 1 => simp at hl
  | x :: y :: l, 0 => simp at hl
  | x :: y :: l, m + 1 =>
      simp only [pairUp]
      have e1 : 2 * (m + 1) = 2 * m + 1 + 1 := by omega
      rw [e1] at ha
      simp at ha hl
      simpa using pairUp_last op l (by omega) ha

theorem PairsOK.get {op : BinOp} (l : List (Asg → Int)) (h : PairsOK c op l) {j : Nat}
    {f g : Asg → Int} (hf : l[2 * j]? = some f) (hg : l[2 * j + 1]? = some g) :
    OpOK c op (Range c f) (Range c g) := by
  match l, j with
  | [], j => simp at hf
  | [x], 0 => simp at hg
  | [x], j + 1 => simp [Nat.mul_add] at hf
  | x :: y :: l, 0 => simp at hf hg; subst hf hg; exact h.1
  | x :: y :: l, j + 1 =>
      have e1 : 2 * (j + 1) = 2 * j + 1 + 1 := by omega
      rw [e1] at hf hg
      simp at hf hg
      exact PairsOK.get l h.2 hf hg

/-- Progress of one level of `tree_fold`: `m` pairs are done. -/
structure TreeInv (E : Env) (ext : Ptr → Nat) (op : BinOp) (fs : List (Asg → Int)) (s0 : Mgr)
    (len m : Nat) (xs : List (Option Ptr)) (s : Mgr) : Prop where
  good : Good E (extL ext xs) s
  len : xs.length = len
  keeps : KeepsH ext s0 s
  mark : ∀ p, s.mark p = true → s0.mark p = true
  done : ∀ j f, j < m → (pairUp op.lift fs)[j]? = some f → HoldsAt E.c s xs j f
  todo : ∀ j f, 2 * m ≤ j → fs[j]? = some f → HoldsAt E.c s xs j f

theorem treePairs_good {op : BinOp} (hau : E.auto = false) (hca : E.cache = true)
    (hΓ : E.Γ (opType E.c op).id = opType E.c op) {fs : List (Asg → Int)} {s0 : Mgr} {len : Nat}
    (hfs : fs.length ≤ len) (hok : PairsOK E.c (opType E.c op) fs) :
    ∀ (k m : Nat) (xs : List (Option Ptr)) (s : Mgr), 2 * (m + k) ≤ fs.length →
      TreeInv E ext (opType E.c op) fs s0 len m xs s →
      Ok (treePairs E.c op (List.range' m k) xs) s (fun ys s' =>
        TreeInv E ext (opType E.c op) fs s0 len (m + k) ys s') := by
  intro k
  induction k with
  | zero => intro m xs s _ h; simpa [treePairs] using Ok.pure h
  | succ k ih =>
      intro m xs s hk h
      have h1 : 2 * m < fs.length := by omega
      have h2 : 2 * m + 1 < fs.length := by omega
      have g1 : fs[2 * m]? = some fs[2 * m] := List.getElem?_eq_getElem h1
      have g2 : fs[2 * m + 1]? = some fs[2 * m + 1] := List.getElem?_eq_getElem h2
      obtain ⟨a, ha, da⟩ := h.todo (2 * m) _ (by omega) g1
      obtain ⟨b, hb, db⟩ := h.todo (2 * m + 1) _ (by omega) g2
      rw [List.range'_succ]
      simp only [treePairs]
      refine Ok.bindEq (s' := s) (a := a) (by simp [readSlot, ha]) ?_
      refine Ok.bindEq (s' := s) (a := b) (by simp [readSlot, hb]) ?_
      refine Ok.bind (apply_good hau hca hΓ h.good (handle_prot (extL_pos ha))
        (handle_prot (extL_pos hb)) da db (hok.get fs g1 g2)) ?_
      intro r s1 nd
      have res := nd.res
      have hm : m < xs.length := by rw [h.len]; omega
      refine Ok.bind (assignSlot_good (List.getElem?_eq_getElem hm) res.good) ?_
      rintro ys s2 ⟨rfl, g2', hm2, hk2, hi2, hl2⟩
      have hsub : ∀ p, 0 < ext p → 0 < extL ext xs p := by
        intro p hp; unfold extL; omega
      have tr : ∀ j f, j ≠ m → HoldsAt E.c s xs j f →
          HoldsAt E.c s2 (xs.set m (some r)) j f := by
        intro j f hj hh
        exact ((hh.keeps res.keeps).kind hk2).set_ne (Ne.symm hj)
      have := ih (m + 1) (xs.set m (some r)) s2 (by omega)
        { good := g2', len := by simp [h.len]
          keeps := (h.keeps.trans (res.keeps.mono hsub)).trans (KeepsH.of_kind hk2 hi2 hl2)
          mark := fun p hp => h.mark p (res.mark p (by rw [hm2] at hp; exact hp))
          done := ?_, todo := ?_ }
      · have e : m + 1 + k = m + (k + 1) := by omega
        rw [e] at this
        exact this
      · intro j f hj hf
        by_cases e : j = m
        · subst e
          rw [pairUp_get _ fs g1 g2] at hf
          cases hf
          exact ⟨r, by simp [hm], fun x hx => by rw [hk2]; exact res.den x hx⟩
        · exact tr j f e (h.done j f (by omega) hf)
      · intro j f hj hf
        exact tr j f (by omega) (h.todo j f (by omega) hf)

/-- Moving the last element of a level with an odd number of elements. -/
theorem moveSlot_good {xs : List (Option Ptr)} {i j : Nat} {r : Ptr} {o : Option Ptr}
    (hj : xs[j]? = some (some r)) (hi : xs[i]? = some o)
    (g : Good E (extL ext xs) s) :
    Ok (moveSlot xs i j) s (fun ys s' => ys = (xs.set j none).set i (some r) ∧
      Good E (extL ext ys) s' ∧ s'.mark = s.mark ∧ s'.kind = s.kind ∧ s'.idx2lvl = s.idx2lvl ∧
      s'.lvl2idx = s.lvl2idx) := by
  unfold moveSlot
  rw [hj]
  dsimp only
  have g' : Good E (addExt (extL ext (xs.set j none)) r) s := by
    refine g.ext_eq ?_
    intro p
    have := count_set (b := none) (a := some p) hj
    simp only [addExt, extL, upd_apply]
    simp only [Option.some.injEq, reduceCtorEq, if_false] at this
    by_cases e2 : p = r
    · subst e2; simp at this ⊢; omega
    · simp [e2, Ne.symm e2] at this ⊢; omega
  have hi' : ∃ o', (xs.set j none)[i]? = some o' := by
    by_cases e : j = i
    · subst e
      have : j < xs.length := by
        by_contra hc
        rw [List.getElem?_eq_none (by omega)] at hj; cases hj
      exact ⟨none, by simp [this]⟩
    · exact ⟨o, by rw [List.getElem?_set_ne e]; exact hi⟩
  obtain ⟨o', ho'⟩ := hi'
  exact assignSlot_good ho' g'

/-- State between two levels of `tree_fold`. -/
structure LevelInv (E : Env) (ext : Ptr → Nat) (fs : List (Asg → Int)) (s0 : Mgr)
    (xs : List (Option Ptr)) (s : Mgr) : Prop where
  good : Good E (extL ext xs) s
  len : fs.length ≤ xs.length
  keeps : KeepsH ext s0 s
  mark : ∀ p, s.mark p = true → s0.mark p = true
  holds : ∀ (j : Nat) f, fs[j]? = some f → HoldsAt E.c s xs j f

theorem treeSteps_good {op : BinOp} (hau : E.auto = false) (hca : E.cache = true)
    (hΓ : E.Γ (opType E.c op).id = opType E.c op) {s0 : Mgr} :
    ∀ (k : Nat) (fs : List (Asg → Int)) (xs : List (Option Ptr)) (s : Mgr), fs ≠ [] →
      TreeOK E.c (opType E.c op) k fs → LevelInv E ext fs s0 xs s →
      Ok (treeSteps E.c op k fs.length xs) s (fun ys s' =>
        ys.length = xs.length ∧ LevelInv E ext (pairUps (opType E.c op).lift k fs) s0 ys s') := by
  intro k
  induction k with
  | zero => intro fs xs s _ _ h; exact Ok.pure ⟨rfl, h⟩
  | succ k ih =>
      intro fs xs s hne hok h
      have hpos : 0 < fs.length := List.length_pos_iff.2 hne
      have hplen := pairUp_length (opType E.c op).lift fs
      simp only [treeSteps]
      have epc : fs.length / 2 + fs.length % 2 - fs.length % 2 = fs.length / 2 := by omega
      rw [epc, List.range_eq_range']
      refine Ok.bind (treePairs_good (ext := ext) (s0 := s0) hau hca hΓ h.len hok.1 (fs.length / 2) 0
        xs s (by omega) ⟨h.good, rfl, h.keeps, h.mark, fun j f hj => by omega,
          fun j f _ hf => h.holds j f hf⟩) ?_
      intro ys s1 t
      rw [Nat.zero_add] at t
      have next : ∀ zs s2, zs.length = xs.length →
          LevelInv E ext (pairUp (opType E.c op).lift fs) s0 zs s2 →
          Ok (treeSteps E.c op k (fs.length / 2 + fs.length % 2) zs) s2 (fun ys s' =>
            ys.length = xs.length ∧
            LevelInv E ext (pairUps (opType E.c op).lift (k + 1) fs) s0 ys s') := by
        intro zs s2 hz hl
        rw [← hplen]
        refine (ih _ zs s2 ?_ hok.2 hl).mono ?_
        · intro e; rw [e] at hplen; simp at hplen; omega
        · rintro ws s3 ⟨h1, h2⟩
          exact ⟨h1.trans hz, h2⟩
      have hl1 : fs.length / 2 + fs.length % 2 ≤ xs.length := by
        have := h.len; omega
      by_cases hodd : fs.length % 2 = 1
      · rw [if_pos hodd]
        have em : fs.length / 2 + fs.length % 2 - 1 = fs.length / 2 := by omega
        rw [em]
        have hlast : 2 * (fs.length / 2) < fs.length := by omega
        have gl : fs[2 * (fs.length / 2)]? = some fs[2 * (fs.length / 2)] :=
          List.getElem?_eq_getElem hlast
        obtain ⟨r, hr, dr⟩ := t.todo _ _ (Nat.le_refl _) gl
        have hm : fs.length / 2 < ys.length := by rw [t.len]; omega
        refine Ok.bind (moveSlot_good hr (List.getElem?_eq_getElem hm) t.good) ?_
        rintro zs s2 ⟨rfl, g2, hm2, hk2, hi2, hl2⟩
        refine next _ s2 (by simp [t.len]) ⟨g2, by simp [t.len, hplen]; omega, t.keeps.trans
          (KeepsH.of_kind hk2 hi2 hl2), fun p hp => t.mark p (by rw [hm2] at hp; exact hp), ?_⟩
        intro j f hf
        have hjl : j < fs.length / 2 + 1 := by
          by_contra hc
          rw [List.getElem?_eq_none (by omega)] at hf; cases hf
        by_cases e : j = fs.length / 2
        · subst e
          rw [pairUp_last _ fs (by omega) gl] at hf
          cases hf
          exact ⟨r, by simp [hm], fun x hx => by rw [hk2]; exact dr x hx⟩
        · exact (((t.done j f (by omega) hf).set_ne (by omega)).set_ne (Ne.symm e)).kind hk2
      · rw [if_neg hodd]
        refine Ok.bindEq (s' := s1) (a := ys) rfl ?_
        refine next ys s1 t.len ⟨t.good, by rw [t.len, hplen]; omega, t.keeps, t.mark, ?_⟩
        intro j f hf
        have hjl : j < fs.length / 2 := by
          by_contra hc
          rw [List.getElem?_eq_none (by omega)] at hf; cases hf
        exact t.done j f hjl hf

theorem pairUps_length {α : Type} (op : α → α → α) (k : Nat) :
    ∀ l : List α, l ≠ [] → l.length ≤ 2 ^ k → (pairUps op k l).length = 1 := by
  induction k with
  | zero =>
      intro l hl h
      have := List.length_pos_iff.2 hl
      simp [pairUps] at *
      omega
  | succ k ih =>
      intro l hl h
      have hp := List.length_pos_iff.2 hl
      have e := pairUp_length op l
      simp only [pairUps]
      refine ih _ ?_ ?_
      · intro hc; rw [hc] at e; simp at e; omega
      · rw [e]; rw [Nat.pow_succ] at h; omega

theorem ceilLog2_spec {n : Nat} (h : 0 < n) : n ≤ 2 ^ ceilLog2 n := by
  unfold ceilLog2
  split
  · simp; omega
  · have := Nat.lt_log2_self (n := n - 1)
    omega

theorem treeFold_good {op : BinOp} (hau : E.auto = false) (hca : E.cache = true)
    (hΓ : E.Γ (opType E.c op).id = opType E.c op) {fs : List (Asg → Int)}
    {xs : List (Option Ptr)} (hne : fs ≠ []) (hlen : xs.length = fs.length)
    (hok : TreeOK E.c (opType E.c op) (ceilLog2 fs.length) fs)
    (g : Good E (extL ext xs) s) (hh : ∀ (j : Nat) f, fs[j]? = some f → HoldsAt E.c s xs j f) :
    Ok (treeFold E.c op xs) s (fun r s' => r.2.length = xs.length ∧
      Good E (addExt (extL ext r.2) r.1) s' ∧ KeepsH ext s s' ∧
      Den E.c s' r.1 (treeFun (opType E.c op) fs) ∧ (∀ p, s'.mark p = true → s.mark p = true)) := by
  have hpos : 0 < fs.length := List.length_pos_iff.2 hne
  unfold treeFold
  have : xs.isEmpty = false := by
    cases xs with
    | nil => simp at hlen; omega
    | cons _ _ => rfl
  rw [this, hlen, if_neg (by simp)]
  refine Ok.bind (treeSteps_good (ext := ext) (s0 := s) hau hca hΓ (ceilLog2 fs.length) fs xs s hne hok
    ⟨g, by omega, KeepsH.refl _ _, fun _ h => h, hh⟩) ?_
  rintro ys s1 ⟨hy, l⟩
  have h1 := pairUps_length (opType E.c op).lift (ceilLog2 fs.length) fs hne (ceilLog2_spec hpos)
  obtain ⟨f, hf⟩ := List.length_eq_one_iff.1 h1
  have e : treeFun (opType E.c op) fs = f := by simp [treeFun, hf]
  obtain ⟨r, hr, dr⟩ := l.holds 0 f (by rw [hf]; rfl)
  refine Ok.bindEq (s' := s1) (a := r) (by simp [readSlot, hr]) ?_
  refine Ok.pure ⟨by simp [hy, hlen], l.good.ext_eq ?_, l.keeps, by rw [e]; exact dr, l.mark⟩
  intro p
  have := count_set (b := none) (a := some p) hr
  simp only [addExt, extL, upd_apply]
  simp only [Option.some.injEq, reduceCtorEq, if_false] at this
  by_cases e2 : p = r
  · subst e2; simp at this ⊢; omega
  · simp [e2, Ne.symm e2] at this ⊢; omega

/-! ### Associative operations -/

section assoc
variable {α : Type} {op : α → α → α} {A : α → Prop}

theorem foldl_mem (hcl : ∀ a b, A a → A b → A (op a b)) :
    ∀ (l : List α) (a : α), A a → (∀ b ∈ l, A b) → A (l.foldl op a) := by
  intro l
  induction l with
  | nil => intro a ha _; exact ha
  | cons b l ih =>
      intro a ha h
      exact ih _ (hcl a b ha (h b (by simp))) (fun x hx => h x (by simp [hx]))

theorem foldl_assoc (hcl : ∀ a b, A a → A b → A (op a b))
    (has : ∀ a b d, A a → A b → A d → op (op a b) d = op a (op b d)) :
    ∀ (l : List α) (a b : α), A a → A b → (∀ x ∈ l, A x) →
      l.foldl op (op a b) = op a (l.foldl op b) := by
  intro l
  induction l with
  | nil => intro a b _ _ _; rfl
  | cons d l ih =>
      intro a b ha hb h
      have hd := h d (by simp)
      simp only [List.foldl_cons]
      rw [has a b d ha hb hd]
      exact ih a (op b d) ha (hcl b d hb hd) (fun x hx => h x (by simp [hx]))

theorem pairUp_mem (hcl : ∀ a b, A a → A b → A (op a b)) (l : List α) (h : ∀ x ∈ l, A x) :
    ∀ x ∈ pairUp op l, A x := by
  match l with
  | [] => simpa [pairUp] using h
  | [a] => simpa [pairUp] using h
  | a :: b :: l =>
      intro x hx
      simp only [pairUp, List.mem_cons] at hx
      rcases hx with rfl | hx
      · exact hcl a b (h a (by simp)) (h b (by simp))
      · exact pairUp_mem hcl l (fun y hy => h y (by simp [hy])) x hx

theorem pairUp_foldl (hcl : ∀ a b, A a → A b → A (op a b))
    (has : ∀ a b d, A a → A b → A d → op (op a b) d = op a (op b d)) (l : List α) (a : α)
    (h : ∀ x ∈ a :: l, A x) :
    ∃ b l', pairUp op (a :: l) = b :: l' ∧ l'.foldl op b = l.foldl op a := by
  match l with
  | [] => exact ⟨a, [], by simp [pairUp], rfl⟩
  | [b] => exact ⟨op a b, [], by simp [pairUp], rfl⟩
  | b :: d :: l =>
      obtain ⟨e, l', h1, h2⟩ := pairUp_foldl hcl has l d (fun x hx => h x (by
        simp at hx ⊢; tauto))
      have hm := pairUp_mem hcl (d :: l) (fun x hx => h x (by simp at hx ⊢; tauto))
      rw [h1] at hm
      have ha := h a (by simp)
      have hb := h b (by simp)
      have hd := h d (by simp)
      have hab := hcl a b ha hb
      refine ⟨op a b, e :: l', by simp [pairUp, h1], ?_⟩
      simp only [List.foldl_cons]
      rw [foldl_assoc hcl has l' (op a b) e hab (hm e (by simp)) (fun x hx => hm x (by simp [hx])),
        foldl_assoc hcl has l (op a b) d hab hd (fun x hx => h x (by simp [hx])), h2]

theorem pairUps_foldl (hcl : ∀ a b, A a → A b → A (op a b))
    (has : ∀ a b d, A a → A b → A d → op (op a b) d = op a (op b d)) :
    ∀ (k : Nat) (l : List α) (a : α), (∀ x ∈ a :: l, A x) →
    ∃ b l', pairUps op k (a :: l) = b :: l' ∧ l'.foldl op b = l.foldl op a := by
  intro k
  induction k with
  | zero => intro l a _; exact ⟨a, l, rfl, rfl⟩
  | succ k ih =>
      intro l a h
      obtain ⟨b, l', h1, h2⟩ := pairUp_foldl hcl has l a h
      have hm := pairUp_mem hcl (a :: l) h
      rw [h1] at hm
      obtain ⟨d, l'', h3, h4⟩ := ih l' b hm
      exact ⟨d, l'', by simp [pairUps, h1, h3], by rw [h4, h2]⟩

end assoc

theorem pairUp_map (op : BinOp) (x : Asg) (fs : List (Asg → Int)) :
    (pairUp op.lift fs).map (fun f => f x) = pairUp op.val (fs.map (fun f => f x)) := by
  match fs with
  | [] => simp [pairUp]
  | [a] => simp [pairUp]
  | a :: b :: l =>
      have := pairUp_map op x l
      simp [pairUp, this, BinOp.lift]

theorem pairUps_map (op : BinOp) (x : Asg) (k : Nat) : ∀ (fs : List (Asg → Int)),
    (pairUps op.lift k fs).map (fun f => f x) = pairUps op.val k (fs.map (fun f => f x)) := by
  induction k with
  | zero => intro fs; rfl
  | succ k ih => intro fs; simp [pairUps, ih, pairUp_map]

/-- For an operation that is associative on a closed set of values, the tree fold is the left
fold. -/
theorem treeFun_eq {op : BinOp} {A : Int → Prop} (hcl : ∀ a b, A a → A b → A (op.val a b))
    (has : ∀ a b d, A a → A b → A d → op.val (op.val a b) d = op.val a (op.val b d))
    {f : Asg → Int} {fs : List (Asg → Int)} {x : Asg} (h : ∀ g ∈ f :: fs, A (g x)) :
    treeFun op (f :: fs) x = (fs.map (fun g => g x)).foldl op.val (f x) := by
  unfold treeFun
  have hl := pairUps_length op.lift (ceilLog2 (f :: fs).length) (f :: fs) (by simp)
    (ceilLog2_spec (by simp))
  obtain ⟨g, hg⟩ := List.length_eq_one_iff.1 hl
  have hm := pairUps_map op x (ceilLog2 (f :: fs).length) (f :: fs)
  obtain ⟨b, l', h1, h2⟩ := pairUps_foldl hcl has (ceilLog2 (f :: fs).length)
    (fs.map (fun g => g x)) (f x) (by
      intro y hy
      rw [← List.map_cons (f := fun g : Asg → Int => g x)] at hy
      obtain ⟨g, hg, rfl⟩ := List.mem_map.1 hy
      exact h g hg)
  rw [hg, List.map_cons, List.map_cons, h1] at hm
  simp at hm
  obtain ⟨e1, e2⟩ := hm
  subst e1
  rw [hg, ← h2, e2]
  rfl

end

/-! ### Vectors of handles -/

theorem copies_good {E : Env} {ext : Ptr → Nat} : ∀ (ps : List Ptr) (s : Mgr) (pre : List (Option Ptr)),
    Good E (extL ext pre) s → (∀ p ∈ ps, 0 < ext p) →
    Ok (mapL copyHandle ps) s (fun qs s' => qs = ps ∧ Good E (extL ext (pre ++ ps.map some)) s' ∧
      s'.mark = s.mark ∧ s'.kind = s.kind ∧ s'.idx2lvl = s.idx2lvl ∧ s'.lvl2idx = s.lvl2idx) := by
  intro ps
  induction ps with
  | nil => intro s pre g _; exact Ok.pure ⟨rfl, by simpa using g, rfl, rfl, rfl, rfl⟩
  | cons p ps ih =>
      intro s pre g hp
      simp only [mapL]
      have h0 : 0 < extL ext pre p := by have := hp p (by simp); unfold extL; omega
      refine Ok.bind (copyHandle_good g (handle_prot h0)) ?_
      rintro q s1 ⟨rfl, nh, hm, hk⟩
      have g1 : Good E (extL ext (pre ++ [some q])) s1 := by
        refine nh.good.ext_eq ?_
        intro r
        simp only [extL, addExt, upd_apply, List.count_append, List.count_cons, List.count_nil]
        by_cases e : r = q
        · subst e; simp; omega
        · simp [e, Ne.symm e]
      refine Ok.bind (ih s1 (pre ++ [some q]) g1 (fun r hr => hp r (by simp [hr]))) ?_
      rintro qs s2 ⟨rfl, g2, hm2, hk2, hi2, hl2⟩
      refine Ok.pure ⟨rfl, by simpa using g2, hm2.trans hm, hk2.trans hk, hi2.trans nh.keeps.i2l,
        hl2.trans nh.keeps.l2i⟩

theorem dropAll_good {E : Env} {ext : Ptr → Nat} : ∀ (xs : List (Option Ptr)) (s : Mgr),
    Good E (extL ext xs) s →
    Ok (dropAll xs) s (fun _ s' => Good E ext s' ∧
      s'.mark = s.mark ∧ s'.kind = s.kind ∧ s'.idx2lvl = s.idx2lvl ∧ s'.lvl2idx = s.lvl2idx) := by
  intro xs
  induction xs with
  | nil => intro s g; exact Ok.pure ⟨g.ext_eq (fun _ => by simp [extL]), rfl, rfl, rfl, rfl⟩
  | cons o xs ih =>
      intro s g
      cases o with
      | none =>
          simp only [dropAll]
          exact ih s (g.ext_eq (fun _ => by simp [extL]))
      | some p =>
          simp only [dropAll]
          refine Ok.bind (dropHandle_good g (by simp [extL])) ?_
          rintro _ s1 ⟨g1, hm, hk, hi, hl, _⟩
          refine (ih s1 (g1.ext_eq ?_)).mono ?_
          · intro q
            simp only [subExt, extL, upd_apply, List.count_cons]
            by_cases e : q = p
            · subst e; simp
            · simp [e, Ne.symm e]
          · rintro _ s2 ⟨g2, hm2, hk2, hi2, hl2⟩
            exact ⟨g2, hm2.trans hm, hk2.trans hk, hi2.trans hi, hl2.trans hl⟩

end Teddy
