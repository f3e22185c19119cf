import Verif.Proofs.Mcvs
import Verif.Proofs.OpsLemmas
import Verif.Proofs.PlaLemmas
import Verif.WorldSpec

/-! `from_pla` builds the cover. -/

namespace Teddy

open SM Spec

variable {E : Env} {c : Cfg}

/-! ### Making several diagrams -/

/-- A handle holds a diagram of the function, or is empty if there is none. -/
def HandR (c : Cfg) (s : Mgr) (o : Option Ptr) (t : Option (Asg → Int)) : Prop :=
  match t with
  | some f => ∃ p, o = some p ∧ Den c s p f
  | none => o = none

/-- Making a handle or none. -/
structure ResO (E : Env) (ext : Ptr → Nat) (s : Mgr) (t : Option (Asg → Int)) (o : Option Ptr)
    (s' : Mgr) : Prop where
  good : Good E (extL ext [o]) s'
  keeps : KeepsH ext s s'
  den : HandR E.c s' o t
  mark : ∀ p, s'.mark p = true → s.mark p = true

theorem extL_some (ext : Ptr → Nat) (r p : Ptr) : addExt ext r p = extL ext [some r] p := by
  simp only [addExt, extL, upd_apply, List.count_cons, List.count_nil]
  by_cases e : p = r
  · subst e; simp
  · simp [e, Ne.symm e]

theorem Res.toO {ext : Ptr → Nat} {s s' : Mgr} {f : Asg → Int} {r : Ptr} (h : Res E ext s f r s') :
    ResO E ext s (some f) (some r) s' :=
  ⟨h.good.ext_eq (extL_some ext r), h.keeps, ⟨r, rfl, h.den⟩, h.mark⟩

theorem ResO.none {ext : Ptr → Nat} {s : Mgr} (g : Good E ext s) : ResO E ext s none none s :=
  ⟨g.ext_eq fun p => by simp [extL], .refl _ _, rfl, fun _ h => h⟩

theorem HandR.keeps {ext : Ptr → Nat} {s s' : Mgr} {o : Option Ptr} {t : Option (Asg → Int)}
    (h : HandR c s o t) (k : KeepsH (extL ext [o]) s s') : HandR c s' o t := by
  cases t with
  | none => exact h
  | some f =>
    obtain ⟨p, rfl, hd⟩ := h
    exact ⟨p, rfl, k.den (extL_pos (j := 0) rfl) hd⟩

theorem mapL_handles {α : Type} {m : α → M (Option Ptr)} {φ : α → Option (Asg → Int)} :
    ∀ (l : List α), (∀ a ∈ l, ∀ ext s, Good E ext s → Ok (m a) s (fun o s' => ResO E ext s (φ a) o s')) →
    ∀ ext s, Good E ext s → Ok (mapL m l) s (fun os s' => Good E (extL ext os) s' ∧ KeepsH ext s s' ∧
      List.Forall₂ (HandR E.c s') os (l.map φ) ∧ ∀ p, s'.mark p = true → s.mark p = true) := by
  intro l
  induction l with
  | nil =>
    intro _ ext s g
    exact Ok.pure ⟨g.ext_eq fun p => by simp [extL], .refl _ _, .nil, fun _ h => h⟩
  | cons a l ih =>
    intro h ext s g
    simp only [mapL]
    refine Ok.bind (h a (List.mem_cons_self ..) ext s g) ?_
    intro o s1 r1
    refine Ok.bind (ih (fun b hb => h b (List.mem_cons_of_mem _ hb)) _ s1 r1.good) ?_
    rintro os s2 ⟨g2, k2, d2, m2⟩
    refine Ok.pure ⟨g2.ext_eq ?_, r1.keeps.trans (k2.mono ?_), .cons (r1.den.keeps k2) d2,
      fun p hp => r1.mark p (m2 p hp)⟩
    · intro p
      simp only [extL, List.count_cons, List.count_nil]
      omega
    · intro p hp
      unfold extL; omega

/-- Leaving out the empty handles. -/
theorem handles_filter {s : Mgr} {os : List (Option Ptr)} {ts : List (Option (Asg → Int))}
    (h : List.Forall₂ (HandR c s) os ts) : Holds c s (os.filterMap id) (ts.filterMap id) := by
  induction h with
  | nil => exact .nil
  | @cons o t os ts h1 _ ih =>
    cases t with
    | none => cases h1; simpa using ih
    | some f =>
      obtain ⟨p, rfl, hd⟩ := h1
      simpa using .cons hd ih

theorem extL_filter (ext : Ptr → Nat) (os : List (Option Ptr)) (p : Ptr) :
    extL ext os p = extL ext ((os.filterMap id).map some) p := by
  unfold extL
  congr 1
  induction os with
  | nil => rfl
  | cons o os ih =>
    cases o with
    | none => simpa [List.count_cons] using ih
    | some q => simp [List.count_cons, ih]

/-! ### Folding a vector that is destroyed afterwards -/

theorem leftFoldDrop_good {op : BinOp} {ext : Ptr → Nat} {s : Mgr} (hau : E.auto = false) (hca : E.cache = true)
    (hΓ : E.Γ (opType E.c op).id = opType E.c op) {ps : List Ptr} {f : Asg → Int}
    {fs : List (Asg → Int)} (g : Good E (extL ext (ps.map some)) s) (hh : Holds E.c s ps (f :: fs))
    (hok : FoldOK E.c (opType E.c op) f fs) :
    Ok (do let r ← leftFold E.c op ps; dropAll (ps.map some); pure r) s (fun r s' =>
      Res E ext s (foldFun (opType E.c op) (f :: fs)) r s') := by
  cases hh with
  | @cons d _ ds _ h1 h2 =>
    refine Ok.bind (leftFold_good hau hca hΓ g (fun p hp => ?_) (.cons h1 h2) hok) ?_
    · obtain ⟨j, hj⟩ := List.getElem?_of_mem hp
      exact extL_pos (j := j) (by rw [List.getElem?_map, hj]; rfl)
    intro r s1 r1
    refine Ok.bind (dropAll_good (ext := addExt ext r) _ s1 (r1.good.ext_eq ?_)) ?_
    · intro q
      simp only [addExt, extL, upd_apply]
      by_cases e : q = r
      · subst e; simp; omega
      · simp [e]
    rintro _ s2 ⟨g2, hm, hk, hi, hl⟩
    refine Ok.pure ⟨g2, (r1.keeps.mono ?_).trans (KeepsH.of_kind hk hi hl), ?_, ?_⟩
    · intro p hp; unfold extL; omega
    · intro x hx; rw [hk]; exact r1.den x hx
    · intro p hp; rw [hm] at hp; exact r1.mark p hp

theorem treeFoldDrop_good {op : BinOp} {ext : Ptr → Nat} {s : Mgr} (hau : E.auto = false) (hca : E.cache = true)
    (hΓ : E.Γ (opType E.c op).id = opType E.c op) {ps : List Ptr}
    {fs : List (Asg → Int)} (hne : fs ≠ []) (g : Good E (extL ext (ps.map some)) s) (hh : Holds E.c s ps fs)
    (hok : TreeOK E.c (opType E.c op) (ceilLog2 fs.length) fs) :
    Ok (do let (r, rest) ← treeFold E.c op (ps.map some); dropAll rest; pure r) s (fun r s' =>
      Res E ext s (treeFun (opType E.c op) fs) r s') := by
  have hlen : (ps.map some).length = fs.length := by simpa using hh.length_eq
  refine Ok.bind (treeFold_good hau hca hΓ hne hlen hok g ?_) ?_
  · intro j f hf
    have hjf := (List.getElem?_eq_some_iff.1 hf).1
    have hj : j < ps.length := by rw [hh.length_eq]; exact hjf
    refine ⟨ps[j], by simp [hj], ?_⟩
    have := (List.forall₂_iff_get.1 hh).2 j hj hjf
    rw [show fs.get ⟨j, hjf⟩ = f from (List.getElem?_eq_some_iff.1 hf).2] at this
    exact this
  rintro ⟨r, rest⟩ s2 ⟨_, g2, k2, d2, m2⟩
  dsimp only at g2 d2 ⊢
  refine Ok.bind (dropAll_good (ext := addExt ext r) rest s2 (g2.ext_eq ?_)) ?_
  · intro q
    simp only [addExt, extL, upd_apply]
    by_cases e : q = r
    · subst e; simp; omega
    · simp [e]
  rintro _ s3 ⟨g3, hm3, hk3, hi3, hl3⟩
  refine Ok.pure ⟨g3, k2.trans (KeepsH.of_kind hk3 hi3 hl3), ?_, ?_⟩
  · intro x hx; rw [hk3]; exact d2 x hx
  · intro p hpm
    rw [hm3] at hpm
    exact m2 p hpm

theorem Res.congr {ext : Ptr → Nat} {s s' : Mgr} {f h : Asg → Int} {r : Ptr} (R : Res E ext s f r s')
    (e : ∀ x, Valid E.c x → f x = h x) : Res E ext s h r s' :=
  ⟨R.good, R.keeps, fun x hx => by rw [← e x hx]; exact R.den x hx, R.mark⟩

/-! ### Conjunctions and disjunctions of bits -/

section
theorem FoldOK.of_closed {op : BinOp} {A : Int → Prop} (hop : OpOK c op A A)
    (hcl : ∀ a b, A a → A b → A (op.val a b)) : ∀ {fs : List (Asg → Int)} {f : Asg → Int},
    (∀ g ∈ f :: fs, ∀ x, InDomain c.n c.dom x → A (g x)) → FoldOK c op f fs
  | [], _, _ => trivial
  | g :: gs, f, h => by
      refine ⟨hop.mono ?_ ?_, FoldOK.of_closed hop hcl ?_⟩
      · rintro v ⟨x, hx, rfl⟩; exact h f (by simp) x hx
      · rintro v ⟨x, hx, rfl⟩; exact h g (by simp) x hx
      · intro k hk x hx
        rcases List.mem_cons.1 hk with rfl | hk
        · exact hcl _ _ (h f (by simp) x hx) (h g (by simp) x hx)
        · exact h k (by simp [hk]) x hx

theorem and_closed (a b : Int) (ha : a = 0 ∨ a = 1) (hb : b = 0 ∨ b = 1) :
    Op.AND.val a b = 0 ∨ Op.AND.val a b = 1 := by
  rcases ha with rfl | rfl <;> rcases hb with rfl | rfl <;> decide

theorem and_assoc' (a b d : Int) (ha : a = 0 ∨ a = 1) (hb : b = 0 ∨ b = 1) (hd : d = 0 ∨ d = 1) :
    Op.AND.val (Op.AND.val a b) d = Op.AND.val a (Op.AND.val b d) := by
  rcases ha with rfl | rfl <;> rcases hb with rfl | rfl <;> rcases hd with rfl | rfl <;> decide

end

theorem or_closed (a b : Int) (ha : a = 0 ∨ a = 1) (hb : b = 0 ∨ b = 1) :
    Op.OR.val a b = 0 ∨ Op.OR.val a b = 1 := by
  rcases ha with rfl | rfl <;> rcases hb with rfl | rfl <;> decide

theorem or_assoc' (a b d : Int) (ha : a = 0 ∨ a = 1) (hb : b = 0 ∨ b = 1) (hd : d = 0 ∨ d = 1) :
    Op.OR.val (Op.OR.val a b) d = Op.OR.val a (Op.OR.val b d) := by
  rcases ha with rfl | rfl <;> rcases hb with rfl | rfl <;> rcases hd with rfl | rfl <;> decide

theorem and00 : Op.AND.val 0 0 = 0 := by decide
theorem and01 : Op.AND.val 0 1 = 0 := by decide
theorem and10 : Op.AND.val 1 0 = 0 := by decide
theorem and11 : Op.AND.val 1 1 = 1 := by decide
theorem or00 : Op.OR.val 0 0 = 0 := by decide
theorem or01 : Op.OR.val 0 1 = 1 := by decide
theorem or10 : Op.OR.val 1 0 = 1 := by decide
theorem or11 : Op.OR.val 1 1 = 1 := by decide

theorem foldl_AND : ∀ (vs : List Int) (v : Int), (v = 0 ∨ v = 1) → (∀ w ∈ vs, w = 0 ∨ w = 1) →
    vs.foldl Op.AND.val v = if v = 1 ∧ ∀ w ∈ vs, w = 1 then 1 else 0 := by
  intro vs
  induction vs with
  | nil => intro v hv _; rcases hv with rfl | rfl <;> simp
  | cons w vs ih =>
    intro v hv h
    have hw := h w (List.mem_cons_self ..)
    rw [List.foldl_cons, ih _ ?_ (fun u hu => h u (List.mem_cons_of_mem _ hu))]
    · rcases hv with rfl | rfl <;> rcases hw with rfl | rfl <;> simp [and00, and01, and10, and11]
    · rcases hv with rfl | rfl <;> rcases hw with rfl | rfl <;> decide

theorem foldl_OR : ∀ (vs : List Int) (v : Int), (v = 0 ∨ v = 1) → (∀ w ∈ vs, w = 0 ∨ w = 1) →
    vs.foldl Op.OR.val v = if v = 1 ∨ ∃ w ∈ vs, w = 1 then 1 else 0 := by
  intro vs
  induction vs with
  | nil => intro v hv _; rcases hv with rfl | rfl <;> simp
  | cons w vs ih =>
    intro v hv h
    have hw := h w (List.mem_cons_self ..)
    rw [List.foldl_cons, ih _ ?_ (fun u hu => h u (List.mem_cons_of_mem _ hu))]
    · rcases hv with rfl | rfl <;> rcases hw with rfl | rfl <;> simp [or00, or01, or10, or11]
    · rcases hv with rfl | rfl <;> rcases hw with rfl | rfl <;> decide

/-- What `from_pla` needs of the manager. -/
structure PlaEnv (E : Env) : Prop where
  cache : E.cache = true
  and : E.Γ Op.AND.id = Op.AND
  or : E.Γ Op.OR.id = Op.OR
  two : E.c.fixedDom = some 2
  auto : E.auto = false

theorem PlaEnv.opAND (h : PlaEnv E) : opType E.c Op.AND = Op.AND := by
  unfold opType; rw [h.two]; exact if_neg (by decide)

theorem PlaEnv.opOR (h : PlaEnv E) : opType E.c Op.OR = Op.OR := by
  unfold opType; rw [h.two]; exact if_neg (by decide)

theorem PlaEnv.one (h : PlaEnv E) : TermOK E.c 1 :=
  ⟨by decide, fun _ m hm => by rw [h.two] at hm; cases hm; decide⟩

theorem PlaEnv.bit (h : PlaEnv E) (g : CfgOK E.c) {x : Asg} (hx : Valid E.c x) {i : Nat} (hi : i < E.c.n) :
    x i = 0 ∨ x i = 1 := by
  have h1 := hx i hi
  have h2 := g.fixed 2 h.two i hi
  omega

/-- The fold of bits by AND, made of owned literals. -/
theorem andFold_good (hE : PlaEnv E) {ext : Ptr → Nat} {s : Mgr} {ps : List Ptr}
    {fs : List (Asg → Int)} (hne : fs ≠ []) (g : Good E (extL ext (ps.map some)) s)
    (hh : Holds E.c s ps fs) (hb : ∀ f ∈ fs, ∀ x, Valid E.c x → f x = 0 ∨ f x = 1) :
    Ok (do let r ← leftFold E.c Op.AND ps; dropAll (ps.map some); pure r) s (fun r s' =>
      Res E ext s (fun x => if ∀ f ∈ fs, f x = 1 then 1 else 0) r s') := by
  obtain ⟨f, fs, rfl⟩ := List.exists_cons_of_ne_nil hne
  have e := hE.opAND
  refine (leftFoldDrop_good hE.auto hE.cache (by rw [e]; exact hE.and) g hh ?_).mono ?_
  · rw [e]
    exact FoldOK.of_closed (A := fun a => a = 0 ∨ a = 1)
      (opOK_AND (Bits.vals hE.one fun _ h => h) (Bits.vals hE.one fun _ h => h)) (fun a b => and_closed a b)
      fun k hk x hx => hb k hk x hx
  · intro r s' res
    rw [e] at res
    refine res.congr fun x hx => ?_
    simp only [foldFun]
    rw [foldl_AND _ _ (hb f (by simp) x hx)]
    · simp
    · intro w hw
      obtain ⟨k, hk, rfl⟩ := List.mem_map.1 hw
      exact hb k (by simp [hk]) x hx

/-- The fold of bits by OR. -/
theorem plaOrFold_good (hE : PlaEnv E) (tree : Bool) {ext : Ptr → Nat} {s : Mgr} {ps : List Ptr}
    {fs : List (Asg → Int)} (hne : fs ≠ []) (g : Good E (extL ext (ps.map some)) s)
    (hh : Holds E.c s ps fs) (hb : ∀ f ∈ fs, ∀ x, Valid E.c x → f x = 0 ∨ f x = 1) :
    Ok (plaOrFold E.c tree ps) s (fun r s' =>
      Res E ext s (fun x => if ∃ f ∈ fs, f x = 1 then 1 else 0) r s') := by
  have e := hE.opOR
  have hop : OpOK E.c Op.OR (fun a => a = 0 ∨ a = 1) (fun a => a = 0 ∨ a = 1) :=
    opOK_OR hE.one (fun _ h => h) (fun _ h => h)
  obtain ⟨f, fs, rfl⟩ := List.exists_cons_of_ne_nil hne
  have hbx : ∀ x, Valid E.c x → ∀ w ∈ fs.map (fun g => g x), w = 0 ∨ w = 1 := by
    intro x hx w hw
    obtain ⟨k, hk, rfl⟩ := List.mem_map.1 hw
    exact hb k (by simp [hk]) x hx
  unfold plaOrFold
  cases tree with
  | false =>
    refine (leftFoldDrop_good hE.auto hE.cache (by rw [e]; exact hE.or) g hh ?_).mono ?_
    · rw [e]
      exact FoldOK.of_closed hop (fun a b => or_closed a b) fun k hk x hx => hb k hk x hx
    · intro r s' res
      rw [e] at res
      refine res.congr fun x hx => ?_
      simp only [foldFun]
      rw [foldl_OR _ _ (hb f (by simp) x hx) (hbx x hx)]
      simp
  | true =>
    refine (treeFoldDrop_good hE.auto hE.cache (by rw [e]; exact hE.or) hne g hh ?_).mono ?_
    · rw [e]
      exact TreeOK.of_closed hop (fun a b => or_closed a b) _ fun k hk x hx => hb k hk x hx
    · intro r s' res
      rw [e] at res
      refine res.congr fun x hx => ?_
      rw [treeFun_eq (A := fun a => a = 0 ∨ a = 1) (fun a b => or_closed a b)
        (fun a b d => or_assoc' a b d) (fun k hk => hb k hk x hx),
        foldl_OR _ _ (hb f (by simp) x hx) (hbx x hx)]
      simp

/-! ### Lines -/

/-- The literal of variable `i` for the value `v`. -/
def litFun (v : Int) (i : Nat) : Option (Asg → Int) :=
  if v = 1 then some fun x => x i else if v = 0 then some fun x => 1 - x i else none

theorem vals_get {A : Bool} {cube : Pla.Cube} {i : Nat} {v : Int} (hi : i < cube.size.toNat)
    (h : cube.get A i = .ok v) : (cube.vals A).getD i 3 = v := by
  unfold Pla.Cube.vals
  simp [List.getD_eq_getElem?_getD, hi, h]

theorem vals_length (A : Bool) (cube : Pla.Cube) : (cube.vals A).length = cube.size.toNat := by
  simp [Pla.Cube.vals]

theorem plaLiteral_good (hE : PlaEnv E) {cube : Pla.Cube} (hr : cube.Reads E.c.asserts) {i : Nat}
    (hi : i < cube.size.toNat) (hn : i < E.c.n) (ext : Ptr → Nat) (s : Mgr) (g : Good E ext s) :
    Ok (plaLiteral E.c cube i) s (fun o s' => ResO E ext s (litFun ((cube.vals E.c.asserts).getD i 3) i) o s') := by
  obtain ⟨v, hv⟩ := hr i hi
  rw [vals_get hi hv]
  unfold plaLiteral litFun
  rw [hv]
  refine Ok.bindEq (a := v) (s' := s) rfl ?_
  by_cases h1 : v = 1
  · rw [if_pos h1, if_pos h1]
    refine Ok.bind (variableD_good g hn) ?_
    intro p s1 nd
    exact Ok.pure nd.res.toO
  · rw [if_neg h1, if_neg h1]
    refine Ok.bindEq (a := v) (s' := s) rfl ?_
    by_cases h0 : v = 0
    · rw [if_pos h0, if_pos h0]
      refine Ok.bind (variableNot_good g hn hE.two) ?_
      intro p s1 nd
      exact Ok.pure nd.res.toO
    · rw [if_neg h0, if_neg h0]
      exact Ok.pure (ResO.none g)

theorem plaProduct_good (hE : PlaEnv E) {cube : Pla.Cube} (hr : cube.Reads E.c.asserts)
    (hn : cube.size ≤ E.c.n) (hl : ∃ v ∈ cube.vals E.c.asserts, v = 0 ∨ v = 1)
    (ext : Ptr → Nat) (s : Mgr) (g : Good E ext s) :
    Ok (plaProduct E.c cube) s (fun r s' =>
      Res E ext s (fun x => if Matches (cube.vals E.c.asserts) x then 1 else 0) r s') := by
  have hcfg := g.cfg
  have hlt : ∀ i < cube.size.toNat, i < E.c.n := fun i hi => by omega
  unfold plaProduct
  refine Ok.bind (mapL_handles (φ := fun i => litFun ((cube.vals E.c.asserts).getD i 3) i) _
    (fun i hi ext s g => plaLiteral_good hE hr (List.mem_range.1 hi) (hlt i (List.mem_range.1 hi)) ext s g)
    ext s g) ?_
  rintro os s1 ⟨g1, k1, d1, m1⟩
  have hmem : ∀ f, f ∈ ((List.range cube.size.toNat).map
      fun i => litFun ((cube.vals E.c.asserts).getD i 3) i).filterMap id ↔
      ∃ i < cube.size.toNat, litFun ((cube.vals E.c.asserts).getD i 3) i = some f := by
    intro f; simp
  refine (andFold_good hE (ext := ext) ?_ (g1.ext_eq (extL_filter ext os)) (handles_filter d1) ?_).mono ?_
  · obtain ⟨v, hv, h01⟩ := hl
    obtain ⟨i, hi⟩ := List.getElem?_of_mem hv
    have hlen := (List.getElem?_eq_some_iff.1 hi).1
    rw [vals_length] at hlen
    have hg : (cube.vals E.c.asserts).getD i 3 = v := by rw [List.getD_eq_getElem?_getD, hi]; rfl
    have : ∃ f, litFun v i = some f := by
      unfold litFun
      rcases h01 with rfl | rfl
      · exact ⟨_, rfl⟩
      · exact ⟨_, rfl⟩
    obtain ⟨f, hf⟩ := this
    exact List.ne_nil_of_mem ((hmem f).2 ⟨i, hlen, by rw [hg]; exact hf⟩)
  · intro f hf x hx
    obtain ⟨i, hi, e⟩ := (hmem f).1 hf
    have hb := hE.bit hcfg hx (hlt i hi)
    unfold litFun at e
    split at e
    · cases e; dsimp only; omega
    · split at e
      · cases e; dsimp only; omega
      · cases e
  · intro r s' res
    refine ⟨res.good, k1.trans res.keeps, ?_, fun p hp => m1 p (res.mark p hp)⟩
    have : ∀ x, Valid E.c x → ((if ∀ f ∈ ((List.range cube.size.toNat).map
      fun i => litFun ((cube.vals E.c.asserts).getD i 3) i).filterMap id, f x = 1 then 1 else 0 : Int) =
      if Matches (cube.vals E.c.asserts) x then 1 else 0) := by
      intro x hx
      congr 1
      apply propext
      unfold Matches
      rw [vals_length]
      constructor
      · intro h i hi
        have hb := hE.bit hcfg hx (hlt i hi)
        refine ⟨fun hv => ?_, fun hv => ?_⟩
        · have := h _ ((hmem _).2 ⟨i, hi, by rw [hv]; rfl⟩)
          omega
        · have := h _ ((hmem _).2 ⟨i, hi, by rw [hv]; rfl⟩)
          omega
      · intro h f hf
        obtain ⟨i, hi, e⟩ := (hmem f).1 hf
        obtain ⟨h1, h0⟩ := h i hi
        unfold litFun at e
        split at e
        · rename_i hv; cases e; have := h1 hv; dsimp only; omega
        · split at e
          · rename_i hv; cases e; have := h0 hv; dsimp only; omega
          · cases e
    intro x hx
    dsimp only
    rw [← this x hx]
    exact res.den x hx

/-- The product of a line for output `j`, if it has one. -/
def lineFun (A : Bool) (j : Nat) (l : Pla.Line) : Option (Asg → Int) :=
  if (l.fVals.vals A).getD j 3 = 1 then some fun x => if Matches (l.cube.vals A) x then 1 else 0 else none

theorem plaLine_good (hE : PlaEnv E) {file : Pla.File} (hf : PlaOK E.c.asserts E.c.n file) {l : Pla.Line}
    (hl : l ∈ file.lines) {j : Nat} (hj : j < l.fVals.size.toNat) (ext : Ptr → Nat) (s : Mgr)
    (g : Good E ext s) :
    Ok (plaLine E.c j l) s (fun o s' => ResO E ext s (lineFun E.c.asserts j l) o s') := by
  obtain ⟨v, hv⟩ := (hf.reads l hl).2 j hj
  unfold plaLine lineFun
  rw [vals_get hj hv, hv]
  refine Ok.bindEq (a := v) (s' := s) rfl ?_
  by_cases h1 : v = 1
  · rw [if_pos h1, if_pos h1]
    refine Ok.bind (plaProduct_good hE (hf.reads l hl).1 (hf.inputs l hl) (hf.literals l hl ?_) ext s g) ?_
    · have := vals_get hj hv
      rw [List.getD_eq_getElem?_getD, List.getElem?_eq_getElem (by rw [vals_length]; exact hj)] at this
      rw [← h1, ← this]
      exact List.getElem_mem _
    intro p s1 res
    exact Ok.pure res.toO
  · rw [if_neg h1, if_neg h1]
    exact Ok.pure (ResO.none g)

theorem plaFunction_good (hE : PlaEnv E) {file : Pla.File} (hf : PlaOK E.c.asserts E.c.n file) (tree : Bool)
    {j : Nat} (hj : ∀ l ∈ file.lines, j < l.fVals.size.toNat) (ext : Ptr → Nat) (s : Mgr)
    (g : Good E ext s) :
    Ok (plaFunction E.c file tree j) s (fun r s' => Res E ext s (plaFun E.c.asserts file j) r s') := by
  unfold plaFunction
  refine Ok.bind (mapL_handles (φ := lineFun E.c.asserts j) _
    (fun l hl ext s g => plaLine_good hE hf hl (hj l hl) ext s g) ext s g) ?_
  rintro os s1 ⟨g1, k1, d1, m1⟩
  have hmem : ∀ f, f ∈ (file.lines.map (lineFun E.c.asserts j)).filterMap id ↔
      ∃ l ∈ file.lines, lineFun E.c.asserts j l = some f := by
    intro f; simp
  have hbits : ∀ f ∈ (file.lines.map (lineFun E.c.asserts j)).filterMap id, ∀ x, Valid E.c x →
      f x = 0 ∨ f x = 1 := by
    intro f hf x hx
    obtain ⟨l, _, e⟩ := (hmem f).1 hf
    unfold lineFun at e
    split at e
    · cases e; dsimp only; split <;> simp
    · cases e
  have hval : ∀ x, ((if ∃ f ∈ (file.lines.map (lineFun E.c.asserts j)).filterMap id, f x = 1 then 1 else 0 : Int) =
      plaFun E.c.asserts file j x) := by
    intro x
    unfold plaFun
    congr 1
    apply propext
    constructor
    · rintro ⟨f, hf, e1⟩
      obtain ⟨l, hl, e⟩ := (hmem f).1 hf
      unfold lineFun at e
      split at e
      · rename_i hv
        cases e
        dsimp only at e1
        refine ⟨l, hl, hv, ?_⟩
        by_contra hc
        rw [if_neg hc] at e1
        cases e1
      · cases e
    · rintro ⟨l, hl, hv, hm⟩
      exact ⟨_, (hmem _).2 ⟨l, hl, by unfold lineFun; rw [if_pos hv]⟩, if_pos hm⟩
  have hh := handles_filter d1
  have g1' := g1.ext_eq (extL_filter ext os)
  generalize hps : os.filterMap id = ps at hh g1'
  generalize hfs : (file.lines.map (lineFun E.c.asserts j)).filterMap id = fs at *
  cases hh with
  | nil =>
    dsimp only
    have g1'' : Good E ext s1 := g1'.ext_eq fun p => by simp [extL]
    refine Ok.bind (constant_good g1'' (hE.one.of_le (by omega) (by omega) : TermOK E.c 0)) ?_
    intro p s2 nd
    have res := nd.res
    refine (plaOrFold_good hE tree (ext := ext) (ps := [p]) (fs := [fun _ => 0]) (by simp) (res.good.ext_eq (extL_some ext p))
      (.cons res.den .nil) ?_).mono ?_
    · intro f hf x _; cases List.mem_singleton.1 hf; exact .inl rfl
    · intro r s' res'
      refine ⟨res'.good, (k1.trans res.keeps).trans res'.keeps, ?_,
        fun p hp => m1 p (res.mark p (res'.mark p hp))⟩
      intro x hx
      rw [← hval x]
      have := res'.den x hx
      simpa using this
  | @cons p f ps fs h1 h2 =>
    dsimp only
    refine (plaOrFold_good hE tree (ext := ext) (fs := f :: fs) (by simp) g1' (.cons h1 h2) hbits).mono ?_
    intro r s' res'
    refine ⟨res'.good, k1.trans res'.keeps, ?_, fun p hp => m1 p (res'.mark p hp)⟩
    intro x hx
    rw [← hval x]
    exact res'.den x hx

theorem mapL_diagrams {α : Type} {m : α → M Ptr} {φ : α → Asg → Int} :
    ∀ (l : List α), (∀ a ∈ l, ∀ ext s, Good E ext s → Ok (m a) s (fun r s' => Res E ext s (φ a) r s')) →
    ∀ ext s, Good E ext s → Ok (mapL m l) s (fun ps s' => Good E (extL ext (ps.map some)) s' ∧
      KeepsH ext s s' ∧ Holds E.c s' ps (l.map φ) ∧ ∀ p, s'.mark p = true → s.mark p = true) := by
  intro l
  induction l with
  | nil =>
    intro _ ext s g
    exact Ok.pure ⟨g.ext_eq fun p => by simp [extL], .refl _ _, .nil, fun _ h => h⟩
  | cons a l ih =>
    intro h ext s g
    simp only [mapL]
    refine Ok.bind (h a (List.mem_cons_self ..) ext s g) ?_
    intro r s1 r1
    refine Ok.bind (ih (fun b hb => h b (List.mem_cons_of_mem _ hb)) _ s1 r1.good) ?_
    rintro ps s2 ⟨g2, k2, d2, m2⟩
    have hpos : ∀ p, 0 < ext p → 0 < addExt ext r p := by
      intro p hp; rw [extL_some]; unfold extL; omega
    refine Ok.pure ⟨g2.ext_eq ?_, r1.keeps.trans (k2.mono hpos), .cons (k2.den ?_ r1.den) d2,
      fun p hp => r1.mark p (m2 p hp)⟩
    · intro p
      have := extL_some ext r p
      unfold extL at this ⊢
      rw [this]
      simp only [List.map_cons, List.count_cons, List.count_nil]
      omega
    · rw [extL_some]; exact extL_pos (j := 0) rfl

theorem fromPla_good (hE : PlaEnv E) {file : Pla.File} (hf : PlaOK E.c.asserts E.c.n file) (tree : Bool)
    {ext : Ptr → Nat} {s : Mgr} (g : Good E ext s) :
    Ok (fromPla E.c file tree) s (fun ps s' => Good E (extL ext (ps.map some)) s' ∧
      KeepsH ext s s' ∧ Holds E.c s' ps (plaFuns E.c.asserts file) ∧
      ∀ p, s'.mark p = true → s.mark p = true) := by
  obtain ⟨l, ls, hls⟩ := List.exists_cons_of_ne_nil hf.lines
  have hfc : file.functionCount = .ok l.fVals.size := by unfold Pla.File.functionCount; rw [hls]
  have hpf : plaFuns E.c.asserts file = (List.range l.fVals.size.toNat).map (plaFun E.c.asserts file) := by
    unfold plaFuns; rw [hls]
  unfold fromPla
  rw [hfc]
  refine Ok.bindEq (a := l.fVals.size) (s' := s) rfl ?_
  rw [hpf]
  refine mapL_diagrams _ (fun j hj ext s g => plaFunction_good hE hf tree ?_ ext s g) ext s g
  intro l' hl'
  rw [hf.outputs l' hl' l (by rw [hls]; exact List.mem_cons_self ..)]
  exact List.mem_range.1 hj

end Teddy
