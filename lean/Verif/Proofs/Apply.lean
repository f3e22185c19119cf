import Verif.Proofs.Good
import Verif.Diagram

/-! `apply_impl` computes the operation pointwise. -/

namespace Teddy

open SM

/-- `q` is reachable from `p`. -/
inductive Reach (kind : Ptr → Kind) : Ptr → Ptr → Prop
  | refl {p : Ptr} : Reach kind p p
  | step {p q r : Ptr} {i : Nat} {ss : List Ptr} :
      kind p = .inner i ss → q ∈ ss → Reach kind q r → Reach kind p r

/-- Values of the terminals reachable from `p`. -/
def LeafVal (kind : Ptr → Kind) (p : Ptr) (v : Int) : Prop :=
  ∃ q, Reach kind p q ∧ kind q = .leaf v

theorem OpOK.mono {c : Cfg} {op : BinOp} {A B A' B' : Int → Prop} (h : OpOK c op A B)
    (hA : ∀ a, A' a → A a) (hB : ∀ b, B' b → B b) : OpOK c op A' B' where
  ndA a ha := h.ndA a (hA a ha)
  ndB b hb := h.ndB b (hB b hb)
  total a' b' ha hb := by
    obtain ⟨v, h1, h2, h3⟩ := h.total a' b' (ha.imp_left (hA a')) (hb.imp_left (hB b'))
    exact ⟨v, h1, h2, fun hv => ⟨(h3 hv).1, fun a b ha hb => (h3 hv).2 a b (hA a ha) (hB b hb)⟩⟩
  comm hc a b ha hb := h.comm hc a b (hA a ha) (hB b hb)

section
variable {E : Env} {ext : Ptr → Nat} {s : Mgr}

theorem Ev.leafVal {kind : Ptr → Kind} {x : Asg} {p : Ptr} {v : Int} (h : Ev kind x p v) :
    LeafVal kind p v := by
  induction h with
  | leaf hk => exact ⟨_, .refl, hk⟩
  | inner hk hq _ ih =>
      obtain ⟨r, h1, h2⟩ := ih
      exact ⟨r, .step hk (List.mem_of_getElem? hq) h1, h2⟩

theorem Reach.prot {tmp : List Ptr} {p q : Ptr} (h : Reach s.kind p q)
    (hp : Prot ext tmp s p) : Prot ext tmp s q := by
  induction h with
  | refl => exact hp
  | step hk hq _ ih => exact ih (.son hp hk hq)

theorem Reach.keeps {tmp : List Ptr} {s' : Mgr} (k : Keeps ext tmp s s') {p q : Ptr}
    (hp : Prot ext tmp s p) (h : Reach s'.kind p q) : Reach s.kind p q := by
  induction h with
  | refl => exact .refl
  | step hk hq _ ih =>
      rw [k.kind _ hp] at hk
      exact .step hk hq (ih (.son hp hk hq))

theorem LeafVal.keeps {tmp : List Ptr} {s' : Mgr} (k : Keeps ext tmp s s') {p : Ptr} {v : Int}
    (hp : Prot ext tmp s p) (h : LeafVal s'.kind p v) : LeafVal s.kind p v := by
  obtain ⟨q, h1, h2⟩ := h
  have h3 := h1.keeps k hp
  exact ⟨q, h3, by rw [← k.kind q (h3.prot hp)]; exact h2⟩

/-- The value `apply_impl` reads from an operand. -/
def Mgr.topVal (s : Mgr) (p : Ptr) : Int :=
  match s.kind p with
  | .leaf v => v
  | .inner _ _ => Nondetermined

theorem valueOrND_ok {p : Ptr} (h : s.used p = true) :
    valueOrND p s = .ok (s.topVal p, s) := by
  unfold valueOrND
  rw [bind_ok (getKind_ok h)]
  cases hk : s.kind p <;> simp [Mgr.topVal, hk]

theorem topVal_leaf {p : Ptr} : LeafVal s.kind p (s.topVal p) ∨ s.topVal p = Nondetermined := by
  cases hk : s.kind p with
  | leaf v => left; exact ⟨p, .refl, by simp [Mgr.topVal, hk]⟩
  | inner i ss => right; simp [Mgr.topVal, hk]

theorem topVal_ev {x : Asg} {p : Ptr} {a : Int} (h : Ev s.kind x p a) :
    s.topVal p = Nondetermined ∨ a = s.topVal p := by
  cases h with
  | leaf hk => right; simp [Mgr.topVal, hk]
  | inner hk _ _ => left; simp [Mgr.topVal, hk]

/-- The node `sonAtTop` returns. -/
def Mgr.cofNode (c : Cfg) (s : Mgr) (p : Ptr) (top k : Nat) : Ptr :=
  if s.levelOf c p = top then ((s.sonsOf p)[k]?).getD 0 else p

/-- Facts about the cofactor of an operand at the top level. -/
theorem cofNode_spec {c : Cfg} {tmp : List Ptr} (h : Inv c ext tmp s) (ho : Ordered c s) {p : Ptr}
    {i k : Nat} (hi : i < c.n) (hp : s.used p = true) (hl : s.idx2lvl i ≤ s.levelOf c p)
    (hk : k < c.dom i) :
    (Reach s.kind p (s.cofNode c p (s.idx2lvl i) k)) ∧
    sonAtTop p (s.levelOf c p) (s.idx2lvl i) k s
      = .ok (s.cofNode c p (s.idx2lvl i) k, s) ∧
    s.idx2lvl i < s.levelOf c (s.cofNode c p (s.idx2lvl i) k) ∧
    (∀ x v, x i = k → Ev s.kind x p v → Ev s.kind x (s.cofNode c p (s.idx2lvl i) k) v) ∧
    (∀ x v, x i = k → Ev s.kind x (s.cofNode c p (s.idx2lvl i) k) v → Ev s.kind x p v) := by
  unfold Mgr.cofNode sonAtTop
  by_cases e : s.levelOf c p = s.idx2lvl i
  · rw [if_pos e, if_pos e]
    cases hkp : s.kind p with
    | leaf v =>
        have := h.order.i2l_lt i hi
        simp [Mgr.levelOf, hkp] at e
        omega
    | inner j ss =>
        obtain ⟨hj, hlen, hu⟩ := h.sons p j ss hp hkp
        have hji : j = i := by
          have e2 : s.idx2lvl j = s.idx2lvl i := by simpa [Mgr.levelOf, hkp] using e
          have h1 := h.order.i2l2i j hj
          have h2 := h.order.i2l2i i hi
          rw [e2, h2] at h1
          exact h1.symm
        subst hji
        rw [sonsOf_inner hkp]
        have hlt : k < ss.length := by rw [hlen]; exact hk
        have hget : ss[k]? = some ss[k] := List.getElem?_eq_getElem hlt
        rw [hget, Option.getD_some]
        have hmem : ss[k] ∈ ss := List.getElem_mem hlt
        refine ⟨.step hkp hmem .refl, getSon_ok hp hkp hget, ?_, ?_, ?_⟩
        · rw [← e]; exact ho p j ss _ hp hkp hmem
        · intro x v hx hv
          cases hv with
          | leaf hk' => rw [hkp] at hk'; cases hk'
          | inner hk' hq hv =>
              rw [hkp] at hk'; cases hk'
              rw [hx, hget] at hq; cases hq
              exact hv
        · intro x v hx hv
          exact .inner hkp (by rw [hx]; exact hget) hv
  · rw [if_neg e, if_neg e]
    exact ⟨.refl, rfl, by omega, fun _ _ _ h => h, fun _ _ _ h => h⟩

theorem liftE_ok {σ α : Type} {e : Except Err α} {a : α} (h : e = .ok a) (s : σ) :
    liftE e s = .ok (a, s) := by
  subst h; rfl

theorem cacheFind_none {c : Cfg} {op : Nat} {comm : Bool} {l r : Ptr}
    (h : s.cache.find c.chash op (orderOperands c comm l r).1 (orderOperands c comm l r).2 = none) :
    cacheFind c op comm l r s = .ok (none, s) := by
  simp only [cacheFind, bind_run, get_run]
  rw [h]; rfl

theorem cacheFind_some {c : Cfg} {op : Nat} {comm : Bool} {l r p : Ptr}
    (h : s.cache.find c.chash op (orderOperands c comm l r).1 (orderOperands c comm l r).2 = some p)
    (hu : s.used p = true) :
    cacheFind c op comm l r s = .ok (some p, { s with mark := upd s.mark p true }) := by
  simp only [cacheFind, bind_run, get_run]
  rw [h]
  simp [bind_run, setMarked_ok hu]

theorem orderOperands_cases (c : Cfg) (comm : Bool) (l r : Ptr) :
    orderOperands c comm l r = (l, r) ∨ (comm = true ∧ orderOperands c comm l r = (r, l)) := by
  unfold orderOperands
  split
  · rename_i h
    simp at h
    exact Or.inr ⟨h.1, rfl⟩
  · exact Or.inl rfl

/-- What `apply_impl` must achieve. -/
def ApplyRes (E : Env) (ext : Ptr → Nat) (op : BinOp) (s : Mgr) (lhs rhs r : Ptr) (s' : Mgr) :
    Prop :=
  Step E ext s r s' ∧
    Rep E.c s' (min (s.levelOf E.c lhs) (s.levelOf E.c rhs)) r (fun x v =>
      ∃ a b, Ev s.kind x lhs a ∧ Ev s.kind x rhs b ∧ op.fn a b = .ok v)

theorem marked_good (g : Good E ext s) {r : Ptr} (hr : s.used r = true) :
    Step E ext s r { s with mark := upd s.mark r true } := by
  have m := Made.marked g.inv hr
  refine ⟨g.of_keeps m.keeps m.inv (m.ordered g.ord ?_) (fun hc => ?_)
    (fun hc => m.cache _ (g.cache hc)), m.keeps, m.prot, ?_⟩
  · intro i ss hk q hq
    exact g.ord r i ss q hr hk hq
  · exact ⟨(g.canon hc).nonred, (g.canon hc).nodup⟩
  · intro p hp
    rcases m.mark p hp with h1 | h1
    · exact Or.inl h1
    · exact Or.inr h1.1

/-- Storing a correct entry. -/
theorem cachePut_good {op : BinOp} (g : Good E ext s) (hΓ : E.Γ op.id = op) {lhs rhs r : Ptr}
    (hl : s.used lhs = true) (hr : s.used rhs = true) (hres : s.used r = true)
    (hcomm : op.comm = true → ∀ x, Valid E.c x → ∀ a b, Ev s.kind x lhs a → Ev s.kind x rhs b →
      op.fn a b = op.fn b a)
    (hlev : min (s.levelOf E.c lhs) (s.levelOf E.c rhs) ≤ s.levelOf E.c r)
    (hsem : ∀ x, Valid E.c x → ∀ a b, Ev s.kind x lhs a → Ev s.kind x rhs b →
      ∃ v, op.fn a b = .ok v ∧ Ev s.kind x r v) (hp : Prot ext [] s r) :
    Ok (cachePut E.c op.id op.comm r lhs rhs) s
      (fun _ s' => Step E ext s r s' ∧ s'.kind = s.kind ∧ s'.mark = s.mark ∧
        s'.idx2lvl = s.idx2lvl) := by
  have horder := orderOperands_cases E.c op.comm lhs rhs
  unfold cachePut
  generalize orderOperands E.c op.comm lhs rhs = ab at *
  obtain ⟨l, r'⟩ := ab
  refine Ok.modify ⟨?_, rfl, rfl, rfl⟩
  refine ⟨⟨g.cfg, ?_, g.ord, ⟨g.pool.extra, g.pool.den, g.pool.thr⟩, g.auto, g.defer, g.pool0,
    fun hc => ⟨(g.canon hc).nonred, (g.canon hc).nodup⟩, ?_⟩,
    ⟨fun p hp => hp.same rfl rfl, fun _ _ => rfl, rfl, rfl, rfl, rfl, fun _ => rfl, Nat.le_refl _⟩,
    hp.same rfl rfl, fun p h => Or.inr h⟩
  · exact g.inv.of_eq rfl rfl rfl rfl rfl rfl rfl rfl rfl rfl rfl rfl rfl rfl
  · intro hc
    refine Cache.All.put ?_ _ ?_
    · intro i e he
      have ok := g.cache hc i e he
      exact ok.same rfl rfl ⟨ok.lhs, ok.rhs, ok.res⟩
    · rcases horder with e | ⟨hcm, e⟩
      · cases e
        refine ⟨hl, hr, hres, hlev, ?_⟩
        dsimp only
        rw [hΓ]
        exact hsem
      · cases e
        refine ⟨hr, hl, hres, by rw [min_comm]; exact hlev, ?_⟩
        dsimp only
        rw [hΓ]
        intro x hx a b ha hb
        obtain ⟨v, h1, h2⟩ := hsem x hx b a hb ha
        exact ⟨v, by rw [← hcomm hcm x hx b a hb ha]; exact h1, h2⟩

theorem applyImpl_spec {op : BinOp} (hΓ : E.Γ op.id = op) (hca : E.cache = true) :
    ∀ (f : Nat) (s : Mgr) (lhs rhs : Ptr), Good E ext s → Prot ext [] s lhs → Prot ext [] s rhs →
      OpOK E.c op (LeafVal s.kind lhs) (LeafVal s.kind rhs) →
      E.c.n - min (s.levelOf E.c lhs) (s.levelOf E.c rhs) < f →
      Ok (applyImpl E.c op f lhs rhs) s (fun r s' => ApplyRes E ext op s lhs rhs r s') := by
  intro f
  induction f with
  | zero => intro s lhs rhs _ _ _ _ hf; omega
  | succ f ih =>
      intro s lhs rhs g hpl hpr hop hf
      have hul := hpl.used g.inv
      have hur := hpr.used g.inv
      have hcm : op.comm = true → ∀ x, Valid E.c x → ∀ a b, Ev s.kind x lhs a →
          Ev s.kind x rhs b → op.fn a b = op.fn b a :=
        fun hc x _ a b ha hb => hop.comm hc a b ha.leafVal hb.leafVal
      simp only [applyImpl]
      cases hfind : s.cache.find E.c.chash op.id (orderOperands E.c op.comm lhs rhs).1
          (orderOperands E.c op.comm lhs rhs).2 with
      | some r =>
          obtain ⟨i, he⟩ := Cache.find_some hfind
          have ok := g.cache hca i _ he
          have hur' : s.used r = true := ok.res
          refine Ok.bindEq (cacheFind_some hfind hur') (Ok.pure ⟨marked_good g hur', ?_⟩)
          have sem := ok.sem
          have lev := ok.level
          simp only [hΓ] at sem
          rcases orderOperands_cases E.c op.comm lhs rhs with e | ⟨hc, e⟩
          · rw [e] at sem lev
            refine ⟨lev, fun x hx => ?_⟩
            obtain ⟨a, ha⟩ := Ev.total g.inv g.ord hx lhs hul
            obtain ⟨b, hb⟩ := Ev.total g.inv g.ord hx rhs hur
            obtain ⟨v, h1, h2⟩ := sem x hx a b ha hb
            exact ⟨v, ⟨a, b, ha, hb, h1⟩, h2⟩
          · rw [e] at sem lev
            refine ⟨by rw [min_comm]; exact lev, fun x hx => ?_⟩
            obtain ⟨a, ha⟩ := Ev.total g.inv g.ord hx lhs hul
            obtain ⟨b, hb⟩ := Ev.total g.inv g.ord hx rhs hur
            obtain ⟨v, h1, h2⟩ := sem x hx b a hb ha
            exact ⟨v, ⟨a, b, ha, hb, by rw [hcm hc x hx a b ha hb]; exact h1⟩, h2⟩
      | none =>
          refine Ok.bindEq (cacheFind_none hfind) ?_
          dsimp only
          refine Ok.bindEq (valueOrND_ok hul) ?_
          refine Ok.bindEq (valueOrND_ok hur) ?_
          obtain ⟨v, hv, hnd, hdet⟩ := hop.total _ _ (topVal_leaf (s := s) (p := lhs))
            (topVal_leaf (s := s) (p := rhs))
          refine Ok.bindEq (liftE_ok hv s) ?_
          by_cases hvn : v = Nondetermined
          · rw [if_neg (by simpa using hvn)]
            refine Ok.bindEq (getLevel_ok hul) ?_
            refine Ok.bindEq (getLevel_ok hur) ?_
            -- one operand is internal
            have htop : min (s.levelOf E.c lhs) (s.levelOf E.c rhs) < E.c.n := by
              have key : ∀ p, s.used p = true → s.topVal p = Nondetermined →
                  (∀ a, LeafVal s.kind p a → a ≠ Nondetermined) → s.levelOf E.c p < E.c.n := by
                intro p hp ht hn
                cases hk : s.kind p with
                | leaf a =>
                    have : a = Nondetermined := by simpa [Mgr.topVal, hk] using ht
                    exact absurd this (hn a ⟨p, .refl, hk⟩)
                | inner i ss =>
                    simp only [Mgr.levelOf, hk]
                    exact g.inv.order.i2l_lt i (g.inv.sons p i ss hp hk).1
              rcases hnd hvn with h1 | h1
              · have := key lhs hul h1 hop.ndA; omega
              · have := key rhs hur h1 hop.ndB; omega
            generalize htopdef : min (s.levelOf E.c lhs) (s.levelOf E.c rhs) = top at *
            refine Ok.bindEq (getIndex_ok htop) ?_
            have hi := g.inv.order.l2i_lt top htop
            have hli := g.inv.order.l2i2l top htop
            generalize hidef : s.lvl2idx top = i at *
            have hll : s.idx2lvl i ≤ s.levelOf E.c lhs := by omega
            have hlr : s.idx2lvl i ≤ s.levelOf E.c rhs := by omega
            -- the recursive calls
            refine Ok.bind (mapL_good (E := E) (ext := ext) (L := fun _ => top + 1)
              (φ := fun k x v => x i = k → ∃ a b, Ev s.kind x lhs a ∧ Ev s.kind x rhs b ∧
                op.fn a b = .ok v)
              (List.range (E.c.dom i)) s ?_ s g (Keeps.refl s)) ?_
            · intro k hk s1 g1 k1
              have hkd : k < E.c.dom i := List.mem_range.1 hk
              have hpl1 := k1.prot _ hpl
              have hpr1 := k1.prot _ hpr
              have hl1 : s1.levelOf E.c lhs = s.levelOf E.c lhs := k1.levelOf hpl
              have hr1 : s1.levelOf E.c rhs = s.levelOf E.c rhs := k1.levelOf hpr
              have hi1 : s1.idx2lvl i = top := by rw [k1.i2l]; exact hli
              obtain ⟨ra, ea, la, va, va'⟩ := cofNode_spec g1.inv g1.ord hi (hpl1.used g1.inv)
                (by rw [hl1, k1.i2l]; exact hll) hkd
              obtain ⟨rb, eb, lb, vb, vb'⟩ := cofNode_spec g1.inv g1.ord hi (hpr1.used g1.inv)
                (by rw [hr1, k1.i2l]; exact hlr) hkd
              rw [hi1] at ra ea la va va' rb eb lb vb vb'
              rw [hl1] at ea
              rw [hr1] at eb
              refine Ok.bindEq ea ?_
              refine Ok.bindEq eb ?_
              have hpa := ra.prot hpl1
              have hpb := rb.prot hpr1
              have hop1 : OpOK E.c op (LeafVal s1.kind (s1.cofNode E.c lhs top k))
                  (LeafVal s1.kind (s1.cofNode E.c rhs top k)) := by
                have tr : ∀ {p q v}, Reach s1.kind p q → LeafVal s1.kind q v →
                    LeafVal s1.kind p v := by
                  intro p q v hr hv
                  obtain ⟨t, h1, h2⟩ := hv
                  refine ⟨t, ?_, h2⟩
                  clear h2
                  induction hr with
                  | refl => exact h1
                  | step hk hq _ ih => exact .step hk hq (ih h1)
                exact hop.mono (fun a ha => (tr ra ha).keeps k1 hpl)
                  (fun b hb => (tr rb hb).keeps k1 hpr)
              refine (ih s1 _ _ g1 hpa hpb hop1 ?_).mono ?_
              · omega
              · rintro r s2 ⟨st, rep⟩
                refine ⟨st, rep.mono (by omega) ?_⟩
                rintro x v hx ⟨a, b, ha, hb, hv⟩ hxk
                exact ⟨a, b, (k1.ev_iff hpl).1 (va' x a hxk ha),
                  (k1.ev_iff hpr).1 (vb' x b hxk hb), hv⟩
            · rintro sons s1 ⟨g1, k1, hlen, hprot, hrep, hmark⟩
              have hi1 : s1.idx2lvl i = top := by rw [k1.i2l]; exact hli
              refine Ok.bind (makeInternal_good (φ := fun k x v => x i = k →
                ∃ a b, Ev s.kind x lhs a ∧ Ev s.kind x rhs b ∧ op.fn a b = .ok v) g1 hi
                (by simpa using hlen) hprot ?_) ?_
              · intro k q hq
                rw [hi1]
                have hk : k < E.c.dom i := by
                  have : k < sons.length := by
                    by_contra hc
                    rw [List.getElem?_eq_none (by omega)] at hq; cases hq
                  simpa [hlen] using this
                exact hrep k k q (by rw [List.getElem?_range hk]) hq
              · rintro r s2 ⟨g2, k2, hpr2, hm2, rep2, hres⟩
                rw [hi1] at rep2
                have k12 := k1.trans k2
                have hul2 := (k12.prot _ hpl).used g2.inv
                have hur2 := (k12.prot _ hpr).used g2.inv
                have hlev2 : min (s2.levelOf E.c lhs) (s2.levelOf E.c rhs)
                    ≤ s2.levelOf E.c r := by
                  rw [k12.levelOf hpl, k12.levelOf hpr, htopdef]; exact rep2.1
                have kl : ∀ {x a}, Ev s2.kind x lhs a → Ev s.kind x lhs a :=
                  fun h => (k12.ev_iff hpl).1 h
                have kr : ∀ {x a}, Ev s2.kind x rhs a → Ev s.kind x rhs a :=
                  fun h => (k12.ev_iff hpr).1 h
                refine Ok.bind (cachePut_good g2 hΓ hul2 hur2 (hpr2.used g2.inv) ?_ hlev2 ?_
                  hpr2) ?_
                · exact fun hc x hx a b ha hb => hcm hc x hx a b (kl ha) (kr hb)
                · intro x hx a b ha hb
                  obtain ⟨v, h1, h2⟩ := rep2.2 x hx
                  obtain ⟨a', b', ha', hb', hv'⟩ := h1 rfl
                  have e1 := (kl ha).det ha'
                  have e2 := (kr hb).det hb'
                  subst e1 e2
                  exact ⟨v, hv', h2⟩
                · rintro ⟨⟩ s3 ⟨st3, hk3, hm3, hl3⟩
                  refine Ok.pure ⟨⟨st3.good, k12.trans st3.keeps, st3.prot, ?_⟩, ?_⟩
                  · intro p hp
                    rw [hm3] at hp
                    rcases hm2 p hp with h1 | ⟨h1, h2⟩
                    · exact Or.inl h1
                    · rcases hmark p h1 with h3 | h3
                      · exact absurd h3 h2
                      · exact Or.inr h3
                  · rw [htopdef]
                    exact (rep2.mono (Nat.le_refl _) (fun x v _ h => h rfl)).keeps st3.keeps hpr2
          · rw [if_pos (by simpa using hvn)]
            obtain ⟨hterm, hall⟩ := hdet hvn
            refine Ok.bind (makeTerminal_good g hterm) ?_
            rintro r s1 ⟨st, hk, _⟩
            have hsem : ∀ x, Valid E.c x → ∀ a b, Ev s.kind x lhs a → Ev s.kind x rhs b →
                op.fn a b = .ok v := fun x _ a b ha hb =>
              hall a b ha.leafVal hb.leafVal (topVal_ev ha) (topVal_ev hb)
            have hlevr : s1.levelOf E.c r = E.c.n := by simp [Mgr.levelOf, hk]
            have hle := levelOf_le g.inv hul
            refine Ok.bind (cachePut_good st.good hΓ ((st.keeps.prot _ hpl).used st.good.inv)
              ((st.keeps.prot _ hpr).used st.good.inv) (st.prot.used st.good.inv) ?_ ?_ ?_
              st.prot) ?_
            · intro hc x hx a b ha hb
              exact hcm hc x hx a b ((st.keeps.ev_iff hpl).1 ha) ((st.keeps.ev_iff hpr).1 hb)
            · rw [hlevr, st.keeps.levelOf hpl]; omega
            · intro x hx a b ha hb
              exact ⟨v, hsem x hx a b ((st.keeps.ev_iff hpl).1 ha) ((st.keeps.ev_iff hpr).1 hb),
                .leaf hk⟩
            · rintro ⟨⟩ s2 ⟨st2, hk2, hm2, hl2⟩
              refine Ok.pure ⟨⟨st2.good, st.keeps.trans st2.keeps, st2.prot, ?_⟩, ?_⟩
              · intro p hp
                rw [hm2] at hp
                exact st.mark p hp
              · refine ⟨?_, fun x hx => ?_⟩
                · have e : s2.levelOf E.c r = E.c.n := by simp [Mgr.levelOf, hk2, hk]
                  rw [e]; omega
                · obtain ⟨a, ha⟩ := Ev.total g.inv g.ord hx lhs hul
                  obtain ⟨b, hb⟩ := Ev.total g.inv g.ord hx rhs hur
                  refine ⟨v, ⟨a, b, ha, hb, hsem x hx a b ha hb⟩, ?_⟩
                  rw [hk2]
                  exact .leaf hk

end

end Teddy
