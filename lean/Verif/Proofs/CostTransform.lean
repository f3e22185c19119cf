import Verif.CostTransform
import Verif.Proofs.Cost

/-! Calls of the memoised recursions: the counters do not change what is computed; every node is expanded once. -/

namespace Teddy

open SM Spec

/-! ### The counters change nothing -/

/-- Without the counter. -/
def noCount {α β : Type} (r : α × (β × Nat)) : α × β := (r.1, r.2.1)

theorem mapAccL_noCount {σ α β τ : Type} {f : α → τ → SM σ (β × τ)} {g : α → τ × Nat → SM σ (β × (τ × Nat))}
    (h : ∀ a t, noCount <$> g a t = f a t.1) :
    ∀ (l : List α) (t : τ × Nat), noCount <$> mapAccL g l t = mapAccL f l t.1
  | [], t => by simp [mapAccL, noCount]
  | a :: l, t => by
      simp only [mapAccL, map_bind]
      rw [← h a t, bind_map_left]
      refine bind_congr fun r => ?_
      rw [show mapAccL f l (noCount r).2 = noCount <$> mapAccL g l r.2 from (mapAccL_noCount h l r.2).symm, bind_map_left]
      simp only [noCount, map_pure]

theorem transformSteps_noCount (c : Cfg) (g : Int → Int) : ∀ (f : Nat) (p : Ptr) (t : Memo × Nat),
    noCount <$> transformSteps c g f p t = transformImpl c g f p t.1
  | 0, p, t => rfl
  | f + 1, p, t => by
      simp only [transformSteps, transformImpl]
      cases t.1 p with
      | some r => simp [noCount]
      | none =>
          simp only [map_bind]
          refine bind_congr fun k => ?_
          cases k with
          | leaf v => simp [noCount]
          | inner i ss =>
              dsimp only
              rw [← mapAccL_noCount (transformSteps_noCount c g f) ss (t.1, t.2 + ss.length)]
              simp [noCount]

theorem cofactorSteps_noCount (c : Cfg) (var val : Nat) : ∀ (f : Nat) (p : Ptr) (t : Memo × Nat),
    noCount <$> cofactorSteps c var val f p t = cofactorImpl c var val f p t.1
  | 0, p, t => rfl
  | f + 1, p, t => by
      simp only [cofactorSteps, cofactorImpl]
      cases t.1 p with
      | some r => simp [noCount]
      | none =>
          simp only [map_bind]
          refine bind_congr fun k => ?_
          cases k with
          | leaf v => simp [noCount]
          | inner i ss =>
              dsimp only
              rw [← mapAccL_noCount (cofactorSteps_noCount c var val f) ss (t.1, t.2 + ss.length)]
              split <;> simp [noCount]

theorem cofactorsSteps_noCount (c : Cfg) (vars : List (Nat × Nat)) : ∀ (f todo : Nat) (p : Ptr) (t : Memo × Nat),
    noCount <$> cofactorsSteps c vars f todo p t = cofactorsImpl c vars f todo p t.1
  | 0, todo, p, t => rfl
  | f + 1, todo, p, t => by
      simp only [cofactorsSteps, cofactorsImpl]
      split
      · simp [noCount]
      cases t.1 p with
      | some r => simp [noCount]
      | none =>
          simp only [map_bind]
          refine bind_congr fun k => ?_
          cases k with
          | leaf v => simp [noCount]
          | inner i ss =>
              dsimp only
              cases findVar vars i with
              | some val =>
                  simp only [map_bind]
                  refine bind_congr fun q => ?_
                  rw [← cofactorsSteps_noCount c vars f (todo - 1) q (t.1, t.2 + 1)]
                  simp [noCount]
              | none =>
                  dsimp only
                  rw [← mapAccL_noCount (cofactorsSteps_noCount c vars f todo) ss (t.1, t.2 + ss.length)]
                  simp [noCount]

theorem transformCost_fst (c : Cfg) (g : Int → Int) (p : Ptr) : Prod.fst <$> transformCost c g p = transform c g p := by
  unfold transformCost transform
  rw [← transformSteps_noCount c g (c.n + 1) p ((fun _ => none), 1)]
  simp [noCount]

theorem getCofactorCost_fst (c : Cfg) (p : Ptr) (var val : Nat) :
    Prod.fst <$> getCofactorCost c p var val = getCofactor c p var val := by
  unfold getCofactorCost getCofactor
  rw [← cofactorSteps_noCount c var val (c.n + 1) p ((fun _ => none), 1)]
  simp only [map_bind]
  refine bind_congr fun k => ?_
  cases k with
  | leaf v => simp
  | inner i ss =>
      dsimp only
      split <;> simp [noCount]

theorem getCofactorsCost_fst (c : Cfg) (p : Ptr) (vars : List (Nat × Nat)) :
    Prod.fst <$> getCofactorsCost c p vars = getCofactors c p vars := by
  unfold getCofactorsCost getCofactors
  simp only [map_bind]
  refine bind_congr fun k => ?_
  cases k with
  | leaf v => simp
  | inner i ss =>
      dsimp only
      simp only [map_bind]
      refine bind_congr fun st => ?_
      rw [← cofactorsSteps_noCount c vars (c.n + 1) st.2 st.1 ((fun _ => none), 1)]
      simp [noCount]

theorem making_fst {m : M (Ptr × Nat)} {m' : M Ptr} (h : Prod.fst <$> m = m') :
    Prod.fst <$> (do
      let r ← onMgr m
      let o ← push r.1
      pure (o, r.2) : SM World (Out × Nat)) = making m' := by
  unfold making
  rw [← h, onMgr_map]
  simp

theorem execSteps_fst (c : Cfg) (k : Call) : Prod.fst <$> execSteps c k = exec c k := by
  cases k
  case transform t a =>
    simp only [execSteps, exec]
    rw [map_bind]
    exact bind_congr fun p => making_fst (transformCost_fst c t p)
  case negate a =>
    simp only [execSteps, exec]
    rw [map_bind]
    exact bind_congr fun p => making_fst (transformCost_fst c _ p)
  case reduce a =>
    simp only [execSteps, exec]
    rw [map_bind]
    exact bind_congr fun p => making_fst (transformCost_fst c _ p)
  case cofactor a i v =>
    simp only [execSteps, exec]
    rw [map_bind]
    exact bind_congr fun p => making_fst (getCofactorCost_fst c p i v)
  case cofactors a vars =>
    simp only [execSteps, exec]
    rw [map_bind]
    exact bind_congr fun p => making_fst (getCofactorsCost_fst c p vars)
  all_goals simp only [execSteps, map_bind, map_pure, bind_pure]

/-! ### Every node is expanded once -/

/-- What the nodes without an entry in the memo table may still cost. -/
def openWork (wt : Ptr → Nat) (vs : List Ptr) (m : Memo) : Nat :=
  (vs.map fun q => if (m q).isNone then wt q else 0).sum

theorem openWork_put {wt : Ptr → Nat} {vs : List Ptr} {m : Memo} {p r : Ptr} (hn : vs.Nodup) (hp : p ∈ vs)
    (hm : m p = none) : openWork wt vs (upd m p (some r)) + wt p = openWork wt vs m := by
  induction vs with
  | nil => cases hp
  | cons q vs ih =>
      obtain ⟨hq, hn⟩ := List.nodup_cons.1 hn
      simp only [openWork, List.map_cons, List.sum_cons] at ih ⊢
      by_cases hpq : p = q
      · subst hpq
        have : (vs.map fun q => if (upd m p (some r) q).isNone then wt q else 0) =
            vs.map fun q => if (m q).isNone then wt q else 0 := by
          refine List.map_congr_left fun t ht => ?_
          rw [upd_other _ _ (by rintro rfl; exact hq ht)]
        rw [this, upd_same, hm]
        simp
        omega
      · have h1 := ih hn (by
          rcases List.mem_cons.1 hp with h | h
          · exact absurd h hpq
          · exact h)
        rw [upd_other _ _ (Ne.symm hpq)]
        omega

theorem openWork_empty {wt : Ptr → Nat} {vs : List Ptr} : openWork wt vs (fun _ => none) = (vs.map wt).sum := by
  simp [openWork]

section
variable {E : Env} {ext : Ptr → Nat} {s0 : Mgr} {vs : List Ptr} {φ : Ptr → Asg → Int → Prop}

/-- What a call for `p` with memo table and counter `t` returns: a result for `p`, no more calls than the nodes entered into
the memo table have sons, and no entry above `p`. -/
def StepsOK (E : Env) (ext : Ptr → Nat) (s0 : Mgr) (vs : List Ptr) (φ : Ptr → Asg → Int → Prop) (p : Ptr) (t : Memo × Nat)
    (s : Mgr) (r : Ptr × (Memo × Nat)) (s' : Mgr) : Prop :=
  Step E ext s r.1 s' ∧ Rep E.c s' (s0.levelOf E.c p) r.1 (φ p) ∧ MemoOK E ext (s0.levelOf E.c) φ r.2.1 s' ∧
    r.2.2 + openWork (fun q => (s0.sonsOf q).length) vs r.2.1 ≤ t.2 + openWork (fun q => (s0.sonsOf q).length) vs t.1 ∧
    ∀ q, s0.levelOf E.c q < s0.levelOf E.c p → r.2.1 q = t.1 q

theorem rebuildSteps_good {F : Ptr → Memo × Nat → M (Ptr × (Memo × Nat))}
    {p : Ptr} {i : Nat} {ss : List Ptr} (g0 : Good E ext s0) (hp : Prot ext [] s0 p)
    (hvs : vs.Nodup) (hpv : p ∈ vs)
    (hk : s0.kind p = .inner i ss)
    (hφ : ∀ x, Valid E.c x → ∀ q v, ss[x i]? = some q → φ q x v → φ p x v)
    (hF : ∀ q ∈ ss, ∀ t s, Good E ext s → Keeps ext [] s0 s →
      MemoOK E ext (s0.levelOf E.c) φ t.1 s → Ok (F q t) s (StepsOK E ext s0 vs φ q t s))
    {t : Memo × Nat} {s : Mgr} (g : Good E ext s) (k : Keeps ext [] s0 s)
    (hm : MemoOK E ext (s0.levelOf E.c) φ t.1 s) (hmp : t.1 p = none) :
    Ok (do
      let (sons', t) ← mapAccL F ss (t.1, t.2 + ss.length)
      let r ← makeInternal E.c i sons'
      pure (r, (upd t.1 p (some r), t.2))) s (StepsOK E ext s0 vs φ p t s) := by
  obtain ⟨hi, hlen, hu⟩ := g0.inv.sons p i ss (hp.used g0.inv) hk
  have hsons : (s0.sonsOf p).length = ss.length := by simp [Mgr.sonsOf, hk]
  refine Ok.bind (mapAccL_good (E := E) (ext := ext) (L := s0.levelOf E.c) (φ := φ)
    (T := fun u s => MemoOK E ext (s0.levelOf E.c) φ u.1 s ∧
      u.2 + openWork (fun q => (s0.sonsOf q).length) vs u.1 ≤
        t.2 + ss.length + openWork (fun q => (s0.sonsOf q).length) vs t.1 ∧
      ∀ q, s0.levelOf E.c q ≤ s0.levelOf E.c p → u.1 q = t.1 q) ss s0 (fun q hq u s g k hu => ?_) _ s g k
      ⟨hm, Nat.le_refl _, fun _ _ => rfl⟩) ?_
  · have hlt := g0.ord p i ss q (hp.used g0.inv) hk hq
    refine (hF q hq u s g k hu.1).mono ?_
    rintro r s' ⟨h1, h2, h3, h4, h5⟩
    refine ⟨h1, h2, h3, h4.trans hu.2.1, fun q' hq' => ?_⟩
    rw [h5 q' (by omega), hu.2.2 q' hq']
  rintro ⟨sons', t1⟩ s1 ⟨g1, k1, hl1, hp1, hr1, hm1, hmo1, hwork, hsame⟩
  have hlv : s1.idx2lvl i = s0.levelOf E.c p := by
    rw [k1.i2l, k.i2l]; simp [Mgr.levelOf, hk]
  refine Ok.bind (makeInternal_good (φ := fun k x v => ∃ q, ss[k]? = some q ∧ φ q x v) g1 hi
    (by rw [← hlen]; exact hl1) hp1 ?_) ?_
  · intro k q hq
    have hkl : k < ss.length := by
      have : k < sons'.length := by
        by_contra hc
        rw [List.getElem?_eq_none (by omega)] at hq; cases hq
      rw [← hl1]; exact this
    have hget : ss[k]? = some ss[k] := List.getElem?_eq_getElem hkl
    have hlt := g0.ord p i ss _ (hp.used g0.inv) hk (List.getElem_mem hkl)
    refine (hr1 k ss[k] q hget hq).mono (by rw [hlv]; omega) ?_
    intro x v _ h
    exact ⟨ss[k], hget, h⟩
  · rintro r s2 ⟨g2, k2, hp2, hm2, rep2, _⟩
    rw [hlv] at rep2
    have rep : Rep E.c s2 (s0.levelOf E.c p) r (φ p) := by
      refine rep2.mono (Nat.le_refl _) ?_
      rintro x v hx ⟨q, hq, h⟩
      exact hφ x hx q v hq h
    refine Ok.pure ⟨⟨g2, k1.trans k2, hp2, ?_⟩, rep, (hmo1.keeps k2).put hp2 rep, ?_, ?_⟩
    · intro t ht
      rcases hm2 t ht with h1 | ⟨h1, h2⟩
      · exact Or.inl h1
      · rcases hm1 t h1 with h3 | h3
        · exact absurd h3 h2
        · exact Or.inr h3
    · have := openWork_put (wt := fun q => (s0.sonsOf q).length) (r := r) hvs hpv
        ((hsame p (Nat.le_refl _)).trans hmp)
      dsimp only at this hwork ⊢
      omega
    · intro q hq
      have hne : q ≠ p := by rintro rfl; exact absurd hq (Nat.lt_irrefl _)
      show upd t1.1 p (some r) q = _
      rw [upd_other _ _ hne, hsame q (Nat.le_of_lt hq)]

theorem StepsOK.memo {p r : Ptr} {t : Memo × Nat} {s : Mgr} (g : Good E ext s)
    (hm : MemoOK E ext (s0.levelOf E.c) φ t.1 s) (h : t.1 p = some r) : StepsOK E ext s0 vs φ p t s (r, t) s :=
  ⟨Step.refl g (hm p r h).1, (hm p r h).2, hm, Nat.le_refl _, fun _ _ => rfl⟩

theorem transformSteps_good (g0 : Good E ext s0) {root : Ptr} (hvs : vs.Nodup)
    (hmem : ∀ q, q ∈ vs ↔ Reach s0.kind root q) {t : Int → Int} :
    ∀ (f : Nat) (p : Ptr) (m : Memo × Nat) (s : Mgr), Good E ext s → Keeps ext [] s0 s →
      Prot ext [] s0 p → Reach s0.kind root p → (∀ a, LeafVal s0.kind p a → TermOK E.c (t a)) →
      MemoOK E ext (s0.levelOf E.c) (fun p x v => ∃ a, Ev s0.kind x p a ∧ v = t a) m.1 s →
      E.c.n - s0.levelOf E.c p < f →
      Ok (transformSteps E.c t f p m) s
        (StepsOK E ext s0 vs (fun p x v => ∃ a, Ev s0.kind x p a ∧ v = t a) p m s) := by
  intro f
  induction f with
  | zero => intro p m s _ _ _ _ _ _ hf; omega
  | succ f ih =>
      intro p m s g k hp hr hT hm hf
      simp only [transformSteps]
      cases hmp : m.1 p with
      | some r => exact Ok.pure (.memo g hm hmp)
      | none =>
          have hps := k.prot _ hp
          refine Ok.bindEq (getKind_ok (hps.used g.inv)) ?_
          rw [k.kind p hp]
          cases hk : s0.kind p with
          | leaf v =>
              refine Ok.bind (makeTerminal_good g (hT v ⟨p, .refl, hk⟩)) ?_
              rintro r s1 ⟨st, hkr, _⟩
              refine Ok.pure ⟨st, ⟨by simp [Mgr.levelOf, hk, hkr], fun x _ => ?_⟩,
                hm.keeps st.keeps, Nat.le_refl _, fun _ _ => rfl⟩
              exact ⟨t v, ⟨v, .leaf hk, rfl⟩, .leaf hkr⟩
          | inner i ss =>
              refine rebuildSteps_good g0 hp hvs ((hmem p).2 hr) hk ?_ ?_ g k hm hmp
              · rintro x _ q v hq ⟨a, ha, rfl⟩
                exact ⟨a, .inner hk hq ha, rfl⟩
              · intro q hq m s g k hm
                have hlt := g0.ord p i ss q (hp.used g0.inv) hk hq
                have hle := levelOf_le g0.inv ((Prot.son hp hk hq).used g0.inv)
                exact ih q m s g k (.son hp hk hq) (hr.trans (.step hk hq .refl)) (fun a ha => hT a (ha.son hk hq)) hm (by omega)

theorem cofactorSteps_good (g0 : Good E ext s0) {root : Ptr} (hvs : vs.Nodup)
    (hmem : ∀ q, q ∈ vs ↔ Reach s0.kind root q) {var val : Nat}
    (hval : var < E.c.n → val < E.c.dom var) :
    ∀ (f : Nat) (p : Ptr) (m : Memo × Nat) (s : Mgr), Good E ext s → Keeps ext [] s0 s →
      Prot ext [] s0 p → Reach s0.kind root p →
      MemoOK E ext (s0.levelOf E.c) (fun p x v => Ev s0.kind (upd x var val) p v) m.1 s →
      E.c.n - s0.levelOf E.c p < f →
      Ok (cofactorSteps E.c var val f p m) s
        (StepsOK E ext s0 vs (fun p x v => Ev s0.kind (upd x var val) p v) p m s) := by
  intro f
  induction f with
  | zero => intro p m s _ _ _ _ _ hf; omega
  | succ f ih =>
      intro p m s g k hp hr hm hf
      simp only [cofactorSteps]
      cases hmp : m.1 p with
      | some r => exact Ok.pure (.memo g hm hmp)
      | none =>
          have hps := k.prot _ hp
          refine Ok.bindEq (getKind_ok (hps.used g.inv)) ?_
          rw [k.kind p hp]
          cases hk : s0.kind p with
          | leaf v =>
              refine Ok.pure ⟨Step.refl g hps, ⟨by rw [k.levelOf hp], fun x _ => ?_⟩, hm, Nat.le_refl _, fun _ _ => rfl⟩
              exact ⟨v, .leaf hk, (k.ev_iff hp).2 (.leaf hk)⟩
          | inner i ss =>
              obtain ⟨hi, hlen, hu⟩ := g0.inv.sons p i ss (hp.used g0.inv) hk
              dsimp only
              by_cases hiv : i = var
              · subst hiv
                rw [if_pos rfl]
                have hkl : val < ss.length := by rw [hlen]; exact hval hi
                have hget : ss[val]? = some ss[val] := List.getElem?_eq_getElem hkl
                have hmem : ss[val] ∈ ss := List.getElem_mem hkl
                have hlt := g0.ord p i ss _ (hp.used g0.inv) hk hmem
                have hq : Prot ext [] s0 ss[val] := .son hp hk hmem
                refine Ok.bindEq (getSon_ok (hps.used g.inv)
                  (by rw [k.kind p hp]; exact hk) hget) ?_
                refine Ok.pure ⟨Step.refl g (k.prot _ hq), ⟨?_, fun x hx => ?_⟩, hm, Nat.le_refl _, fun _ _ => rfl⟩
                · rw [k.levelOf hq]; omega
                · obtain ⟨v, hv⟩ := Ev.total g0.inv g0.ord hx _ (hq.used g0.inv)
                  refine ⟨v, .inner hk (by rw [upd_same]; exact hget) ?_, (k.ev_iff hq).2 hv⟩
                  refine hv.agree g0.inv g0.ord (hq.used g0.inv) ?_
                  intro j hj
                  have : j ≠ i := by
                    rintro rfl
                    simp only [Mgr.levelOf, hk] at hlt
                    unfold Mgr.levelOf at hj
                    omega
                  rw [upd_other _ _ this]
              · rw [if_neg hiv]
                refine rebuildSteps_good g0 hp hvs ((hmem p).2 hr) hk ?_ ?_ g k hm hmp
                · intro x _ q v hq h
                  exact .inner hk (by rw [upd_other _ _ hiv]; exact hq) h
                · intro q hq m s g k hm
                  have hlt := g0.ord p i ss q (hp.used g0.inv) hk hq
                  have hle := levelOf_le g0.inv ((Prot.son hp hk hq).used g0.inv)
                  exact ih q m s g k (.son hp hk hq) (hr.trans (.step hk hq .refl)) hm (by omega)

theorem cofactorsSteps_good (g0 : Good E ext s0) {root : Ptr} (hvs : vs.Nodup)
    (hmem : ∀ q, q ∈ vs ↔ Reach s0.kind root q) {vars : List (Nat × Nat)}
    (hval : ∀ v ∈ vars, v.1 < E.c.n → v.2 < E.c.dom v.1) :
    ∀ (f todo : Nat) (p : Ptr) (m : Memo × Nat) (s : Mgr), Good E ext s → Keeps ext [] s0 s →
      Prot ext [] s0 p → Reach s0.kind root p → remaining s0 vars (s0.levelOf E.c p) ≤ todo →
      MemoOK E ext (s0.levelOf E.c) (fun p x v => Ev s0.kind (updAll x vars) p v) m.1 s →
      E.c.n - s0.levelOf E.c p < f →
      Ok (cofactorsSteps E.c vars f todo p m) s
        (StepsOK E ext s0 vs (fun p x v => Ev s0.kind (updAll x vars) p v) p m s) := by
  intro f
  induction f with
  | zero => intro todo p m s _ _ _ _ _ _ hf; omega
  | succ f ih =>
      intro todo p m s g k hp hr hrem hm hf
      have hps := k.prot _ hp
      simp only [cofactorsSteps]
      by_cases ht : todo = 0
      · rw [if_pos ht]
        refine Ok.pure ⟨Step.refl g hps, ⟨by rw [k.levelOf hp], fun x hx => ?_⟩, hm, Nat.le_refl _, fun _ _ => rfl⟩
        obtain ⟨v, hv⟩ := Ev.total g0.inv g0.ord hx _ (hp.used g0.inv)
        refine ⟨v, hv.agree g0.inv g0.ord (hp.used g0.inv) ?_, (k.ev_iff hp).2 hv⟩
        intro j hj
        have : findVar vars j = none := by
          refine findVar_none ?_
          rintro v hvm rfl
          have : 0 < remaining s0 vars (s0.levelOf E.c p) :=
            List.countP_pos_iff.2 ⟨v, hvm, by simpa using hj⟩
          omega
        simp [updAll, this]
      · rw [if_neg ht]
        cases hmp : m.1 p with
        | some r => exact Ok.pure (.memo g hm hmp)
        | none =>
            refine Ok.bindEq (getKind_ok (hps.used g.inv)) ?_
            rw [k.kind p hp]
            cases hk : s0.kind p with
            | leaf v =>
                refine Ok.pure ⟨Step.refl g hps, ⟨by rw [k.levelOf hp], fun x _ => ?_⟩, hm, Nat.le_refl _, fun _ _ => rfl⟩
                exact ⟨v, .leaf hk, (k.ev_iff hp).2 (.leaf hk)⟩
            | inner i ss =>
                obtain ⟨hi, hlen, hu⟩ := g0.inv.sons p i ss (hp.used g0.inv) hk
                have hlp : s0.levelOf E.c p = s0.idx2lvl i := by simp [Mgr.levelOf, hk]
                dsimp only
                cases hfv : findVar vars i with
                | some val =>
                    dsimp only
                    have hkl : val < ss.length := by
                      rw [hlen]; exact hval _ (findVar_mem hfv) hi
                    have hget : ss[val]? = some ss[val] := List.getElem?_eq_getElem hkl
                    have hmems : ss[val] ∈ ss := List.getElem_mem hkl
                    have hlt := g0.ord p i ss _ (hp.used g0.inv) hk hmems
                    have hq : Prot ext [] s0 ss[val] := .son hp hk hmems
                    have hle := levelOf_le g0.inv (hq.used g0.inv)
                    have hdrop := remaining_drop (s := s0) (findVar_mem hfv)
                      (L := s0.levelOf E.c ss[val]) (by omega)
                    refine Ok.bindEq (getSon_ok (hps.used g.inv)
                      (by rw [k.kind p hp]; exact hk) hget) ?_
                    rw [hlp] at hrem
                    refine Ok.bind (ih (todo - 1) ss[val] (m.1, m.2 + 1) s g k hq (hr.trans (.step hk hmems .refl))
                      (by omega) hm (by omega)) ?_
                    rintro ⟨r, m1⟩ s1 ⟨st, rep, hm1, hwork, hsame⟩
                    have rep' : Rep E.c s1 (s0.levelOf E.c p) r
                        (fun x v => Ev s0.kind (updAll x vars) p v) := by
                      refine rep.mono (by omega) ?_
                      intro x v _ h
                      exact .inner hk (by simp [updAll, hfv]) h
                    refine Ok.pure ⟨st, rep', hm1.put st.prot rep', ?_, ?_⟩
                    · have := openWork_put (wt := fun q => (s0.sonsOf q).length) (r := r) hvs ((hmem p).2 hr)
                        ((hsame p hlt).trans hmp)
                      have hsons : (s0.sonsOf p).length = ss.length := by simp [Mgr.sonsOf, hk]
                      dsimp only at this hwork ⊢
                      omega
                    · intro q hq
                      have hne : q ≠ p := by rintro rfl; exact absurd hq (Nat.lt_irrefl _)
                      show upd m1.1 p (some r) q = _
                      rw [upd_other _ _ hne]
                      exact hsame q (Nat.lt_trans hq hlt)
                | none =>
                    refine rebuildSteps_good g0 hp hvs ((hmem p).2 hr) hk ?_ ?_ g k hm hmp
                    · intro x _ q v hq h
                      exact .inner hk (by simpa [updAll, hfv] using hq) h
                    · intro q hq m s g k hm
                      have hlt := g0.ord p i ss q (hp.used g0.inv) hk hq
                      have hle := levelOf_le g0.inv ((Prot.son hp hk hq).used g0.inv)
                      have := remaining_mono (s := s0) (vars := vars) (Nat.le_of_lt hlt)
                      exact ih todo q m s g k (.son hp hk hq) (hr.trans (.step hk hq .refl)) (by omega) hm (by omega)

/-- One call for the root, and one for each son of each node. -/
theorem transformCost_le (g : Good E ext s0) {p : Ptr} (hp : Prot ext [] s0 p) (hvs : vs.Nodup)
    (hmem : ∀ q, q ∈ vs ↔ Reach s0.kind p q) {t : Int → Int} (hT : ∀ a, LeafVal s0.kind p a → TermOK E.c (t a))
    {r : Ptr} {n : Nat} {s' : Mgr} (e : transformCost E.c t p s0 = .ok ((r, n), s')) :
    n ≤ 1 + (vs.map fun q => (s0.sonsOf q).length).sum := by
  obtain ⟨⟨r1, m1⟩, s1, e1, -, -, -, h, -⟩ := transformSteps_good g hvs hmem (E.c.n + 1) p ((fun _ => none), 1) s0 g
    (Keeps.refl s0) hp .refl hT MemoOK.empty (by omega)
  rw [openWork_empty] at h
  unfold transformCost at e
  rw [bind_ok e1] at e
  dsimp only at e
  rw [bind_run] at e
  cases e2 : runDeferred E.c s1 with
  | error x => rw [e2] at e; cases e
  | ok u =>
      rw [e2] at e
      dsimp only at e
      rw [bind_run] at e
      cases e3 : mkDiagram r1 u.2 with
      | error x => rw [e3] at e; cases e
      | ok d =>
          rw [e3] at e
          cases e
          dsimp only at h
          omega

theorem getCofactorCost_le (g : Good E ext s0) {p : Ptr} (hp : Prot ext [] s0 p) (hvs : vs.Nodup)
    (hmem : ∀ q, q ∈ vs ↔ Reach s0.kind p q) {var val : Nat} (hval : var < E.c.n → val < E.c.dom var)
    {r : Ptr} {n : Nat} {s' : Mgr} (e : getCofactorCost E.c p var val s0 = .ok ((r, n), s')) :
    n ≤ 1 + (vs.map fun q => (s0.sonsOf q).length).sum := by
  obtain ⟨⟨r1, m1⟩, s1, e1, -, -, -, h, -⟩ := cofactorSteps_good g hvs hmem hval (E.c.n + 1) p ((fun _ => none), 1) s0 g
    (Keeps.refl s0) hp .refl MemoOK.empty (by omega)
  rw [openWork_empty] at h
  unfold getCofactorCost at e
  rw [bind_ok (getKind_ok (hp.used g.inv))] at e
  cases hk : s0.kind p with
  | leaf v =>
      rw [hk] at e
      dsimp only at e
      rw [bind_run] at e
      cases e2 : copyHandle p s0 with
      | error x => rw [e2] at e; cases e
      | ok u => rw [e2] at e; cases e; exact Nat.zero_le _
  | inner i ss =>
      rw [hk] at e
      dsimp only at e
      split at e
      · rw [bind_run] at e
        cases e2 : getSon p val s0 with
        | error x => rw [e2] at e; cases e
        | ok u =>
            rw [e2] at e
            dsimp only at e
            rw [bind_run] at e
            cases e3 : mkDiagram u.1 u.2 with
            | error x => rw [e3] at e; cases e
            | ok d => rw [e3] at e; cases e; exact Nat.zero_le _
      · rw [bind_ok e1] at e
        dsimp only at e
        rw [bind_run] at e
        cases e2 : mkDiagram r1 s1 with
        | error x => rw [e2] at e; cases e
        | ok u =>
            rw [e2] at e
            dsimp only at e
            rw [bind_run] at e
            cases e3 : runDeferred E.c u.2 with
            | error x => rw [e3] at e; cases e
            | ok d =>
                rw [e3] at e
                cases e
                dsimp only at h
                omega

theorem getCofactorsCost_le (g : Good E ext s0) {p : Ptr} (hp : Prot ext [] s0 p) (hvs : vs.Nodup)
    (hmem : ∀ q, q ∈ vs ↔ Reach s0.kind p q) {vars : List (Nat × Nat)}
    (hval : ∀ v ∈ vars, v.1 < E.c.n → v.2 < E.c.dom v.1)
    {r : Ptr} {n : Nat} {s' : Mgr} (e : getCofactorsCost E.c p vars s0 = .ok ((r, n), s')) :
    n ≤ 1 + (vs.map fun q => (s0.sonsOf q).length).sum := by
  have hu := hp.used g.inv
  unfold getCofactorsCost at e
  rw [bind_ok (getKind_ok hu)] at e
  have main : ∀ q todo, Prot ext [] s0 q → Reach s0.kind p q → remaining s0 vars (s0.levelOf E.c q) ≤ todo →
      (do
        let (r, t) ← cofactorsSteps E.c vars (E.c.n + 1) todo q ((fun _ => none), 1)
        let d ← mkDiagram r
        runDeferred E.c
        pure (d, t.2) : M (Ptr × Nat)) s0 = .ok ((r, n), s') →
      n ≤ 1 + (vs.map fun q => (s0.sonsOf q).length).sum := by
    intro q todo hq hr hrem e
    obtain ⟨⟨r1, m1⟩, s1, e1, -, -, -, h, -⟩ := cofactorsSteps_good g hvs hmem hval (E.c.n + 1) todo q
      ((fun _ => none), 1) s0 g (Keeps.refl s0) hq hr hrem MemoOK.empty (by omega)
    rw [openWork_empty] at h
    rw [bind_ok e1] at e
    dsimp only at e
    rw [bind_run] at e
    cases e2 : mkDiagram r1 s1 with
    | error x => rw [e2] at e; cases e
    | ok u =>
        rw [e2] at e
        dsimp only at e
        rw [bind_run] at e
        cases e3 : runDeferred E.c u.2 with
        | error x => rw [e3] at e; cases e
        | ok d =>
            rw [e3] at e
            cases e
            dsimp only at h
            omega
  cases hk : s0.kind p with
  | leaf v =>
      rw [hk] at e
      dsimp only at e
      rw [bind_run] at e
      cases e2 : copyHandle p s0 with
      | error x => rw [e2] at e; cases e
      | ok u => rw [e2] at e; cases e; exact Nat.zero_le _
  | inner i ss =>
      obtain ⟨hi, hlen, hus⟩ := g.inv.sons p i ss hu hk
      rw [hk] at e
      dsimp only at e
      cases hfv : findVar vars i with
      | none =>
          rw [hfv] at e
          exact main p vars.length hp .refl List.countP_le_length e
      | some val =>
          have hkl : val < ss.length := by rw [hlen]; exact hval _ (findVar_mem hfv) hi
          have hget : ss[val]? = some ss[val] := List.getElem?_eq_getElem hkl
          have hmems : ss[val] ∈ ss := List.getElem_mem hkl
          have hlt := g.ord p i ss _ hu hk hmems
          have hlp : s0.levelOf E.c p = s0.idx2lvl i := by simp [Mgr.levelOf, hk]
          rw [hfv] at e
          dsimp only at e
          rw [bind_ok (bind_ok (getSon_ok hu hk hget))] at e
          have hdrop := remaining_drop (s := s0) (findVar_mem hfv) (L := s0.levelOf E.c ss[val]) (by omega)
          have hall : remaining s0 vars (s0.idx2lvl i) ≤ vars.length := List.countP_le_length
          exact main ss[val] (vars.length - 1) (.son hp hk hmems) (.step hk hmems .refl) (by omega) e

/-- A diagram has finitely many nodes. -/
theorem nodes_list (hi : Inv E.c ext [] s0) {p : Ptr} (hp : s0.used p = true) :
    ∃ us : List Ptr, us.Nodup ∧ ∀ q, q ∈ us ↔ Reach s0.kind p q := by
  classical
  refine ⟨(List.range s0.next).filter fun q => Reach s0.kind p q, List.nodup_range.filter _, fun q => ?_⟩
  simp only [List.mem_filter, List.mem_range, decide_eq_true_eq, and_iff_right_iff_imp]
  intro h
  exact hi.pool.usedLt q (h.used hi hp)

/-- `D` bounds the domains. -/
theorem sons_sum_le (hi : Inv E.c ext [] s0) {p : Ptr} (hp : s0.used p = true) (hmem : ∀ q, q ∈ vs ↔ Reach s0.kind p q)
    {D : Nat} (hD : ∀ i, i < E.c.n → E.c.dom i ≤ D) :
    (vs.map fun q => (s0.sonsOf q).length).sum ≤ D * vs.length := by
  have : ∀ q ∈ vs, (s0.sonsOf q).length ≤ D := by
    intro q hq
    cases hk : s0.kind q with
    | leaf v => simp [Mgr.sonsOf, hk]
    | inner i ss =>
        obtain ⟨h1, h2, -⟩ := hi.sons q i ss (((hmem q).1 hq).used hi hp) hk
        simp only [Mgr.sonsOf, hk, h2]
        exact hD i h1
  have h := List.sum_le_card_nsmul (vs.map fun q => (s0.sonsOf q).length) D (by
    intro x hx
    obtain ⟨q, hq, rfl⟩ := List.mem_map.1 hx
    exact this q hq)
  rw [List.length_map] at h
  rw [Nat.mul_comm]
  exact h

/-- What `push` adds does not change the count. -/
theorem making_count {m : M (Ptr × Nat)} {w w' : World} {o : Out} {n : Nat}
    (e : (do
      let r ← onMgr m
      let o ← push r.1
      pure (o, r.2) : SM World (Out × Nat)) w = .ok ((o, n), w')) : ∃ d s', m w.mgr = .ok ((d, n), s') := by
  rw [bind_run] at e
  cases h : m w.mgr with
  | error x => simp only [onMgr, h] at e; cases e
  | ok r =>
      obtain ⟨⟨d, k⟩, s'⟩ := r
      simp only [onMgr, h] at e
      refine ⟨d, s', ?_⟩
      have : k = n := by
        rw [bind_run] at e
        cases h2 : push d { w with mgr := s' } with
        | error x => rw [h2] at e; cases e
        | ok u => rw [h2] at e; cases e; rfl
      rw [this]

end

end Teddy
