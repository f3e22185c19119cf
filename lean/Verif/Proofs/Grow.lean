import Verif.Proofs.Shrink

/-! `get_cofactor` of a diagram that is not reduced: nodes of the operand and rebuilt nodes. -/

namespace Teddy

open SM

section
variable {E : Env} {ext : Ptr → Nat} {s : Mgr}

/-- Everything below `r` is a node below `root`, or a result the memo table holds for such a node. -/
def CofBelow (s0 : Mgr) (root : Ptr) (m : Memo) (s : Mgr) (r : Ptr) : Prop :=
  ∀ q, Reach s.kind r q → Reach s0.kind root q ∨ ∃ p, Reach s0.kind root p ∧ m p = some q

/-- What is known of the memo table. -/
def CofMemo (E : Env) (ext : Ptr → Nat) (s0 : Mgr) (φ : Ptr → Asg → Int → Prop) (root : Ptr) (m : Memo) (s : Mgr) : Prop :=
  MemoOK E ext (s0.levelOf E.c) φ m s ∧ ∀ p r, m p = some r → CofBelow s0 root m s r

variable {s0 : Mgr} {φ : Ptr → Asg → Int → Prop} {root : Ptr}

theorem CofBelow.keeps {r : Ptr} {m m' : Memo} {s' : Mgr} {lv : Ptr → Nat} {L : Nat} (h : CofBelow s0 root m s r)
    (k : Keeps ext [] s s') (hp : Prot ext [] s r) (hg : Grows lv L m m') : CofBelow s0 root m' s' r := by
  intro q hq
  rcases h q (hq.back k hp) with h | ⟨p, h1, h2⟩
  · exact .inl h
  · exact .inr ⟨p, h1, hg.get h2⟩

theorem CofBelow.raw {p : Ptr} {m : Memo} (hr : Reach s0.kind root p) (hp : Prot ext [] s0 p) (k : Keeps ext [] s0 s) :
    CofBelow s0 root m s p :=
  fun _ hq => .inl (hr.trans (hq.back k hp))

theorem mapAccL_cof {L : Nat} {F : Ptr → Memo → M (Ptr × Memo)} (l : List Ptr)
    (hF : ∀ a ∈ l, ∀ m s, Good E ext s → Keeps ext [] s0 s → CofMemo E ext s0 φ root m s →
      Ok (F a m) s (fun r s' => Step E ext s r.1 s' ∧ Rep E.c s' (s0.levelOf E.c a) r.1 (φ a) ∧
        CofBelow s0 root r.2 s' r.1 ∧ CofMemo E ext s0 φ root r.2 s' ∧ Grows (s0.levelOf E.c) L m r.2)) :
    ∀ m s, Good E ext s → Keeps ext [] s0 s → CofMemo E ext s0 φ root m s →
      Ok (mapAccL F l m) s (fun r s' => Good E ext s' ∧ Keeps ext [] s s' ∧
        r.1.length = l.length ∧ (∀ q ∈ r.1, Prot ext [] s' q ∧ CofBelow s0 root r.2 s' q) ∧
        (∀ (k : Nat) a q, l[k]? = some a → r.1[k]? = some q → Rep E.c s' (s0.levelOf E.c a) q (φ a)) ∧
        (∀ p, s'.mark p = true → p ∈ r.1 ∨ s.mark p = true) ∧
        CofMemo E ext s0 φ root r.2 s' ∧ Grows (s0.levelOf E.c) L m r.2) := by
  induction l with
  | nil =>
      intro m s g _ hm
      exact Ok.pure ⟨g, Keeps.refl s, rfl, by simp, by simp, fun p h => Or.inr h, hm, Grows.refl⟩
  | cons a l ih =>
      intro m s g k0 hm
      simp only [mapAccL]
      refine Ok.bind (hF a (by simp) m s g k0 hm) ?_
      rintro ⟨r1, m1⟩ s1 ⟨st, rep, src1, hm1, gr1⟩
      refine Ok.bind (ih (fun b hb => hF b (by simp [hb])) m1 s1 st.good (k0.trans st.keeps) hm1) ?_
      rintro ⟨rs, m2⟩ s2 ⟨g2, k2, hl, hq, hr, hmk, hm2, gr2⟩
      refine Ok.pure ⟨g2, st.keeps.trans k2, by simp [hl], ?_, ?_, ?_, hm2, gr1.trans gr2⟩
      · intro q hq'
        rcases List.mem_cons.1 hq' with rfl | hq'
        · exact ⟨k2.prot _ st.prot, src1.keeps k2 st.prot gr2⟩
        · exact hq q hq'
      · intro k b q hb hq
        cases k with
        | zero =>
            simp at hb hq
            subst hb hq
            exact rep.keeps k2 st.prot
        | succ k =>
            simp at hb hq
            exact hr k b q hb hq
      · intro p h
        rcases hmk p h with h1 | h1
        · exact Or.inl (by simp [h1])
        · rcases st.mark p h1 with h2 | h2
          · exact Or.inl (by simp [h2])
          · exact Or.inr h2

/-- A node is rebuilt from the results for its sons. -/
theorem rebuild_cof (g0 : Good E ext s0) {F : Ptr → Memo → M (Ptr × Memo)} {p : Ptr} {i : Nat} {ss : List Ptr}
    (hp : Prot ext [] s0 p) (hrp : Reach s0.kind root p) (hk : s0.kind p = .inner i ss) {m : Memo} (hmp : m p = none)
    (hφ : ∀ x, Valid E.c x → ∀ q v, ss[x i]? = some q → φ q x v → φ p x v)
    (hF : ∀ a ∈ ss, ∀ m s, Good E ext s → Keeps ext [] s0 s → CofMemo E ext s0 φ root m s →
      Ok (F a m) s (fun r s' => Step E ext s r.1 s' ∧ Rep E.c s' (s0.levelOf E.c a) r.1 (φ a) ∧
        CofBelow s0 root r.2 s' r.1 ∧ CofMemo E ext s0 φ root r.2 s' ∧
        Grows (s0.levelOf E.c) (s0.levelOf E.c p + 1) m r.2))
    (g : Good E ext s) (k : Keeps ext [] s0 s) (hm : CofMemo E ext s0 φ root m s) :
    Ok (do
      let (sons', m) ← mapAccL F ss m
      let r ← makeInternal E.c i sons'
      pure (r, upd m p (some r))) s (fun r s' => Step E ext s r.1 s' ∧ Rep E.c s' (s0.levelOf E.c p) r.1 (φ p) ∧
        CofBelow s0 root r.2 s' r.1 ∧ CofMemo E ext s0 φ root r.2 s' ∧
        Grows (s0.levelOf E.c) (s0.levelOf E.c p) m r.2) := by
  obtain ⟨hi, hlen, hu⟩ := g0.inv.sons p i ss (hp.used g0.inv) hk
  refine Ok.bind (mapAccL_cof (L := s0.levelOf E.c p + 1) ss hF m s g k hm) ?_
  rintro ⟨sons', m1⟩ s1 ⟨g1, k1, hl1, hp1, hr1, hm1, hmo1, gr1⟩
  dsimp only at hl1 hp1 hr1 hm1 hmo1 gr1
  have hlv : s1.idx2lvl i = s0.levelOf E.c p := by
    rw [k1.i2l, k.i2l]; simp [Mgr.levelOf, hk]
  refine Ok.bind (makeInternal_good
    (φ := fun k x v => ∃ q, ss[k]? = some q ∧ φ q x v) g1 hi
    (by rw [← hlen]; exact hl1) (fun q hq => (hp1 q hq).1) ?_) ?_
  · intro k q hq
    have hkl : k < ss.length := by
      have : k < sons'.length := by
        by_contra hc
        rw [List.getElem?_eq_none (by omega)] at hq; cases hq
      rw [← hl1]; exact this
    have hget : ss[k]? = some ss[k] := List.getElem?_eq_getElem hkl
    have hlt := g0.ord p i ss _ (hp.used g0.inv) hk (List.getElem_mem hkl)
    refine (hr1 k ss[k] q hget hq).mono (by rw [hlv]; omega) ?_
    intro x v _ h
    exact ⟨ss[k], hget, h⟩
  · rintro r s2 ⟨g2, k2, hp2, hm2, rep2, res⟩
    rw [hlv] at rep2
    have rep : Rep E.c s2 (s0.levelOf E.c p) r (φ p) := by
      refine rep2.mono (Nat.le_refl _) ?_
      rintro x v hx ⟨q, hq, h⟩
      exact hφ x hx q v hq h
    have hnone : m1 p = none := by
      rcases gr1 p with h | ⟨-, h⟩
      · rw [h, hmp]
      · omega
    have gr2 : Grows (s0.levelOf E.c) (s0.levelOf E.c p) m1 (upd m1 p (some r)) := by
      intro q
      by_cases e : q = p
      · subst e; exact .inr ⟨hnone, Nat.le_refl _⟩
      · exact .inl (upd_other _ _ e)
    have new : CofBelow s0 root (upd m1 p (some r)) s2 r := by
      have sub : ∀ b ∈ sons', CofBelow s0 root (upd m1 p (some r)) s2 b :=
        fun b hb => (hp1 b hb).2.keeps k2 (hp1 b hb).1 gr2
      rcases res with ⟨-, -, h3, -⟩ | ⟨-, h3, -⟩
      · exact sub r h3
      · intro q hq
        cases hq with
        | refl => exact .inr ⟨p, hrp, upd_same ..⟩
        | step hk' hq' hr' =>
            rw [h3] at hk'
            cases hk'
            exact sub _ hq' q hr'
    refine Ok.pure ⟨⟨g2, k1.trans k2, hp2, ?_⟩, rep, new,
      ⟨(hmo1.1.keeps k2).put hp2 rep, fun a b hab => ?_⟩, (gr1.mono (by omega)).trans gr2⟩
    · intro t ht
      rcases hm2 t ht with h1 | ⟨h1, h2⟩
      · exact Or.inl h1
      · rcases hm1 t h1 with h3 | h3
        · exact absurd h3 h2
        · exact Or.inr h3
    · by_cases e : a = p
      · subst e
        dsimp only at hab
        rw [upd_same] at hab
        cases hab
        exact new
      · dsimp only at hab
        rw [upd_other _ _ e] at hab
        exact (hmo1.2 a b hab).keeps k2 (hmo1.1 a b hab).1 gr2

theorem cofactorImpl_cof (g0 : Good E ext s0) {var val : Nat} (hval : var < E.c.n → val < E.c.dom var) :
    ∀ (f : Nat) (p : Ptr) (m : Memo) (s : Mgr), Good E ext s → Keeps ext [] s0 s → Reach s0.kind root p →
      Prot ext [] s0 p → CofMemo E ext s0 (fun p x v => Ev s0.kind (upd x var val) p v) root m s →
      E.c.n - s0.levelOf E.c p < f →
      Ok (cofactorImpl E.c var val f p m) s (fun r s' => Step E ext s r.1 s' ∧
        Rep E.c s' (s0.levelOf E.c p) r.1 (fun x v => Ev s0.kind (upd x var val) p v) ∧
        CofBelow s0 root r.2 s' r.1 ∧ CofMemo E ext s0 (fun p x v => Ev s0.kind (upd x var val) p v) root r.2 s' ∧
        Grows (s0.levelOf E.c) (s0.levelOf E.c p) m r.2) := by
  intro f
  induction f with
  | zero => intro p m s _ _ _ _ _ hf; omega
  | succ f ih =>
      intro p m s g k hrp hp hm hf
      simp only [cofactorImpl]
      cases hmp : m p with
      | some r =>
          have := hm.1 p r hmp
          exact Ok.pure ⟨Step.refl g this.1, this.2, hm.2 p r hmp, hm, Grows.refl⟩
      | none =>
          have hps := k.prot _ hp
          refine Ok.bindEq (getKind_ok (hps.used g.inv)) ?_
          rw [k.kind p hp]
          cases hk : s0.kind p with
          | leaf v =>
              refine Ok.pure ⟨Step.refl g hps, ⟨by rw [k.levelOf hp], fun x _ => ?_⟩, .raw hrp hp k, hm, Grows.refl⟩
              exact ⟨v, .leaf hk, (k.ev_iff hp).2 (.leaf hk)⟩
          | inner i ss =>
              obtain ⟨hi, hlen, hu⟩ := g0.inv.sons p i ss (hp.used g0.inv) hk
              dsimp only
              by_cases hiv : i = var
              · subst hiv
                rw [if_pos rfl]
                have hkl : val < ss.length := by rw [hlen]; exact hval hi
                have hget : ss[val]? = some ss[val] := List.getElem?_eq_getElem hkl
                have hmem : ss[val] ∈ ss := List.getElem_mem hkl
                have hlt := g0.ord p i ss _ (hp.used g0.inv) hk hmem
                have hq : Prot ext [] s0 ss[val] := .son hp hk hmem
                refine Ok.bindEq (getSon_ok (hps.used g.inv)
                  (by rw [k.kind p hp]; exact hk) hget) ?_
                refine Ok.pure ⟨Step.refl g (k.prot _ hq), ⟨?_, fun x hx => ?_⟩, .raw (hrp.snoc hk hmem) hq k, hm,
                  Grows.refl⟩
                · rw [k.levelOf hq]; omega
                · obtain ⟨v, hv⟩ := Ev.total g0.inv g0.ord hx _ (hq.used g0.inv)
                  refine ⟨v, .inner hk (by rw [upd_same]; exact hget) ?_, (k.ev_iff hq).2 hv⟩
                  refine hv.agree g0.inv g0.ord (hq.used g0.inv) ?_
                  intro j hj
                  have : j ≠ i := by
                    rintro rfl
                    simp only [Mgr.levelOf, hk] at hlt
                    unfold Mgr.levelOf at hj
                    omega
                  rw [upd_other _ _ this]
              · rw [if_neg hiv]
                refine rebuild_cof g0 hp hrp hk hmp ?_ ?_ g k hm
                · intro x _ q v hq h
                  exact .inner hk (by rw [upd_other _ _ hiv]; exact hq) h
                · intro q hq m s g k hm
                  have hlt := g0.ord p i ss q (hp.used g0.inv) hk hq
                  have hle := levelOf_le g0.inv ((Prot.son hp hk hq).used g0.inv)
                  refine (ih q m s g k (hrp.snoc hk hq) (.son hp hk hq) hm (by omega)).mono ?_
                  rintro r s' ⟨h1, h2, h3, h4, h5⟩
                  exact ⟨h1, h2, h3, h4, h5.mono (by omega)⟩

theorem cofactorsImpl_cof (g0 : Good E ext s0) {vars : List (Nat × Nat)}
    (hval : ∀ v ∈ vars, v.1 < E.c.n → v.2 < E.c.dom v.1) :
    ∀ (f todo : Nat) (p : Ptr) (m : Memo) (s : Mgr), Good E ext s → Keeps ext [] s0 s → Reach s0.kind root p →
      Prot ext [] s0 p → remaining s0 vars (s0.levelOf E.c p) ≤ todo →
      CofMemo E ext s0 (fun p x v => Ev s0.kind (updAll x vars) p v) root m s →
      E.c.n - s0.levelOf E.c p < f →
      Ok (cofactorsImpl E.c vars f todo p m) s (fun r s' => Step E ext s r.1 s' ∧
        Rep E.c s' (s0.levelOf E.c p) r.1 (fun x v => Ev s0.kind (updAll x vars) p v) ∧
        CofBelow s0 root r.2 s' r.1 ∧ CofMemo E ext s0 (fun p x v => Ev s0.kind (updAll x vars) p v) root r.2 s' ∧
        Grows (s0.levelOf E.c) (s0.levelOf E.c p) m r.2) := by
  intro f
  induction f with
  | zero => intro todo p m s _ _ _ _ _ _ hf; omega
  | succ f ih =>
      intro todo p m s g k hrp hp hrem hm hf
      have hps := k.prot _ hp
      simp only [cofactorsImpl]
      by_cases ht : todo = 0
      · rw [if_pos ht]
        refine Ok.pure ⟨Step.refl g hps, ⟨by rw [k.levelOf hp], fun x hx => ?_⟩, .raw hrp hp k, hm, Grows.refl⟩
        obtain ⟨v, hv⟩ := Ev.total g0.inv g0.ord hx _ (hp.used g0.inv)
        refine ⟨v, hv.agree g0.inv g0.ord (hp.used g0.inv) ?_, (k.ev_iff hp).2 hv⟩
        intro j hj
        have : findVar vars j = none := by
          refine findVar_none ?_
          rintro v hvm rfl
          have : 0 < remaining s0 vars (s0.levelOf E.c p) :=
            List.countP_pos_iff.2 ⟨v, hvm, by simpa using hj⟩
          omega
        simp [updAll, this]
      · rw [if_neg ht]
        cases hmp : m p with
        | some r =>
            have := hm.1 p r hmp
            exact Ok.pure ⟨Step.refl g this.1, this.2, hm.2 p r hmp, hm, Grows.refl⟩
        | none =>
            refine Ok.bindEq (getKind_ok (hps.used g.inv)) ?_
            rw [k.kind p hp]
            cases hk : s0.kind p with
            | leaf v =>
                refine Ok.pure ⟨Step.refl g hps, ⟨by rw [k.levelOf hp], fun x _ => ?_⟩, .raw hrp hp k, hm, Grows.refl⟩
                exact ⟨v, .leaf hk, (k.ev_iff hp).2 (.leaf hk)⟩
            | inner i ss =>
                obtain ⟨hi, hlen, hu⟩ := g0.inv.sons p i ss (hp.used g0.inv) hk
                have hlp : s0.levelOf E.c p = s0.idx2lvl i := by simp [Mgr.levelOf, hk]
                dsimp only
                cases hfv : findVar vars i with
                | some val =>
                    dsimp only
                    have hkl : val < ss.length := by
                      rw [hlen]; exact hval _ (findVar_mem hfv) hi
                    have hget : ss[val]? = some ss[val] := List.getElem?_eq_getElem hkl
                    have hmem : ss[val] ∈ ss := List.getElem_mem hkl
                    have hlt := g0.ord p i ss _ (hp.used g0.inv) hk hmem
                    have hq : Prot ext [] s0 ss[val] := .son hp hk hmem
                    have hle := levelOf_le g0.inv (hq.used g0.inv)
                    have hdrop := remaining_drop (s := s0) (findVar_mem hfv)
                      (L := s0.levelOf E.c ss[val]) (by omega)
                    refine Ok.bindEq (getSon_ok (hps.used g.inv)
                      (by rw [k.kind p hp]; exact hk) hget) ?_
                    rw [hlp] at hrem
                    refine Ok.bind (ih (todo - 1) ss[val] m s g k (hrp.snoc hk hmem) hq (by omega) hm (by omega)) ?_
                    rintro ⟨r, m1⟩ s1 ⟨st, rep, hb, hm1, gr1⟩
                    dsimp only at st rep hb hm1 gr1
                    have rep' : Rep E.c s1 (s0.levelOf E.c p) r
                        (fun x v => Ev s0.kind (updAll x vars) p v) := by
                      refine rep.mono (by omega) ?_
                      intro x v _ h
                      exact .inner hk (by simp [updAll, hfv]) h
                    have gr2 : Grows (s0.levelOf E.c) (s0.levelOf E.c p) m1 (upd m1 p (some r)) := by
                      intro q
                      by_cases e : q = p
                      · subst e
                        rcases gr1 q with h | ⟨-, h⟩
                        · exact .inr ⟨by rw [h, hmp], Nat.le_refl _⟩
                        · omega
                      · exact .inl (upd_other _ _ e)
                    refine Ok.pure ⟨st, rep', hb.keeps (Keeps.refl s1) st.prot gr2,
                      ⟨hm1.1.put st.prot rep', fun a b hab => ?_⟩, (gr1.mono (by omega)).trans gr2⟩
                    dsimp only at hab ⊢
                    by_cases e : a = p
                    · subst e
                      rw [upd_same] at hab
                      cases hab
                      exact hb.keeps (Keeps.refl s1) st.prot gr2
                    · rw [upd_other _ _ e] at hab
                      exact (hm1.2 a b hab).keeps (Keeps.refl s1) (hm1.1 a b hab).1 gr2
                | none =>
                    refine rebuild_cof g0 hp hrp hk hmp ?_ ?_ g k hm
                    · intro x _ q v hq h
                      exact .inner hk (by simpa [updAll, hfv] using hq) h
                    · intro q hq m s g k hm
                      have hlt := g0.ord p i ss q (hp.used g0.inv) hk hq
                      have hle := levelOf_le g0.inv ((Prot.son hp hk hq).used g0.inv)
                      have := remaining_mono (s := s0) (vars := vars) (Nat.le_of_lt hlt)
                      refine (ih todo q m s g k (hrp.snoc hk hq) (.son hp hk hq) (by omega) hm (by omega)).mono ?_
                      rintro r s' ⟨h1, h2, h3, h4, h5⟩
                      exact ⟨h1, h2, h3, h4, h5.mono (by omega)⟩

/-- Nodes of the operand and results in the memo table: at most twice as many as the operand has. -/
theorem cof_count {us vs : List Ptr} {m : Memo} (hu : us.Nodup)
    (h : ∀ q ∈ us, q ∈ vs ∨ ∃ p ∈ vs, m p = some q) : us.length ≤ 2 * vs.length := by
  have := length_le_of_src (us := us) (vs := vs.map Sum.inl ++ vs.map Sum.inr)
    (R := fun q (p : Ptr ⊕ Ptr) => match p with | .inl p => q = p | .inr p => m p = some q) hu (fun q hq => ?_) ?_
  · simp only [List.length_append, List.length_map] at this
    omega
  · rcases h q hq with h | ⟨a, h1, h2⟩
    · exact ⟨.inl q, by simpa using h, rfl⟩
    · exact ⟨.inr a, by simpa using h1, h2⟩
  · rintro q q' (a | a) - - h1 h2
    · exact Eq.trans h1 (Eq.symm h2)
    · dsimp only at h1 h2
      rw [h1] at h2
      exact Option.some.inj h2

/-- The result of `get_cofactor` has at most twice as many nodes as the operand. -/
theorem getCofactor_grows (hau : E.auto = false) (g : Good E ext s) {p : Ptr} (hp : Prot ext [] s p) {var val : Nat}
    (hval : var < E.c.n → val < E.c.dom var) {r : Ptr} {s' : Mgr} (e : getCofactor E.c p var val s = .ok (r, s'))
    {us vs : List Ptr} (hu : us.Nodup) (hus : ∀ q, q ∈ us ↔ Reach s'.kind r q)
    (hvs : ∀ q, q ∈ vs ↔ Reach s.kind p q) : us.length ≤ 2 * vs.length := by
  have one : (∀ q, q ∈ us → q ∈ vs) → us.length ≤ 2 * vs.length := by
    intro h
    have := length_le_of_src (R := fun q p => q = p) hu (fun q hq => ⟨q, h q hq, rfl⟩) (fun _ _ _ _ _ h1 h2 => h1.trans h2.symm)
    omega
  have hup := hp.used g.inv
  unfold getCofactor at e
  rw [bind_ok (getKind_ok hup)] at e
  cases hk : s.kind p with
  | leaf v =>
      rw [hk] at e
      dsimp only at e
      obtain ⟨r2, s2, e2, rfl, -, -, hk2⟩ := copyHandle_good g hp
      rw [e2] at e
      cases e
      rw [hk2] at hus
      exact one fun q hq => (hvs q).2 ((hus q).1 hq)
  | inner i ss =>
      rw [hk] at e
      dsimp only at e
      by_cases hiv : i = var
      · rw [if_pos hiv] at e
        subst hiv
        obtain ⟨hi, hlen, -⟩ := g.inv.sons p i ss hup hk
        have hkl : val < ss.length := by rw [hlen]; exact hval hi
        have hmem : ss[val] ∈ ss := List.getElem_mem hkl
        rw [bind_ok (getSon_ok hup hk (List.getElem?_eq_getElem hkl))] at e
        obtain ⟨r2, s2, e2, rfl, -, -, hk2⟩ := mkDiagram_good g (.son hp hk hmem)
        rw [e2] at e
        cases e
        rw [hk2] at hus
        exact one fun q hq => (hvs q).2 (.step hk hmem ((hus q).1 hq))
      · rw [if_neg hiv] at e
        obtain ⟨⟨r1, m⟩, s1, e1, st, -, hb, hm, -⟩ := cofactorImpl_cof (root := p) g hval (E.c.n + 1) p (fun _ => none) s g
          (Keeps.refl s) .refl hp ⟨MemoOK.empty, nofun⟩ (by omega)
        rw [bind_ok e1] at e
        dsimp only at e
        obtain ⟨r2, s2, e2, rfl, hh, -, hk2⟩ := mkDiagram_good st.good st.prot
        dsimp only at e2
        rw [bind_ok e2, bind_ok (runDeferred_ok (hh.good.defer hau) _)] at e
        cases e
        rw [hk2] at hus
        refine cof_count (m := m) hu fun q hq => ?_
        rcases hb q ((hus q).1 hq) with h | ⟨a, h1, h2⟩
        · exact .inl ((hvs q).2 h)
        · exact .inr ⟨a, (hvs a).2 h1, h2⟩

/-- The same for several variables. -/
theorem getCofactors_grows (hau : E.auto = false) (g : Good E ext s) {p : Ptr} (hp : Prot ext [] s p)
    {vars : List (Nat × Nat)} (hval : ∀ v ∈ vars, v.1 < E.c.n → v.2 < E.c.dom v.1) {r : Ptr} {s' : Mgr}
    (e : getCofactors E.c p vars s = .ok (r, s'))
    {us vs : List Ptr} (hu : us.Nodup) (hus : ∀ q, q ∈ us ↔ Reach s'.kind r q)
    (hvs : ∀ q, q ∈ vs ↔ Reach s.kind p q) : us.length ≤ 2 * vs.length := by
  have hup := hp.used g.inv
  have main : ∀ q todo, Reach s.kind p q → remaining s vars (s.levelOf E.c q) ≤ todo → ∀ r s', (do
      let (r, _) ← cofactorsImpl E.c vars (E.c.n + 1) todo q (fun _ => none)
      let d ← mkDiagram r
      runDeferred E.c
      pure d) s = .ok (r, s') → (∀ q, q ∈ us ↔ Reach s'.kind r q) → us.length ≤ 2 * vs.length := by
    intro q todo hq hrem r s' e hus
    obtain ⟨⟨r1, m⟩, s1, e1, st, -, hb, hm, -⟩ := cofactorsImpl_cof (root := p) g hval (E.c.n + 1) todo q (fun _ => none) s g
      (Keeps.refl s) hq (hq.prot hp) hrem ⟨MemoOK.empty, nofun⟩ (by omega)
    rw [bind_ok e1] at e
    dsimp only at e
    obtain ⟨r2, s2, e2, rfl, hh, -, hk2⟩ := mkDiagram_good st.good st.prot
    dsimp only at e2
    rw [bind_ok e2, bind_ok (runDeferred_ok (hh.good.defer hau) _)] at e
    cases e
    rw [hk2] at hus
    refine cof_count (m := m) hu fun q hq => ?_
    rcases hb q ((hus q).1 hq) with h | ⟨a, h1, h2⟩
    · exact .inl ((hvs q).2 h)
    · exact .inr ⟨a, (hvs a).2 h1, h2⟩
  unfold getCofactors at e
  rw [bind_ok (getKind_ok hup)] at e
  cases hk : s.kind p with
  | leaf v =>
      rw [hk] at e
      dsimp only at e
      obtain ⟨r2, s2, e2, rfl, -, -, hk2⟩ := copyHandle_good g hp
      rw [e2] at e
      cases e
      rw [hk2] at hus
      exact cof_count (m := fun _ => none) hu fun q hq => .inl ((hvs q).2 ((hus q).1 hq))
  | inner i ss =>
      obtain ⟨hi, hlen, -⟩ := g.inv.sons p i ss hup hk
      rw [hk] at e
      dsimp only at e
      cases hfv : findVar vars i with
      | none =>
          rw [hfv] at e
          rw [bind_ok (s' := s) (a := (p, vars.length)) rfl] at e
          exact main p vars.length .refl List.countP_le_length r s' e hus
      | some val =>
          rw [hfv] at e
          have hkl : val < ss.length := by rw [hlen]; exact hval _ (findVar_mem hfv) hi
          have hget : ss[val]? = some ss[val] := List.getElem?_eq_getElem hkl
          have hmem : ss[val] ∈ ss := List.getElem_mem hkl
          have hlt := g.ord p i ss _ hup hk hmem
          rw [bind_ok (s' := s) (a := (ss[val], vars.length - 1)) (by
            dsimp only
            rw [bind_ok (getSon_ok hup hk hget)]; rfl)] at e
          have hdrop := remaining_drop (s := s) (findVar_mem hfv)
            (L := s.levelOf E.c ss[val]) (by simpa [Mgr.levelOf, hk] using hlt)
          have hle : remaining s vars (s.idx2lvl i) ≤ vars.length := List.countP_le_length
          exact main _ _ (.step hk hmem .refl) (Nat.le_sub_of_add_le (hdrop.trans hle)) r s' e hus

end
end Teddy
