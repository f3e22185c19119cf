import Verif.Proofs.Transform

/-! Canonicity: equal functions have equal root nodes.  Evaluation. -/

namespace Teddy

open SM

section
variable {E : Env} {c : Cfg} {ext : Ptr → Nat} {tmp : List Ptr} {s : Mgr}

theorem leaf_unique (h : Inv c ext [] s) {p q : Ptr} {v : Int} (hp : s.used p = true)
    (hq : s.used q = true) (hkp : s.kind p = .leaf v) (hkq : s.kind q = .leaf v) : p = q := by
  have key : ∀ r, s.used r = true → s.kind r = .leaf v →
      (v ≠ Undefined ∧ s.terminals[v.toNat]? = some (some r)) ∨
      (v = Undefined ∧ s.special = some r) := by
    intro r hr hk
    rcases (h.placed r).1 hr with ⟨i, hi, hm⟩ | hm | hm | hm
    · obtain ⟨ss, h1⟩ := h.tabKind i hi r hm
      rw [hk] at h1; cases h1
    · simp at hm
    · left
      obtain ⟨k, hg⟩ := List.mem_iff_getElem?.1 hm
      obtain ⟨h1, h2⟩ := h.termKind k r hg
      rw [hk] at h1
      cases h1
      exact ⟨h2, by simpa using hg⟩
    · right
      have h1 := h.specKind r hm
      rw [hk] at h1
      cases h1
      exact ⟨rfl, hm⟩
  rcases key p hp hkp with ⟨h1, h2⟩ | ⟨h1, h2⟩ <;> rcases key q hq hkq with ⟨h3, h4⟩ | ⟨h3, h4⟩
  · rw [h2] at h4
    simpa using h4
  · exact absurd h3 h1
  · exact absurd h1 h3
  · rw [h2] at h4
    simpa using h4

/-- The two nodes have the same values. -/
def SameFun (c : Cfg) (s : Mgr) (p q : Ptr) : Prop :=
  ∀ x v, Valid c x → Ev s.kind x p v → Ev s.kind x q v

theorem upd_self_of_indep (h : Inv c ext tmp s) (ho : Ordered c s) {q : Ptr} {i k : Nat}
    (hq : s.used q = true) (hl : s.idx2lvl i < s.levelOf c q) {x : Asg} {v : Int} :
    Ev s.kind (upd x i k) q v ↔ Ev s.kind x q v := by
  have ag : ∀ j, s.levelOf c q ≤ s.idx2lvl j → upd x i k j = x j := by
    intro j hj
    refine upd_other _ _ ?_
    rintro rfl
    omega
  constructor
  · exact fun he => he.agree h ho hq ag
  · exact fun he => he.agree h ho hq (fun j hj => (ag j hj).symm)

theorem son_same (h : Inv c ext tmp s) (ho : Ordered c s) {p q r : Ptr} {i k : Nat}
    {ss : List Ptr} (hp : s.used p = true) (hkp : s.kind p = .inner i ss) (hr : ss[k]? = some r)
    (hl : s.idx2lvl i < s.levelOf c q) (hq : s.used q = true) (hk : k < c.dom i)
    (hpq : SameFun c s p q) : SameFun c s r q := by
  intro x v hx hv
  have hmem := List.mem_of_getElem? hr
  have hlr : s.idx2lvl i < s.levelOf c r := by
    have := ho p i ss r hp hkp hmem
    simpa [Mgr.levelOf, hkp] using this
  have hur := (h.sons p i ss hp hkp).2.2 r hmem
  have h1 : Ev s.kind (upd x i k) p v :=
    .inner hkp (by rw [upd_same]; exact hr) ((upd_self_of_indep h ho hur hlr).2 hv)
  exact (upd_self_of_indep h ho hq hl).1 (hpq _ v (valid_upd hx (fun _ => hk)) h1)

theorem SameFun.symm (h : Inv c ext tmp s) (ho : Ordered c s) {p q : Ptr} (hp : s.used p = true)
    (hpq : SameFun c s p q) : SameFun c s q p := by
  intro x v hx hv
  obtain ⟨w, hw⟩ := Ev.total h ho hx p hp
  have := (hpq x w hx hw).det hv
  subst this
  exact hw

/-- Two nodes with the same function are the same node, among nodes (closed under sons) of which none is
redundant and no two have the same variable and sons. -/
theorem canonicalOn (S : Ptr → Prop) (h : Inv c ext [] s) (ho : Ordered c s) (hc : CfgOK c)
    (hsons : ∀ p i ss, S p → s.kind p = .inner i ss → ∀ q ∈ ss, S q)
    (nonred : ∀ p i ss, S p → s.kind p = .inner i ss → isRedundant ss = false)
    (nodup : ∀ p q i ss, s.used p = true → s.used q = true → S p → S q →
      s.kind p = .inner i ss → s.kind q = .inner i ss → p = q)
    {p q : Ptr} (hp : s.used p = true) (hq : s.used q = true) (sp : S p) (sq : S q)
    (hpq : SameFun c s p q) : p = q := by
  have key : ∀ d p q, (c.n - s.levelOf c p) + (c.n - s.levelOf c q) = d →
      s.used p = true → s.used q = true → S p → S q → SameFun c s p q → p = q := by
    intro d
    induction d using Nat.strong_induction_on with
    | _ d ih =>
        intro p q hd hp hq sp sq hpq
        -- an internal node above `q` cannot have the same function
        have above : ∀ p q, s.used p = true → s.used q = true → S p → S q → SameFun c s p q →
            s.levelOf c p < s.levelOf c q →
            (c.n - s.levelOf c p) + (c.n - s.levelOf c q) = d → False := by
          intro p q hp hq sp sq hpq hlt hd
          cases hk : s.kind p with
          | leaf v =>
              have := levelOf_le h hq
              simp only [Mgr.levelOf, hk] at hlt
              unfold Mgr.levelOf at this
              omega
          | inner i ss =>
              obtain ⟨hi, hlen, hu⟩ := h.sons p i ss hp hk
              have hlp : s.levelOf c p = s.idx2lvl i := by simp [Mgr.levelOf, hk]
              have hall : ∀ r ∈ ss, r = q := by
                intro r hr
                obtain ⟨k, hget⟩ := List.mem_iff_getElem?.1 hr
                have hkl : k < ss.length := by
                  by_contra hcon
                  rw [List.getElem?_eq_none (by omega)] at hget; cases hget
                have hlr := ho p i ss r hp hk hr
                have hle := levelOf_le h (hu r hr)
                exact ih _ (by omega) r q rfl (hu r hr) hq (hsons p i ss sp hk r hr) sq
                  (son_same h ho hp hk hget (by omega) hq (by omega) hpq)
              have hnr := nonred p i ss sp hk
              match ss, hnr, hall with
              | [], hnr, _ => simp [isRedundant] at hnr
              | a :: l, hnr, hall =>
                  have : isRedundant (a :: l) = true := by
                    rw [isRedundant_iff]
                    intro b hb
                    rw [hall b (by simp [hb]), hall a (by simp)]
                  rw [this] at hnr; cases hnr
        rcases Nat.lt_trichotomy (s.levelOf c p) (s.levelOf c q) with hlt | heq | hlt
        · exact (above p q hp hq sp sq hpq hlt hd).elim
        · cases hkp : s.kind p with
          | leaf v =>
              cases hkq : s.kind q with
              | leaf w =>
                  have e := hpq (fun _ => 0) v (fun i hi => hc.dom_pos i hi) (.leaf hkp)
                  have := e.det (.leaf hkq)
                  subst this
                  exact leaf_unique h hp hq hkp hkq
              | inner j ss =>
                  have := h.order.i2l_lt j (h.sons q j ss hq hkq).1
                  simp only [Mgr.levelOf, hkp, hkq] at heq
                  omega
          | inner i ss =>
              obtain ⟨hi, hlen, hu⟩ := h.sons p i ss hp hkp
              cases hkq : s.kind q with
              | leaf w =>
                  have := h.order.i2l_lt i hi
                  simp only [Mgr.levelOf, hkp, hkq] at heq
                  omega
              | inner j ts =>
                  obtain ⟨hj, hlen', hu'⟩ := h.sons q j ts hq hkq
                  have hij : i = j := by
                    simp only [Mgr.levelOf, hkp, hkq] at heq
                    have h1 := h.order.i2l2i i hi
                    rw [heq, h.order.i2l2i j hj] at h1
                    exact h1.symm
                  subst hij
                  have hss : ss = ts := by
                    apply List.ext_getElem?
                    intro k
                    by_cases hkl : k < c.dom i
                    · have hk1 : k < ss.length := by omega
                      have hk2 : k < ts.length := by omega
                      have g1 : ss[k]? = some ss[k] := List.getElem?_eq_getElem hk1
                      have g2 : ts[k]? = some ts[k] := List.getElem?_eq_getElem hk2
                      have m1 := List.getElem_mem hk1
                      have m2 := List.getElem_mem hk2
                      have l1 := ho p i ss _ hp hkp m1
                      have l2 := ho q i ts _ hq hkq m2
                      have hlp : s.levelOf c p = s.idx2lvl i := by simp [Mgr.levelOf, hkp]
                      have hlq : s.levelOf c q = s.idx2lvl i := by simp [Mgr.levelOf, hkq]
                      have le1 := levelOf_le h (hu _ m1)
                      have le2 := levelOf_le h (hu' _ m2)
                      have same : SameFun c s ss[k] ts[k] := by
                        intro x v hx hv
                        have e1 : Ev s.kind (upd x i k) p v :=
                          .inner hkp (by rw [upd_same]; exact g1)
                            ((upd_self_of_indep h ho (hu _ m1) (by omega)).2 hv)
                        have e2 := hpq _ v (valid_upd hx (fun _ => hkl)) e1
                        cases e2 with
                        | leaf hk' => rw [hkq] at hk'; cases hk'
                        | inner hk' hr hv' =>
                            rw [hkq] at hk'; cases hk'
                            rw [upd_same, g2] at hr; cases hr
                            exact (upd_self_of_indep h ho (hu' _ m2) (by omega)).1 hv'
                      rw [g1, g2, ih _ (by omega) _ _ rfl (hu _ m1) (hu' _ m2) (hsons p i ss sp hkp _ m1)
                        (hsons q i ts sq hkq _ m2) same]
                    · rw [List.getElem?_eq_none (by omega), List.getElem?_eq_none (by omega)]
                  subst hss
                  exact nodup p q i ss hp hq sp sq hkp hkq
        · exact (above q p hq hp sq sp (hpq.symm h ho hp) hlt (by omega)).elim
  exact key _ p q rfl hp hq sp sq hpq

/-- Two nodes with the same function are the same node. -/
theorem canonical (h : Inv c ext [] s) (ho : Ordered c s) (hcan : Canon s) (hc : CfgOK c)
    {p q : Ptr} (hp : s.used p = true) (hq : s.used q = true) (hpq : SameFun c s p q) :
    p = q :=
  canonicalOn (fun p => s.used p = true) h ho hc (fun p i ss hp hk => (h.sons p i ss hp hk).2.2)
    hcan.nonred (fun p q i ss hp hq _ _ => hcan.nodup p q i ss hp hq) hp hq hp hq hpq

/-- Evaluation of a diagram. -/
theorem evalNode_ok (h : Inv c ext tmp s) (ho : Ordered c s) {x : Asg} :
    ∀ (f : Nat) (p : Ptr) (v : Int), s.used p = true → Ev s.kind x p v →
      c.n - s.levelOf c p < f → evalNode f p x s = .ok (v, s) := by
  intro f
  induction f with
  | zero => intro p v _ _ hf; omega
  | succ f ih =>
      intro p v hp he hf
      simp only [evalNode]
      rw [bind_ok (getKind_ok hp)]
      cases he with
      | leaf hk => rw [hk]; rfl
      | inner hk hq hv =>
          rename_i q i ss
          rw [hk]
          dsimp only
          rw [bind_ok (getSon_ok hp hk hq)]
          have hmem := List.mem_of_getElem? hq
          have hlt := ho p i ss q hp hk hmem
          have hu := (h.sons p i ss hp hk).2.2 q hmem
          have := levelOf_le h hu
          exact ih q v hu hv (by omega)

theorem evaluate_ok (h : Inv c ext tmp s) (ho : Ordered c s) {x : Asg} {p : Ptr} {v : Int}
    (hp : s.used p = true) (he : Ev s.kind x p v) : evaluate c p x s = .ok (v, s) :=
  evalNode_ok h ho (c.n + 1) p v hp he (by omega)

end

end Teddy
