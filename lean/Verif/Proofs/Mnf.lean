import Verif.Proofs.NodeCount
import Verif.Proofs.Probability
import Verif.Proofs.Dpld
import Verif.Proofs.Mcvs

/-! `to_mnf` of a layered derivative is its downward closure. -/

namespace Teddy

open SM Spec

section
variable {E : Env} {ext : Ptr → Nat} {s : Mgr}

/-- Some assignment above `x` leads from `p` to the terminal 1. -/
def Up (c : Cfg) (s : Mgr) (p : Ptr) (x : Asg) : Prop :=
  ∃ y, Valid c y ∧ (∀ i, i < c.n → x i ≤ y i) ∧ Ev s.kind y p 1

/-- The value is 1 where `φ` holds and 0 elsewhere. -/
def BVal (φ : Asg → Prop) (x : Asg) (v : Int) : Prop := (φ x ∧ v = 1) ∨ (¬ φ x ∧ v = 0)

theorem BVal.congr {φ ψ : Asg → Prop} {x : Asg} {v : Int} (h : BVal φ x v) (e : ψ x ↔ φ x) :
    BVal ψ x v := by
  unfold BVal at h ⊢
  rw [e]
  exact h

theorem up_leaf {c : Cfg} {p : Ptr} {v : Int} (hk : s.kind p = .leaf v) (hv : v = 0 ∨ v = 1) {x : Asg}
    (hx : Valid c x) : BVal (Up c s p) x v := by
  have iff : Up c s p x ↔ v = 1 := by
    constructor
    · rintro ⟨y, _, _, he⟩
      exact (Ev.leaf hk : Ev s.kind y p v).det he
    · rintro rfl
      exact ⟨x, hx, fun _ _ => Nat.le_refl _, .leaf hk⟩
  rcases hv with rfl | rfl
  · exact Or.inr ⟨fun h => by simpa using iff.1 h, rfl⟩
  · exact Or.inl ⟨iff.2 rfl, rfl⟩

theorem up_inner {c : Cfg} (h : Inv c ext [] s) (ho : Ordered c s) {p : Ptr} {i : Nat} {ss : List Ptr}
    (hu : s.used p = true) (hk : s.kind p = .inner i ss) {x : Asg} :
    Up c s p x ↔ ∃ k q, x i ≤ k ∧ ss[k]? = some q ∧ Up c s q x := by
  obtain ⟨hi, hlen, hus⟩ := h.sons p i ss hu hk
  constructor
  · rintro ⟨y, hy, hxy, he⟩
    cases he with
    | leaf hk' => rw [hk] at hk'; cases hk'
    | inner hk' hq he =>
        rw [hk] at hk'
        cases hk'
        exact ⟨y i, _, hxy i hi, hq, y, hy, hxy, he⟩
  · rintro ⟨k, q, hxk, hq, y, hy, hxy, he⟩
    have hkl : k < ss.length := by
      by_contra hc
      rw [List.getElem?_eq_none (by omega)] at hq
      cases hq
    have hmem := List.mem_of_getElem? hq
    have hlt := ho p i ss q hu hk hmem
    refine ⟨upd y i k, valid_upd hy (fun _ => by omega), ?_, .inner hk (by rw [upd_same]; exact hq) ?_⟩
    · intro j hj
      by_cases e : j = i
      · subst e; rw [upd_same]; exact hxk
      · rw [upd_other _ _ e]; exact hxy j hj
    · rw [upd_self_of_indep h ho (hus q hmem) (by simpa [Mgr.levelOf, hk] using hlt)]
      exact he

/-- Every node below `p` is layered. -/
def LayeredAt (c : Cfg) (s : Mgr) (p : Ptr) : Prop :=
  ∀ q i ss, Reach s.kind p q → s.kind q = .inner i ss → ∀ (a b : Nat) qa qb, a < b →
    ss[a]? = some qa → ss[b]? = some qb →
    (∀ x, Valid c x → ¬ Up c s qa x) ∨ ∀ x, Valid c x → Up c s qb x → Up c s qa x

theorem LayeredAt.son {c : Cfg} {p q : Ptr} {i : Nat} {ss : List Ptr} (h : LayeredAt c s p)
    (hk : s.kind p = .inner i ss) (hq : q ∈ ss) : LayeredAt c s q :=
  fun t j ts hr => h t j ts (.step hk hq hr)

theorem sonAt_ok {rs : List Ptr} {k : Nat} {r : Ptr} (h : rs[k]? = some r) :
    sonAt rs k s = .ok (r, s) := by
  unfold sonAt
  rw [h]
  rfl

theorem isTerminalOf_ok {p : Ptr} (h : s.used p = true) (v : Int) :
    ∃ b, isTerminalOf v p s = .ok (b, s) ∧ (b = true ↔ s.kind p = .leaf v) := by
  unfold isTerminalOf
  rw [bind_ok (getKind_ok h)]
  cases hk : s.kind p with
  | leaf a => exact ⟨decide (a = v), rfl, by simp⟩
  | inner i ss => exact ⟨false, rfl, by simp⟩

theorem mnfOnes_ok {rs : List Ptr} (hu : ∀ q ∈ rs, s.used q = true) :
    ∀ k, k < rs.length → ∃ rs', mnfOnes k rs s = .ok (rs', s) ∧ rs'.length = rs.length ∧
      ∃ m, m ≤ k ∧ (m = 0 ∨ ∃ r, rs[m]? = some r ∧ s.kind r = .leaf 1) ∧
        ∀ j : Nat, rs'[j]? = if j < m then rs[m]? else rs[j]? := by
  intro k
  induction k with
  | zero => exact fun _ => ⟨rs, rfl, rfl, 0, Nat.le_refl _, Or.inl rfl, fun j => by simp⟩
  | succ k ih =>
      intro hk
      have hget : rs[k + 1]? = some rs[k + 1] := List.getElem?_eq_getElem hk
      obtain ⟨b, hb, hbi⟩ := isTerminalOf_ok (hu _ (List.getElem_mem hk)) 1
      simp only [mnfOnes]
      rw [bind_ok (sonAt_ok hget), bind_ok hb]
      cases b with
      | false =>
          obtain ⟨rs', h1, h2, m, h3, h4, h5⟩ := ih (by omega)
          exact ⟨rs', h1, h2, m, by omega, h4, h5⟩
      | true =>
          refine ⟨_, rfl, ?_, k + 1, Nat.le_refl _, Or.inr ⟨_, hget, hbi.1 rfl⟩, ?_⟩
          · simp only [List.length_append, List.length_replicate, List.length_drop]; omega
          · intro j
            by_cases hj : j < k + 1
            · rw [if_pos hj, List.getElem?_append_left (by simpa using hj), hget,
                List.getElem?_replicate, if_pos hj]
            · rw [if_neg hj, List.getElem?_append_right (by simp; omega), List.getElem?_drop,
                List.length_replicate]
              congr 1
              omega

theorem mnfZeros_ok : ∀ (k : Nat) (rs : List Ptr), (∀ q ∈ rs, s.used q = true) → k < rs.length →
    ∃ rs', mnfZeros k rs s = .ok (rs', s) ∧ rs'.length = rs.length ∧
      (∀ j, k ≤ j → rs'[j]? = rs[j]?) ∧
      (∀ j r, j < k → rs[j]? = some r → s.kind r = .leaf 0 → rs'[j]? = rs'[j + 1]?) ∧
      (∀ j r, j < k → rs[j]? = some r → s.kind r ≠ .leaf 0 → rs'[j]? = some r) := by
  intro k
  induction k with
  | zero =>
      exact fun rs _ _ => ⟨rs, rfl, rfl, fun _ _ => rfl, fun _ _ h => by omega, fun _ _ h => by omega⟩
  | succ k ih =>
      intro rs hu hk
      have hk0 : k < rs.length := by omega
      have hget0 : rs[k]? = some rs[k] := List.getElem?_eq_getElem hk0
      have hget : rs[k + 1]? = some rs[k + 1] := List.getElem?_eq_getElem hk
      obtain ⟨b, hb, hbi⟩ := isTerminalOf_ok (hu _ (List.getElem_mem hk0)) 0
      simp only [mnfZeros]
      rw [bind_ok (sonAt_ok hget0), bind_ok hb]
      cases b with
      | false =>
          obtain ⟨rs', h1, h2, h3, h4, h5⟩ := ih rs hu hk0
          refine ⟨rs', h1, h2, fun j hj => h3 j (by omega), ?_, ?_⟩
          · intro j r hj hr hl
            by_cases e : j = k
            · subst e
              rw [hget0] at hr
              cases hr
              exact absurd (hbi.2 hl) (by simp)
            · exact h4 j r (by omega) hr hl
          · intro j r hj hr hl
            by_cases e : j = k
            · subst e
              rw [h3 j (Nat.le_refl _)]
              exact hr
            · exact h5 j r (by omega) hr hl
      | true =>
          simp only [if_true]
          rw [bind_ok (sonAt_ok hget)]
          obtain ⟨rs', h1, h2, h3, h4, h5⟩ := ih (rs.set k rs[k + 1]) (by
            intro q hq
            rcases List.mem_or_eq_of_mem_set hq with h | h
            · exact hu q h
            · subst h; exact hu _ (List.getElem_mem hk)) (by simpa using hk0)
          have hset : ∀ j, j ≠ k → (rs.set k rs[k + 1])[j]? = rs[j]? := fun j hj =>
            List.getElem?_set_ne (Ne.symm hj)
          refine ⟨rs', h1, by simpa using h2, ?_, ?_, ?_⟩
          · intro j hj
            rw [h3 j (by omega), hset j (by omega)]
          · intro j r hj hr hl
            by_cases e : j = k
            · subst e
              rw [h3 j (Nat.le_refl _), h3 (j + 1) (by omega), hset (j + 1) (by omega), hget,
                List.getElem?_set_self hk0]
            · exact h4 j r (by omega) (by rw [hset j e]; exact hr) hl
          · intro j r hj hr hl
            by_cases e : j = k
            · subst e
              rw [hget0] at hr
              cases hr
              exact absurd (hbi.1 rfl) hl
            · exact h5 j r (by omega) (by rw [hset j e]; exact hr) hl

/-- In a canonical state a constant function is a terminal. -/
theorem const_leaf (g : Good E ext s) (hcan : E.canon = true) {r : Ptr} (hu : s.used r = true)
    {v : Int} (h : ∀ x, Valid E.c x → Ev s.kind x r v) : s.kind r = .leaf v := by
  obtain ⟨x0, hx0⟩ : ∃ x, Valid E.c x := ⟨fun _ => 0, fun i hi => g.cfg.dom_pos i hi⟩
  obtain ⟨t, ht, hk⟩ := (h x0 hx0).leafVal
  have e : r = t := canonical g.inv g.ord (g.canon hcan) g.cfg hu (ht.used g.inv hu) (by
    intro x w hx hw
    rw [hw.det (h x hx)]
    exact .leaf hk)
  rw [e]
  exact hk

/-- What a son of the transformed node is. -/
def MnfRes (E : Env) (s0 : Mgr) (q r : Ptr) (s : Mgr) : Prop :=
  Rep E.c s (s0.levelOf E.c q) r (BVal (Up E.c s0 q)) ∧
    ∀ v, s.kind r = .leaf v → Reach s0.kind q r

theorem MnfRes.keeps {s0 s' : Mgr} {q r : Ptr} (h : MnfRes E s0 q r s) (k : Keeps ext [] s s')
    (hp : Prot ext [] s r) : MnfRes E s0 q r s' :=
  ⟨h.1.keeps k hp, fun v hv => h.2 v (by rw [← k.kind r hp]; exact hv)⟩

/-- The memo table holds correct results; no terminal of the original diagram `top` is marked. -/
structure MnfMemo (E : Env) (ext : Ptr → Nat) (s0 : Mgr) (top : Ptr) (m : Memo) (s : Mgr) : Prop where
  memo : ∀ p r, m p = some r → Prot ext [] s r ∧ MnfRes E s0 p r s
  marks : ∀ p v, Reach s0.kind top p → s0.kind p = .leaf v → s.mark p = false

/-- One row: the sons after both loops. -/
theorem row_ok (g : Good E ext s) (hcan : E.canon = true) {rs : List Ptr} {L : Nat}
    {U : Nat → Asg → Prop} (hlen : 0 < rs.length)
    (hp : ∀ q ∈ rs, Prot ext [] s q)
    (hU : ∀ k, rs.length ≤ k → ∀ x, ¬ U k x)
    (hr : ∀ (k : Nat) r, rs[k]? = some r → Rep E.c s L r (BVal (U k)))
    (hch : ∀ a b, a < b → b < rs.length → (∀ x, Valid E.c x → ¬ U a x) ∨
      ∀ x, Valid E.c x → U b x → U a x) :
    ∃ rs1 rs2, mnfOnes (rs.length - 1) rs s = .ok (rs1, s) ∧
      mnfZeros (rs1.length - 1) rs1 s = .ok (rs2, s) ∧ rs2.length = rs.length ∧
      (∀ q ∈ rs2, q ∈ rs) ∧
      (∀ (k : Nat) r, rs2[k]? = some r → Rep E.c s L r (BVal fun x => ∃ k', k ≤ k' ∧ U k' x)) ∧
      ∀ q ∈ rs, q ∉ rs2 → ∃ v, s.kind q = .leaf v := by
  have hu : ∀ q ∈ rs, s.used q = true := fun q hq => (hp q hq).used g.inv
  obtain ⟨x0, hx0⟩ : ∃ x, Valid E.c x := ⟨fun _ => 0, fun i hi => g.cfg.dom_pos i hi⟩
  -- emptiness and fullness of a row are visible in its node
  have full : ∀ (k : Nat) r, rs[k]? = some r → (∀ x, Valid E.c x → U k x) → s.kind r = .leaf 1 := by
    intro k r hk h
    refine const_leaf g hcan (hu r (List.mem_of_getElem? hk)) fun x hx => ?_
    obtain ⟨v, hv, he⟩ := (hr k r hk).2 x hx
    rcases hv with ⟨_, rfl⟩ | ⟨hn, _⟩
    · exact he
    · exact absurd (h x hx) hn
  have empty : ∀ (k : Nat) r, rs[k]? = some r → (∀ x, Valid E.c x → ¬ U k x) → s.kind r = .leaf 0 := by
    intro k r hk h
    refine const_leaf g hcan (hu r (List.mem_of_getElem? hk)) fun x hx => ?_
    obtain ⟨v, hv, he⟩ := (hr k r hk).2 x hx
    rcases hv with ⟨hn, _⟩ | ⟨_, rfl⟩
    · exact absurd hn (h x hx)
    · exact he
  have ofLeaf1 : ∀ (k : Nat) r, rs[k]? = some r → s.kind r = .leaf 1 → ∀ x, Valid E.c x → U k x := by
    intro k r hk hl x hx
    obtain ⟨v, hv, he⟩ := (hr k r hk).2 x hx
    rcases hv with ⟨h, _⟩ | ⟨_, rfl⟩
    · exact h
    · exact absurd (he.det (.leaf hl)) (by decide)
  have ofLeaf0 : ∀ (k : Nat) r, rs[k]? = some r → s.kind r = .leaf 0 → ∀ x, Valid E.c x → ¬ U k x := by
    intro k r hk hl x hx
    obtain ⟨v, hv, he⟩ := (hr k r hk).2 x hx
    rcases hv with ⟨_, rfl⟩ | ⟨h, _⟩
    · exact absurd (he.det (.leaf hl)) (by decide)
    · exact h
  obtain ⟨rs1, e1, l1, m, hm, hone, h1⟩ := mnfOnes_ok hu (rs.length - 1) (by omega)
  have sub1 : ∀ q ∈ rs1, q ∈ rs := by
    intro q hq
    obtain ⟨j, hj⟩ := List.getElem?_of_mem hq
    rw [h1 j] at hj
    split at hj
    · exact List.mem_of_getElem? hj
    · exact List.mem_of_getElem? hj
  obtain ⟨rs2, e2, l2, h2, h20, h2n⟩ := mnfZeros_ok (rs1.length - 1) rs1 (fun q hq => hu q (sub1 q hq))
    (by omega)
  rw [l1] at h2 h20 h2n
  have some1 : ∀ j, j < rs.length → ∃ r, rs1[j]? = some r := fun j hj =>
    ⟨rs1[j]'(by omega), List.getElem?_eq_getElem (by omega)⟩
  have some2 : ∀ j, j < rs.length → ∃ r, rs2[j]? = some r := fun j hj =>
    ⟨rs2[j]'(by omega), List.getElem?_eq_getElem (by omega)⟩
  have mfull : 0 < m → ∀ x, Valid E.c x → U m x := by
    intro h
    rcases hone with h0 | ⟨r, hr1, hl⟩
    · omega
    · exact ofLeaf1 m r hr1 hl
  -- the last position holds the union
  have main : ∀ d j r, j + d = rs.length - 1 → rs2[j]? = some r →
      Rep E.c s L r (BVal fun x => ∃ k', j ≤ k' ∧ U k' x) ∧ r ∈ rs := by
    intro d
    induction d with
    | zero =>
        intro j r hj hr2
        rw [h2 j (by omega), h1 j, if_neg (by omega)] at hr2
        refine ⟨(hr j r hr2).mono (Nat.le_refl _) ?_, List.mem_of_getElem? hr2⟩
        intro x v hx hv
        have iff : (∃ k', j ≤ k' ∧ U k' x) ↔ U j x := by
          constructor
          · rintro ⟨k', h3, h4⟩
            by_cases e : k' = j
            · exact e ▸ h4
            · exact absurd h4 (hU k' (by omega) x)
          · exact fun h => ⟨j, Nat.le_refl _, h⟩
        exact hv.congr iff
    | succ d ih =>
        intro j r hj hr2
        obtain ⟨r1, hr1⟩ := some1 j (by omega)
        obtain ⟨r', hr'⟩ := some2 (j + 1) (by omega)
        by_cases hl : s.kind r1 = .leaf 0
        · have e := h20 j r1 (by omega) hr1 hl
          rw [hr2, hr'] at e
          cases e
          obtain ⟨rep, hmem⟩ := ih (j + 1) r (by omega) hr'
          refine ⟨rep.mono (Nat.le_refl _) ?_, hmem⟩
          have hjm : ¬ j < m := by
            intro hjm
            rw [h1 j, if_pos hjm] at hr1
            exact ofLeaf0 m r1 hr1 hl x0 hx0 (mfull (by omega) x0 hx0)
          rw [h1 j, if_neg hjm] at hr1
          intro x v hx hv
          have iff : (∃ k', j + 1 ≤ k' ∧ U k' x) ↔ ∃ k', j ≤ k' ∧ U k' x := by
            constructor
            · rintro ⟨k', h3, h4⟩
              exact ⟨k', by omega, h4⟩
            · rintro ⟨k', h3, h4⟩
              by_cases e : k' = j
              · subst e
                exact absurd h4 (ofLeaf0 k' r1 hr1 hl x hx)
              · exact ⟨k', by omega, h4⟩
          exact hv.congr iff.symm
        · have e := h2n j r1 (by omega) hr1 hl
          rw [hr2] at e
          cases e
          refine ⟨?_, sub1 r (List.mem_of_getElem? hr1)⟩
          rw [h1 j] at hr1
          by_cases hjm : j < m
          · rw [if_pos hjm] at hr1
            refine (hr m r hr1).mono (Nat.le_refl _) ?_
            intro x v hx hv
            have hUm := mfull (by omega) x hx
            rcases hv with ⟨_, rfl⟩ | ⟨hn, _⟩
            · exact Or.inl ⟨⟨m, by omega, hUm⟩, rfl⟩
            · exact absurd hUm hn
          · rw [if_neg hjm] at hr1
            refine (hr j r hr1).mono (Nat.le_refl _) ?_
            intro x v hx hv
            have iff : (∃ k', j ≤ k' ∧ U k' x) ↔ U j x := by
              constructor
              · rintro ⟨k', h3, h4⟩
                by_cases e : k' = j
                · exact e ▸ h4
                · by_cases hkl : k' < rs.length
                  · rcases hch j k' (by omega) hkl with h5 | h5
                    · exact absurd (empty j r hr1 h5) hl
                    · exact h5 x hx h4
                  · exact absurd h4 (hU k' (by omega) x)
              · exact fun h => ⟨j, Nat.le_refl _, h⟩
            exact hv.congr iff
  have lt2 : ∀ (j : Nat) r, rs2[j]? = some r → j < rs.length := by
    intro j r h
    by_contra hc
    rw [List.getElem?_eq_none (by omega)] at h
    cases h
  refine ⟨rs1, rs2, e1, e2, by omega, ?_, ?_, ?_⟩
  · intro q hq
    obtain ⟨j, hj⟩ := List.getElem?_of_mem hq
    have := lt2 j q hj
    exact (main (rs.length - 1 - j) j q (by omega) hj).2
  · intro k r hk
    have := lt2 k r hk
    exact (main (rs.length - 1 - k) k r (by omega) hk).1
  · intro q hq hnq
    obtain ⟨j, hj⟩ := List.getElem?_of_mem hq
    have hjl : j < rs.length := by
      by_contra hc
      rw [List.getElem?_eq_none (by omega)] at hj
      cases hj
    by_cases hjm : j < m
    · rcases hch j m hjm (by omega) with h3 | h3
      · exact ⟨0, empty j q hj h3⟩
      · exact ⟨1, full j q hj fun x hx => h3 x hx (mfull (by omega) x hx)⟩
    · have hq1 : rs1[j]? = some q := by rw [h1 j, if_neg hjm]; exact hj
      by_cases hl : s.kind q = .leaf 0
      · exact ⟨0, hl⟩
      · exfalso
        apply hnq
        by_cases hlast : j < rs.length - 1
        · exact List.mem_of_getElem? (h2n j q hlast hq1 hl)
        · exact List.mem_of_getElem? ((h2 j (by omega)).trans hq1)

/-- The node is a result in the memo table. -/
def Memo.Stores (m : Memo) (r : Ptr) : Prop := ∃ p, m p = some r

theorem toMnfImpl_good {s0 : Mgr} (g0 : Good E ext s0) (hcan : E.canon = true) {top : Ptr} (htp : Prot ext [] s0 top) :
    ∀ (f : Nat) (p : Ptr) (L : Ptr → Prop) (m : Memo) (s : Mgr), Good E ext s → Keeps ext [] s0 s →
      Prot ext [] s0 p → Reach s0.kind top p → (∀ v, LeafVal s0.kind p v → v = 0 ∨ v = 1) → LayeredAt E.c s0 p →
      MnfMemo E ext s0 top m s → (∀ t, Memo.Stores m t → TidyBelow L t s) → E.c.n - s0.levelOf E.c p < f →
      Ok (toMnfImpl E.c f p m) s (fun r s' => Step E ext s r.1 s' ∧ MnfRes E s0 p r.1 s' ∧
        MnfMemo E ext s0 top r.2 s' ∧
        TidyBelow (fun t => t = r.1 ∨ L t) r.1 s' ∧ ∀ u, Memo.Stores r.2 u → TidyBelow (fun t => t = r.1 ∨ L t) u s') := by
  intro f
  induction f with
  | zero => intro p L m s _ _ _ _ _ _ _ _ hf; omega
  | succ f ih =>
      intro p L m s g k hp htop hv hlay hm hL hf
      have hps := k.prot _ hp
      simp only [toMnfImpl]
      refine Ok.bindEq (getKind_ok (hps.used g.inv)) ?_
      rw [k.kind p hp]
      cases hk : s0.kind p with
      | leaf v =>
          refine Ok.pure ⟨Step.refl g hps, ⟨⟨by rw [k.levelOf hp], fun x hx => ?_⟩, fun _ _ => .refl⟩, hm,
            .leaf (by rw [k.kind p hp]; exact hk), fun u hu => (hL u hu).mono fun _ h => .inr h⟩
          exact ⟨v, up_leaf hk (hv v ⟨p, .refl, hk⟩) hx, (k.ev_iff hp).2 (.leaf hk)⟩
      | inner i ss =>
          obtain ⟨hi, hlen, hus⟩ := g0.inv.sons p i ss (hp.used g0.inv) hk
          dsimp only
          cases hmp : m p with
          | some r =>
              have := hm.memo p r hmp
              exact Ok.pure ⟨Step.refl g this.1, this.2, hm, (hL r ⟨p, hmp⟩).mono fun _ h => .inr h,
                fun u hu => (hL u hu).mono fun _ h => .inr h⟩
          | none =>
              have hpos : 0 < ss.length := by rw [hlen]; exact g0.cfg.dom_pos i hi
              refine Ok.bind (mapAccL_tidy (E := E) (ext := ext) (Q := fun q r s => MnfRes E s0 q r s)
                (T := MnfMemo E ext s0 top) (mem := Memo.Stores) (fun _ _ _ _ k hp h => h.keeps k hp) s0 ss ?_ L m s g k hm
                hL) ?_
              · intro q hq L m s g k hm hL
                have hlt := g0.ord p i ss q (hp.used g0.inv) hk hq
                have hle := levelOf_le g0.inv (hus q hq)
                exact ih q L m s g k (.son hp hk hq) (htop.trans (.step hk hq .refl)) (fun v h => hv v (h.son hk hq))
                  (hlay.son hk hq) hm hL (by omega)
              · rintro ⟨rs, m1⟩ s1 ⟨g1, k1, hl1, hp1, hr1, hm1, hmo1, tb1, mt1⟩
                dsimp only at hl1 hp1 hr1 hm1 hmo1 tb1 mt1 ⊢
                have hlv : s1.idx2lvl i = s0.levelOf E.c p := by
                  rw [k1.i2l, k.i2l]; simp [Mgr.levelOf, hk]
                have getss : ∀ (j : Nat) r, rs[j]? = some r → ∃ q, ss[j]? = some q := by
                  intro j r hj
                  have : j < ss.length := by
                    by_contra hc
                    rw [List.getElem?_eq_none (by omega)] at hj
                    cases hj
                  exact ⟨_, List.getElem?_eq_getElem this⟩
                let U : Nat → Asg → Prop := fun j x => ∃ q, ss[j]? = some q ∧ Up E.c s0 q x
                have hUeq : ∀ j q x, ss[j]? = some q → (U j x ↔ Up E.c s0 q x) := by
                  intro j q x hq
                  constructor
                  · rintro ⟨q', h1, h2⟩
                    rw [hq] at h1
                    cases h1
                    exact h2
                  · exact fun h => ⟨q, hq, h⟩
                have hrep : ∀ (j : Nat) r, rs[j]? = some r →
                    Rep E.c s1 (s1.idx2lvl i + 1) r (BVal (U j)) := by
                  intro j r hj
                  obtain ⟨q, hq⟩ := getss j r hj
                  have hlt := g0.ord p i ss q (hp.used g0.inv) hk (List.mem_of_getElem? hq)
                  refine (hr1 j q r hq hj).1.mono (by rw [hlv]; omega) ?_
                  intro x v _ h
                  exact h.congr (hUeq j q x hq)
                obtain ⟨rs1, rs2, e1, e2, l2, sub2, rep2, drop2⟩ := row_ok (U := U) g1 hcan
                  (by omega) hp1 (by
                    rintro j hj x ⟨q, hq, _⟩
                    rw [List.getElem?_eq_none (by omega)] at hq
                    cases hq) hrep (by
                    intro a b hab hb
                    have ha' : ss[a]? = some (ss[a]'(by omega)) := List.getElem?_eq_getElem (by omega)
                    have hb' : ss[b]? = some (ss[b]'(by omega)) := List.getElem?_eq_getElem (by omega)
                    rcases hlay p i ss .refl hk a b _ _ hab ha' hb' with h | h
                    · exact Or.inl fun x hx => by rw [hUeq a _ x ha']; exact h x hx
                    · exact Or.inr fun x hx => by
                        rw [hUeq a _ x ha', hUeq b _ x hb']; exact h x hx)
                refine Ok.bindEq e1 ?_
                refine Ok.bindEq e2 ?_
                refine Ok.bind (makeInternal_good (φ := fun j => BVal fun x => ∃ k', j ≤ k' ∧ U k' x)
                  g1 hi (by omega) (fun q hq => hp1 q (sub2 q hq)) rep2) ?_
                rintro r s2 ⟨g2, k2, hp2, hm2, rr, hres⟩
                rw [hlv] at rr
                have res : MnfRes E s0 p r s2 := by
                  refine ⟨rr.mono (Nat.le_refl _) ?_, ?_⟩
                  · intro x v hx h
                    have iff : (∃ k', x i ≤ k' ∧ U k' x) ↔ Up E.c s0 p x := by
                      rw [up_inner g0.inv g0.ord (hp.used g0.inv) hk]
                      constructor
                      · rintro ⟨k', h1, q, h2, h3⟩
                        exact ⟨k', q, h1, h2, h3⟩
                      · rintro ⟨k', q, h1, h2, h3⟩
                        exact ⟨k', h1, q, h2, h3⟩
                    exact h.congr iff.symm
                  · intro v hkr
                    rcases hres with ⟨_, rfl, hrs, _⟩ | ⟨_, hk', _⟩
                    · obtain ⟨j, hj⟩ := List.getElem?_of_mem (sub2 r hrs)
                      obtain ⟨q, hq⟩ := getss j r hj
                      exact .step hk (List.mem_of_getElem? hq) ((hr1 j q r hq hj).2 v (by
                        rw [← k2.kind r (hp1 r (List.mem_of_getElem? hj))]; exact hkr))
                    · rw [hk'] at hkr
                      cases hkr
                have origin : ∀ q ∈ rs, ∀ v, s1.kind q = .leaf v → s1.mark q = false := by
                  intro q hq v hkq
                  obtain ⟨j, hj⟩ := List.getElem?_of_mem hq
                  obtain ⟨t, ht⟩ := getss j q hj
                  have hr0 : Reach s0.kind p q := .step hk (List.mem_of_getElem? ht) ((hr1 j t q ht hj).2 v hkq)
                  refine hmo1.marks q v (htop.trans hr0) ?_
                  rw [← (k.trans k1).kind q (hr0.prot hp)]
                  exact hkq
                have fewer : ∀ t, TidyBelow (fun u => u ∈ rs ∨ L u) t s1 → TidyBelow (fun u => u ∈ rs2 ∨ L u) t s1 := by
                  intro t ht u h1 h2
                  rcases ht u h1 h2 with h3 | h3
                  · by_cases h4 : u ∈ rs2
                    · exact .inl h4
                    · obtain ⟨v, hku⟩ := drop2 u h3 h4
                      rw [origin u h3 v hku] at h2
                      cases h2
                  · exact .inr h3
                have below := TidyBelow.new k2 hm2 (fun q hq => hp1 q (sub2 q hq))
                  (fun q hq => fewer q (tb1 q (sub2 q hq))) hres
                refine Ok.pure ⟨⟨g2, k1.trans k2, hp2, ?_⟩, res, ⟨?_, ?_⟩, below, ?_⟩
                · intro t ht
                  rcases hm2 t ht with h1 | ⟨h1, h2⟩
                  · exact Or.inl h1
                  · rcases hm1 t h1 with h3 | h3
                    · obtain ⟨v, hkt⟩ := drop2 t h3 h2
                      rw [origin t h3 v hkt] at h1
                      cases h1
                    · exact Or.inr h3
                · intro q r' hq
                  simp only [upd_apply] at hq
                  split at hq
                  · rename_i e
                    subst e
                    cases hq
                    exact ⟨hp2, res⟩
                  · have := hmo1.memo q r' hq
                    exact ⟨k2.prot _ this.1, this.2.keeps k2 this.1⟩
                · intro q v hq hkq
                  have hq1 := hmo1.marks q v hq hkq
                  have hqp : Prot ext [] s0 q := hq.prot htp
                  cases hmq : s2.mark q with
                  | false => rfl
                  | true =>
                      rcases hm2 q hmq with rfl | ⟨h1, _⟩
                      · rcases hres with ⟨_, rfl, _, _⟩ | ⟨_, hk', _⟩
                        · rw [hq1] at hmq; cases hmq
                        · rw [((k.trans k1).trans k2).kind q hqp, hkq] at hk'
                          cases hk'
                      · rw [hq1] at h1; cases h1
                · rintro u ⟨q, hq⟩
                  simp only [upd_apply] at hq
                  split at hq
                  · cases hq
                    exact below
                  · exact (fewer u (mt1 u ⟨q, hq⟩)).made k2 hm2 (hmo1.memo q u hq).1

/-- Only the values of the manager's variables matter. -/
theorem Ev.agreeN {c : Cfg} (h : Inv c ext [] s) {x y : Asg} {p : Ptr} {v : Int}
    (hu : s.used p = true) (hxy : ∀ i, i < c.n → x i = y i) (he : Ev s.kind x p v) :
    Ev s.kind y p v := by
  induction he with
  | leaf hk => exact .leaf hk
  | inner hk hq _ ih =>
      obtain ⟨hi, _, hus⟩ := h.sons _ _ _ hu hk
      exact .inner hk (by rw [← hxy _ hi]; exact hq) (ih (hus _ (List.mem_of_getElem? hq)))

theorem covered_iff {c : Cfg} (h : Inv c ext [] s) {p : Ptr} {f : Asg → Int} (hu : s.used p = true)
    (hd : Den c s p f) (x : Asg) : Up c s p x ↔ Covered c.n c.dom f x := by
  constructor
  · rintro ⟨y, hy, hxy, he⟩
    let y0 : Asg := fun i => if i < c.n then y i else 0
    have e0 : ∀ i, i < c.n → y0 i = y i := fun i hi => by simp [y0, hi]
    have hy0 : Valid c y0 := fun i hi => by rw [e0 i hi]; exact hy i hi
    refine ⟨y0, ?_, fun i hi => by rw [e0 i hi]; exact hxy i hi, ?_⟩
    · refine (mem_assignments List.nodup_range).2 ⟨?_, ?_⟩
      · exact fun i hi => hy0 i (List.mem_range.1 hi)
      · intro i hi
        simp only [List.mem_range] at hi
        simp [y0, hi]
    · exact (hd y0 hy0).det (he.agreeN h hu fun i hi => (e0 i hi).symm)
  · rintro ⟨y, hy, hxy, e⟩
    have hv : Valid c y := fun i hi =>
      ((mem_assignments List.nodup_range).1 hy).1 i (List.mem_range.2 hi)
    exact ⟨y, hv, hxy, e ▸ hd y hv⟩

theorem layeredAt {c : Cfg} (h : Inv c ext [] s) (ho : Ordered c s) (hc : CfgOK c) {r : Ptr}
    {f : Asg → Int} (hu : s.used r = true) (hd : Den c s r f)
    (hf : Layered c.n c.dom (levelVars c s) f) : LayeredAt c s r := by
  intro q i ss hr hk a b qa qb hab hqa hqb
  have huq := hr.used h hu
  obtain ⟨hi, hlen, hus⟩ := h.sons q i ss huq hk
  obtain ⟨y, hy, hz⟩ := path_to h ho hc hr hu
  have hlq : s.levelOf c q = s.idx2lvl i := by simp [Mgr.levelOf, hk]
  have hord : (levelVars c s)[s.idx2lvl i]? = some i := by
    unfold levelVars
    rw [List.getElem?_map, List.getElem?_range (h.order.i2l_lt i hi)]
    simp [h.order.i2l2i i hi]
  have key : ∀ k t z, ss[k]? = some t → Valid c z →
      (f (fixFirst (levelVars c s) (s.idx2lvl i) y (upd z i k)) = 1 ↔ Ev s.kind z t 1) := by
    intro k t z ht hzv
    have hkl : k < c.dom i := by
      rw [← hlen]
      by_contra hcon
      rw [List.getElem?_eq_none (by omega)] at ht
      cases ht
    have hlt := ho q i ss t huq hk (List.mem_of_getElem? ht)
    have hw := fixFirst_valid (order := levelVars c s) (l := s.idx2lvl i) hy
      (valid_upd hzv (i := i) (k := k) fun _ => hkl)
    generalize hwe : fixFirst (levelVars c s) (s.idx2lvl i) y (upd z i k) = w at hw ⊢
    have hwi : w i = k := by
      rw [← hwe]
      unfold fixFirst
      rw [if_neg (by rw [mem_take_levelVars h]; omega), upd_same]
    have hwy : ∀ j, j < c.n → s.idx2lvl j < s.idx2lvl i → w j = y j := by
      intro j hj hl
      rw [← hwe]
      unfold fixFirst
      rw [if_pos (by rw [mem_take_levelVars h]; exact ⟨hj, hl⟩)]
    have hwz : ∀ j, s.levelOf c t ≤ s.idx2lvl j → w j = z j := by
      intro j hl
      have hne : j ≠ i := by rintro rfl; omega
      rw [← hwe]
      unfold fixFirst
      rw [if_neg (by rw [mem_take_levelVars h]; omega), upd_other _ _ hne]
    have hq : ∀ v, Ev s.kind w q v ↔ Ev s.kind w r v := fun v =>
      hz w v fun j hj _ hl => hwy j hj (by omega)
    constructor
    · intro e
      have h1 : Ev s.kind w q 1 := (hq 1).2 (e ▸ hd w hw)
      cases h1 with
      | leaf hk' => rw [hk] at hk'; cases hk'
      | inner hk' hq' he =>
          rw [hk] at hk'
          cases hk'
          rw [hwi, ht] at hq'
          cases hq'
          exact he.agree h ho (hus t (List.mem_of_getElem? ht)) hwz
    · intro he
      have h1 : Ev s.kind w t 1 := he.agree h ho (hus t (List.mem_of_getElem? ht))
        fun j hj => (hwz j hj).symm
      have h2 : Ev s.kind w q 1 := .inner hk (by rw [hwi]; exact ht) h1
      exact (hd w hw).det ((hq 1).1 h2)
  have hbl : b < c.dom i := by
    rw [← hlen]
    by_contra hcon
    rw [List.getElem?_eq_none (by omega)] at hqb
    cases hqb
  rcases hf (s.idx2lvl i) i y a b hord hy hab hbl with h1 | h1
  · left
    rintro x hx ⟨z, hzv, _, he⟩
    exact h1 z hzv ((key a qa z hqa hzv).2 he)
  · right
    rintro x hx ⟨z, hzv, hxz, he⟩
    obtain ⟨z', hz', hle, e⟩ := h1 z hzv ((key b qb z hqb hzv).2 he)
    exact ⟨z', hz', fun j hj => (hxz j hj).trans (hle j hj), (key a qa z' hqa hz').1 e⟩

/-- The downward closure of `f`. -/
def closure (c : Cfg) (f : Asg → Int) (x : Asg) : Int := if Covered c.n c.dom f x then 1 else 0

theorem toMnf_good (hau : E.auto = false) (g : Good E ext s) (hcan : E.canon = true) {p : Ptr} (hcl : CleanBelow s p)
    (hp : Prot ext [] s p) {f : Asg → Int} (hd : Den E.c s p f)
    (h01 : ∀ x, Valid E.c x → f x = 0 ∨ f x = 1) (hf : Layered E.c.n E.c.dom (levelVars E.c s) f) :
    Ok (toMnf E.c p) s (fun r s' => NewDiagram E ext s (closure E.c f) r s' ∧ CleanBelow s' r) := by
  have hu := hp.used g.inv
  unfold toMnf
  refine Ok.bind (toMnfImpl_good g hcan hp (E.c.n + 1) p (fun _ => False) _ s g (Keeps.refl s) hp .refl ?_
    (layeredAt g.inv g.ord g.cfg hu hd hf) ⟨fun _ _ h => (by cases h), fun q _ hq _ => hcl q hq⟩
    (by rintro _ ⟨_, h⟩; cases h) (by omega)) ?_
  · intro v hv
    obtain ⟨x, hx, e⟩ := (leafVal_iff g hu hd).1 hv
    exact e ▸ h01 x hx
  rintro ⟨r, m⟩ s1 ⟨st, ⟨rep, _⟩, _, tb, _⟩
  refine Ok.bindEq (runDeferred_ok (st.good.defer hau) _) ?_
  obtain ⟨r', s', e', rfl, _, hm, hk⟩ := mkDiagram_good st.good st.prot
  suffices hs : Ok (mkDiagram r') s1 (fun r s' => NewDiagram E ext s (closure E.c f) r s') by
    obtain ⟨r2, s2, e2, nd⟩ := hs
    rw [e'] at e2
    cases e2
    refine ⟨r', s', e', nd, ?_⟩
    intro t ht
    rw [hk] at ht
    rw [hm, upd_apply]
    split
    · rfl
    · rename_i hne
      cases hmt : s1.mark t with
      | false => rfl
      | true => exact ((tb t ht hmt).elim hne id).elim
  refine st.diagram (rep.mono (Nat.le_refl _) ?_)
  intro x v _ hv
  unfold closure
  rcases hv with ⟨h1, rfl⟩ | ⟨h1, rfl⟩
  · rw [if_pos ((covered_iff g.inv hu hd x).1 h1)]
  · rw [if_neg fun h => h1 ((covered_iff g.inv hu hd x).2 h)]

theorem fussellVesely_good (hau : E.auto = false) (g : Good E ext s) (hcan : E.canon = true) {p : Ptr}
    (hcl : CleanBelow s p) (hp : Prot ext [] s p) {f : Asg → Int} (hd : Den E.c s p f)
    (h01 : ∀ x, Valid E.c x → f x = 0 ∨ f x = 1) (hf : Layered E.c.n E.c.dom (levelVars E.c s) f)
    {P : Nat → Nat → Rat} (hP : SumsToOne E.c.n E.c.dom P) {u : Rat} {st i : Nat} :
    Ok (fussellVesely E.c P u st i p) s (fun r s' => Good E ext s' ∧ KeepsH ext s s' ∧
      (∀ q, s'.mark q = true → s.mark q = true) ∧
      r = ((List.range st).map (P i)).sum *
        probability E.c.n E.c.dom P (fun x => decide (Covered E.c.n E.c.dom f x)) / u) := by
  unfold fussellVesely
  refine Ok.bind (toMnf_good hau g hcan hcl hp hd h01 hf) ?_
  rintro m s1 ⟨nd, hcl1⟩
  have hpos : 0 < addExt ext m m := by simp [addExt, upd_same]
  refine Ok.bind (ntpsPost_ok (selected := [1]) nd.handle.good (nd.handle.good.inv.extUsed m hpos) hcl1 nd.den
    hP ?_ (by simp)) ?_
  · intro x _ h
    unfold closure at h
    split at h <;> simp [Undefined] at h
  rintro q s2 ⟨rfl, D⟩
  have g2 := D.good nd.handle.good
  refine Ok.bind (dropHandle_good g2 hpos) ?_
  rintro _ s3 ⟨g3, hm3, hk3, hi3, hl3, _⟩
  refine Ok.pure ⟨g3.ext_eq ?_, ?_, ?_, ?_⟩
  · intro q
    simp only [subExt, addExt, upd_apply]
    by_cases e : q = m
    · subst e; simp
    · simp [e]
  · exact (nd.handle.keeps.toH.trans (KeepsH.of_kind D.kind D.i2l D.l2i)).trans
      (KeepsH.of_kind hk3 hi3 hl3)
  · intro q hq
    rw [hm3, D.mark] at hq
    exact nd.mark q hq
  · congr 3
    funext x
    unfold closure
    by_cases h : Covered E.c.n E.c.dom f x <;> simp [h]

end

end Teddy
