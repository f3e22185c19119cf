import Verif.Proofs.Vectors

/-! Nodes correspond to subfunctions. -/

namespace Teddy

open SM Spec

section
variable {c : Cfg} {ext : Ptr → Nat} {S : Mgr}

theorem mem_take_levelVars (h : Inv c ext [] S) {i l : Nat} :
    i ∈ (levelVars c S).take l ↔ i < c.n ∧ S.idx2lvl i < l := by
  unfold levelVars
  rw [← List.map_take, List.take_range]
  simp only [List.mem_map, List.mem_range]
  constructor
  · rintro ⟨k, hk, rfl⟩
    have hkn : k < c.n := by omega
    exact ⟨h.order.l2i_lt k hkn, by rw [h.order.l2i2l k hkn]; omega⟩
  · rintro ⟨hi, hl⟩
    have := h.order.i2l_lt i hi
    exact ⟨S.idx2lvl i, by omega, h.order.i2l2i i hi⟩

theorem fixFirst_valid {order : List Nat} {l : Nat} {y x : Asg} (hy : Valid c y) (hx : Valid c x) :
    Valid c (fixFirst order l y x) := by
  intro i hi
  unfold fixFirst
  split
  · exact hy i hi
  · exact hx i hi

/-- The function of a node. -/
noncomputable def nodeFun (S : Mgr) (p : Ptr) : Asg → Int := fun x =>
  open Classical in if h : ∃ v, Ev S.kind x p v then Classical.choose h else 0

theorem nodeFun_ev {p : Ptr} {x : Asg} {v : Int} (h : Ev S.kind x p v) : nodeFun S p x = v := by
  unfold nodeFun
  have hex : ∃ v, Ev S.kind x p v := ⟨v, h⟩
  rw [dif_pos hex]
  exact (Classical.choose_spec hex).det h

theorem nodeFun_den (h : Inv c ext [] S) (ho : Ordered c S) {p : Ptr} (hp : S.used p = true) :
    Den c S p (nodeFun S p) := by
  intro x hx
  obtain ⟨v, hv⟩ := Ev.total h ho hx p hp
  rw [nodeFun_ev hv]
  exact hv

/-- A node below `r` represents a subfunction of the function of `r`. -/
theorem reach_sub (h : Inv c ext [] S) (ho : Ordered c S) (hc : CfgOK c) {r p : Ptr}
    (hu : S.used r = true) (hr : Reach S.kind r p) {f : Asg → Int} (hd : Den c S r f) :
    ∃ l y, Valid c y ∧ Den c S p (fun x => f (fixFirst (levelVars c S) l y x)) := by
  obtain ⟨y, hy, hz⟩ := path_to h ho hc hr hu
  refine ⟨S.levelOf c p, y, hy, ?_⟩
  intro x hx
  have hv := hd _ (fixFirst_valid (order := levelVars c S) (l := S.levelOf c p) hy hx)
  refine ((hz _ _ ?_).2 hv).agree h ho (hr.used h hu) ?_
  · intro j hj _ hl
    unfold fixFirst
    rw [if_pos ((mem_take_levelVars h).2 ⟨hj, hl⟩)]
  · intro j hj
    unfold fixFirst
    rw [if_neg]
    intro hm
    have := ((mem_take_levelVars h).1 hm).2
    omega

/-- Every subfunction is represented by a node below. -/
theorem sub_reach (h : Inv c ext [] S) (ho : Ordered c S) {l : Nat} {y : Asg} (hy : Valid c y) :
    ∀ (d : Nat) (r : Ptr) (f : Asg → Int), c.n - S.levelOf c r = d → S.used r = true →
      Den c S r f → ∃ p, Reach S.kind r p ∧
        Den c S p (fun x => f (fixFirst (levelVars c S) l y x)) := by
  intro d
  induction d using Nat.strong_induction_on with
  | _ d ih =>
  intro r f hd hu hden
  have stop : l ≤ S.levelOf c r → ∃ p, Reach S.kind r p ∧
      Den c S p (fun x => f (fixFirst (levelVars c S) l y x)) := by
    intro hl
    refine ⟨r, .refl, ?_⟩
    intro x hx
    refine (hden _ (fixFirst_valid hy hx)).agree h ho hu ?_
    intro j hj
    unfold fixFirst
    rw [if_neg]
    intro hm
    have := ((mem_take_levelVars h).1 hm).2
    omega
  by_cases hl : l ≤ S.levelOf c r
  · exact stop hl
  cases hk : S.kind r with
  | leaf v =>
      refine ⟨r, .refl, ?_⟩
      intro x hx
      have hv := hden _ (fixFirst_valid (order := levelVars c S) (l := l) hy hx)
      dsimp only
      generalize f (fixFirst (levelVars c S) l y x) = u at hv
      cases hv with
      | leaf hk' => exact .leaf hk'
      | inner hk' _ _ => rw [hk] at hk'; cases hk'
  | inner i ss =>
      obtain ⟨hi, hlen, hus⟩ := h.sons r i ss hu hk
      have hyi := hy i hi
      have hlr : S.levelOf c r = S.idx2lvl i := by simp [Mgr.levelOf, hk]
      have hget : ss[y i]? = some (ss[y i]'(by omega)) := List.getElem?_eq_getElem (by omega)
      have hq := List.mem_of_getElem? hget
      have hlt := ho r i ss _ hu hk hq
      have hlq := levelOf_le h (hus _ hq)
      obtain ⟨p, hp, hdp⟩ := ih (c.n - S.levelOf c (ss[y i]'(by omega))) (by omega) _
        (fun x => f (upd x i (y i))) rfl (hus _ hq) (by
          intro x hx
          have hv := hden (upd x i (y i)) (valid_upd hx (fun _ => hyi))
          dsimp only
          generalize f (upd x i (y i)) = u at hv
          cases hv with
          | leaf hk' => rw [hk] at hk'; cases hk'
          | inner hk' hq' hv =>
              rw [hk] at hk'; cases hk'
              rw [upd_same, hget] at hq'; cases hq'
              refine hv.agree h ho (hus _ hq) ?_
              intro j hj
              have hne : j ≠ i := by rintro rfl; omega
              rw [upd_other _ _ hne])
      refine ⟨p, .step hk hq hp, ?_⟩
      intro x hx
      have := hdp x hx
      dsimp only at this ⊢
      have e : upd (fixFirst (levelVars c S) l y x) i (y i) = fixFirst (levelVars c S) l y x := by
        funext j
        simp only [upd_apply]
        split
        · rename_i e
          subst e
          unfold fixFirst
          rw [if_pos ((mem_take_levelVars h).2 ⟨hi, by omega⟩)]
        · rfl
      rw [e] at this
      exact this

/-- Each of a list of nodes below a set of roots represents a subfunction, and each subfunction is represented. -/
theorem node_subs (h : Inv c ext [] S) (ho : Ordered c S) (hc : CfgOK c)
    {vs : List Ptr} {F : (Asg → Int) → Prop}
    (h1 : ∀ q ∈ vs, ∃ r f, S.used r = true ∧ Reach S.kind r q ∧ Den c S r f ∧ F f)
    (h2 : ∀ f, F f → ∃ r, S.used r = true ∧ Den c S r f ∧ ∀ q, Reach S.kind r q → q ∈ vs) :
    ∃ G : Ptr → Asg → Int, (∀ q ∈ vs, S.used q = true ∧ Den c S q (G q) ∧
        ∃ f, F f ∧ Subfunction c.n c.dom (levelVars c S) f (G q)) ∧
      ∀ g, (∃ f, F f ∧ Subfunction c.n c.dom (levelVars c S) f g) → ∃ q ∈ vs, SameOn c.n c.dom g (G q) := by
  have hex : ∀ q : Ptr, ∃ g : Asg → Int, q ∈ vs → Den c S q g ∧
      ∃ f, F f ∧ Subfunction c.n c.dom (levelVars c S) f g := by
    intro q
    by_cases hq : q ∈ vs
    · obtain ⟨r, f, hu, hr, hd, hF⟩ := h1 q hq
      obtain ⟨l, y, hy, hdq⟩ := reach_sub h ho hc hu hr hd
      exact ⟨_, fun _ => ⟨hdq, f, hF, l, y, hy, rfl⟩⟩
    · exact ⟨fun _ => 0, fun hq' => absurd hq' hq⟩
  choose G hG using hex
  refine ⟨G, fun q hq => ⟨?_, hG q hq⟩, ?_⟩
  · obtain ⟨r, f, hu, hr, _⟩ := h1 q hq
    exact hr.used h hu
  · rintro g ⟨f, hF, l, y, hy, rfl⟩
    obtain ⟨r, hu, hd, hall⟩ := h2 f hF
    obtain ⟨p, hp, hdp⟩ := sub_reach (l := l) h ho hy _ r f rfl hu hd
    refine ⟨p, hall p hp, ?_⟩
    intro x hx
    exact (hdp x hx).det ((hG p (hall p hp)).1 x hx)

/-- Counting nodes below a set of roots counts different subfunctions, if different nodes have different
functions. -/
theorem count_subs_of (h : Inv c ext [] S) (ho : Ordered c S) (hc : CfgOK c)
    {vs : List Ptr} (hnd : vs.Nodup) {F : (Asg → Int) → Prop}
    (hun : ∀ p ∈ vs, ∀ q ∈ vs, SameFun c S p q → p = q)
    (h1 : ∀ q ∈ vs, ∃ r f, S.used r = true ∧ Reach S.kind r q ∧ Den c S r f ∧ F f)
    (h2 : ∀ f, F f → ∃ r, S.used r = true ∧ Den c S r f ∧ ∀ q, Reach S.kind r q → q ∈ vs) :
    CountFuns c.n c.dom (fun g => ∃ f, F f ∧ Subfunction c.n c.dom (levelVars c S) f g)
      vs.length := by
  obtain ⟨G, hG, hcov⟩ := node_subs h ho hc h1 h2
  refine ⟨vs.map G, by simp, ?_, ?_, ?_⟩
  · rw [List.pairwise_map]
    refine hnd.imp_of_mem ?_
    intro p q hp hq hne hsame
    refine hne (hun p hp q hq ?_)
    intro x v hx hv
    have e1 := hv.det ((hG p hp).2.1 x hx)
    rw [e1, hsame x hx]
    exact (hG q hq).2.1 x hx
  · intro g hg
    obtain ⟨q, hq, rfl⟩ := List.mem_map.1 hg
    exact (hG q hq).2.2
  · intro g hg
    obtain ⟨q, hq, hs⟩ := hcov g hg
    exact ⟨G q, List.mem_map.2 ⟨q, hq, rfl⟩, hs⟩

/-- Counting nodes below a set of roots counts different subfunctions. -/
theorem count_subs (h : Inv c ext [] S) (ho : Ordered c S) (hc : CfgOK c) (hcan : Canon S)
    {vs : List Ptr} (hnd : vs.Nodup) {F : (Asg → Int) → Prop}
    (h1 : ∀ q ∈ vs, ∃ r f, S.used r = true ∧ Reach S.kind r q ∧ Den c S r f ∧ F f)
    (h2 : ∀ f, F f → ∃ r, S.used r = true ∧ Den c S r f ∧ ∀ q, Reach S.kind r q → q ∈ vs) :
    CountFuns c.n c.dom (fun g => ∃ f, F f ∧ Subfunction c.n c.dom (levelVars c S) f g)
      vs.length := by
  have hused : ∀ q ∈ vs, S.used q = true := by
    intro q hq
    obtain ⟨r, f, hu, hr, _⟩ := h1 q hq
    exact hr.used h hu
  exact count_subs_of h ho hc hnd
    (fun p hp q hq hs => canonical h ho hcan hc (hused p hp) (hused q hq) hs) h1 h2

/-- A list of functions contains a list of the different ones. -/
theorem exists_countFuns {n : Nat} {dom : Nat → Nat} {F : (Asg → Int) → Prop} : ∀ (gs : List (Asg → Int)),
    (∀ g ∈ gs, F g) → ∃ hs : List (Asg → Int), hs.length ≤ gs.length ∧
      hs.Pairwise (fun g h => ¬ SameOn n dom g h) ∧ (∀ g ∈ hs, F g) ∧ ∀ g ∈ gs, ∃ h ∈ hs, SameOn n dom g h
  | [], _ => ⟨[], Nat.le_refl _, .nil, fun _ h => (by cases h), fun _ h => (by cases h)⟩
  | g :: gs, hF => by
      obtain ⟨hs, hl, hp, hFs, hcov⟩ := exists_countFuns (n := n) (dom := dom) gs (fun g hg => hF g (by simp [hg]))
      by_cases hg : ∃ h ∈ hs, SameOn n dom g h
      · refine ⟨hs, by simp; omega, hp, hFs, fun u hu => ?_⟩
        rcases List.mem_cons.1 hu with rfl | hu
        · exact hg
        · exact hcov u hu
      · refine ⟨g :: hs, by simp; omega, List.pairwise_cons.2 ⟨fun u hu hs' => hg ⟨u, hu, hs'⟩, hp⟩, ?_, ?_⟩
        · intro u hu
          rcases List.mem_cons.1 hu with rfl | hu
          · exact hF u (by simp)
          · exact hFs u hu
        · intro u hu
          rcases List.mem_cons.1 hu with rfl | hu
          · exact ⟨u, by simp, fun _ _ => rfl⟩
          · obtain ⟨v, hv, hs'⟩ := hcov u hu
            exact ⟨v, by simp [hv], hs'⟩

/-- Without canonicity there are at least as many nodes as subfunctions. -/
theorem count_subs_le (h : Inv c ext [] S) (ho : Ordered c S) (hc : CfgOK c)
    {vs : List Ptr} {F : (Asg → Int) → Prop}
    (h1 : ∀ q ∈ vs, ∃ r f, S.used r = true ∧ Reach S.kind r q ∧ Den c S r f ∧ F f)
    (h2 : ∀ f, F f → ∃ r, S.used r = true ∧ Den c S r f ∧ ∀ q, Reach S.kind r q → q ∈ vs) :
    ∃ k, k ≤ vs.length ∧ CountFuns c.n c.dom
      (fun g => ∃ f, F f ∧ Subfunction c.n c.dom (levelVars c S) f g) k := by
  obtain ⟨G, hG, hcov⟩ := node_subs h ho hc h1 h2
  obtain ⟨hs, hl, hp, hF, hc'⟩ := exists_countFuns (n := c.n) (dom := c.dom)
    (F := fun g => ∃ f, F f ∧ Subfunction c.n c.dom (levelVars c S) f g) (vs.map G) (by
      intro g hg
      obtain ⟨q, hq, rfl⟩ := List.mem_map.1 hg
      exact (hG q hq).2.2)
  refine ⟨hs.length, by simpa using hl, hs, rfl, hp, hF, fun g hg => ?_⟩
  obtain ⟨q, hq, hs1⟩ := hcov g hg
  obtain ⟨u, hu, hs2⟩ := hc' (G q) (List.mem_map.2 ⟨q, hq, rfl⟩)
  exact ⟨u, hu, fun x hx => (hs1 x hx).trans (hs2 x hx)⟩

/-- The used nodes, as a list. -/
theorem used_list (h : Inv c ext [] S) :
    ∃ vs : List Ptr, vs.Nodup ∧ (∀ q, q ∈ vs ↔ S.used q = true) ∧ vs.length = S.nodeCount := by
  refine ⟨(List.range S.next).filter fun p => S.used p, List.nodup_range.filter _, ?_, ?_⟩
  · intro q
    simp only [List.mem_filter, List.mem_range]
    exact ⟨fun h => h.2, fun hq => ⟨h.pool.usedLt q hq, hq⟩⟩
  · have hfree : ((List.range S.next).filter fun p => !S.used p).Perm S.free := by
      rw [List.perm_ext_iff_of_nodup (List.nodup_range.filter _) h.pool.freeNodup]
      intro q
      simp only [List.mem_filter, List.mem_range, Bool.not_eq_true']
      exact ⟨fun hq => h.pool.allFree q hq.1 hq.2, fun hq => h.pool.freeUnused q hq⟩
    have h1 := hfree.length_eq
    have h2 := List.length_eq_length_filter_add (l := List.range S.next) (fun p => S.used p)
    have h3 := h.pool.count
    simp only [List.length_range] at h2
    rw [← h1] at h3
    exact (Nat.add_right_cancel (h3.trans h2)).symm

end

end Teddy
