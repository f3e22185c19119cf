import Verif.Proofs.Traverse
import Verif.Proofs.Canon
import Verif.Proofs.Enum

/-! Sums over assignments of the values of a node, and `satisfy_count`. -/

namespace Teddy

open SM Spec

/-- The variables from level `l` on, in level order. -/
def varsFrom (c : Cfg) (S : Mgr) (l : Nat) : List Nat := (List.range' l (c.n - l)).map S.lvl2idx

/-- Value of node `p` under `x`. -/
noncomputable def valOf (S : Mgr) (x : Asg) (p : Ptr) : Int :=
  open Classical in if h : ∃ v, Ev S.kind x p v then h.choose else 0

section
variable {c : Cfg} {ext : Ptr → Nat} {tmp : List Ptr} {S : Mgr}

theorem valOf_eq {x : Asg} {p : Ptr} {v : Int} (h : Ev S.kind x p v) : valOf S x p = v := by
  unfold valOf
  have hex : ∃ v, Ev S.kind x p v := ⟨v, h⟩
  rw [dif_pos hex]
  exact hex.choose_spec.det h

theorem ev_valOf (h : Inv c ext tmp S) (ho : Ordered c S) {x : Asg} (hx : Valid c x) {p : Ptr}
    (hp : S.used p = true) : Ev S.kind x p (valOf S x p) := by
  obtain ⟨v, hv⟩ := Ev.total h ho hx p hp
  rw [valOf_eq hv]; exact hv

theorem varsFrom_cons {l : Nat} (h : l < c.n) :
    varsFrom c S l = S.lvl2idx l :: varsFrom c S (l + 1) := by
  unfold varsFrom
  have : c.n - l = (c.n - (l + 1)) + 1 := by omega
  rw [this, List.range'_succ]
  simp

theorem varsFrom_end : varsFrom c S c.n = [] := by simp [varsFrom]

theorem mem_varsFrom (h : OrderOK c S) {l i : Nat} :
    i ∈ varsFrom c S l ↔ i < c.n ∧ l ≤ S.idx2lvl i := by
  unfold varsFrom
  simp only [List.mem_map, List.mem_range'_1]
  constructor
  · rintro ⟨k, ⟨h1, h2⟩, rfl⟩
    have hk : k < c.n := by omega
    exact ⟨h.l2i_lt k hk, by rw [h.l2i2l k hk]; exact h1⟩
  · rintro ⟨h1, h2⟩
    have := h.i2l_lt i h1
    exact ⟨S.idx2lvl i, ⟨h2, by omega⟩, h.i2l2i i h1⟩

theorem nodup_varsFrom (h : OrderOK c S) {l : Nat} : (varsFrom c S l).Nodup := by
  unfold varsFrom
  refine List.Nodup.map_on ?_ List.nodup_range'
  intro a ha b hb e
  simp only [List.mem_range'_1] at ha hb
  rw [← h.l2i2l a (by omega), ← h.l2i2l b (by omega), e]

theorem varsFrom_zero_perm (h : OrderOK c S) : (varsFrom c S 0).Perm (List.range c.n) := by
  refine (List.perm_ext_iff_of_nodup (nodup_varsFrom h) List.nodup_range).2 ?_
  intro i
  rw [mem_varsFrom h, List.mem_range]
  simp

theorem valid_of_vars (hc : CfgOK c) {vars : List Nat} {x : Asg} (h1 : ∀ i ∈ vars, x i < c.dom i)
    (h2 : ∀ i, i ∉ vars → x i = 0) : Valid c x := by
  intro i hi
  by_cases h : i ∈ vars
  · exact h1 i h
  · rw [h2 i h]; exact hc.dom_pos i hi

section
variable {R : Type} [CommSemiring R]

/-- Weighted sum of `G (value of p)` over the variables from level `l` on. -/
noncomputable def nodeSum (c : Cfg) (S : Mgr) (P : Nat → Nat → R) (G : Int → R) (l : Nat) (p : Ptr) : R :=
  wsum c.dom P (varsFrom c S l) (fun x => G (valOf S x p))

variable {P : Nat → Nat → R} {G : Int → R}

theorem nodeSum_leaf {p : Ptr} {v : Int} (hk : S.kind p = .leaf v) :
    nodeSum c S P G c.n p = G v := by
  unfold nodeSum
  rw [varsFrom_end]
  simp only [wsum]
  rw [valOf_eq (.leaf hk)]

theorem nodeSum_skip (h : Inv c ext tmp S) (ho : Ordered c S) (hc : CfgOK c) {p : Ptr} {l : Nat}
    (hp : S.used p = true) (hl : l < S.levelOf c p) :
    nodeSum c S P G l p = ((List.range (c.dom (S.lvl2idx l))).map (P (S.lvl2idx l))).sum *
      nodeSum c S P G (l + 1) p := by
  have hle := levelOf_le h hp
  have hln : l < c.n := by omega
  unfold nodeSum
  rw [varsFrom_cons hln]
  simp only [wsum]
  rw [← List.sum_map_mul_right]
  congr 1
  refine List.map_congr_left ?_
  intro k hk
  congr 1
  refine wsum_congr (nodup_varsFrom h.order) ?_
  intro x h1 h2
  congr 1
  have hx : Valid c x := valid_of_vars hc h1 h2
  have hev := ev_valOf h ho hx hp
  refine valOf_eq (hev.agree h ho hp ?_)
  intro j hj
  have hne : j ≠ S.lvl2idx l := by
    rintro rfl
    rw [h.order.l2i2l l hln] at hj
    omega
  rw [upd_other _ _ hne]

theorem nodeSum_inner (h : Inv c ext tmp S) (ho : Ordered c S) (hc : CfgOK c) {p : Ptr} {i : Nat}
    {ss : List Ptr} (hp : S.used p = true) (hk : S.kind p = .inner i ss) :
    nodeSum c S P G (S.idx2lvl i) p = ((List.range ss.length).map fun k =>
      P i k * nodeSum c S P G (S.idx2lvl i + 1) (ss.getD k 0)).sum := by
  obtain ⟨hi, hlen, hu⟩ := h.sons p i ss hp hk
  have hl := h.order.i2l_lt i hi
  unfold nodeSum
  rw [varsFrom_cons hl, h.order.i2l2i i hi]
  simp only [wsum]
  rw [hlen]
  congr 1
  refine List.map_congr_left ?_
  intro k hk'
  have hkd := List.mem_range.1 hk'
  have hkl : k < ss.length := by omega
  congr 1
  refine wsum_congr (nodup_varsFrom h.order) ?_
  intro x h1 h2
  congr 1
  have hx : Valid c x := valid_of_vars hc h1 h2
  have eget : ss.getD k 0 = ss[k] := by simp [List.getD, hkl]
  rw [eget]
  have hmem : ss[k] ∈ ss := List.getElem_mem hkl
  have hus := hu _ hmem
  have hev := ev_valOf h ho hx hus
  refine valOf_eq (.inner hk (q := ss[k]) ?_ (hev.agree h ho hus ?_))
  · rw [upd_same, List.getElem?_eq_getElem hkl]
  · intro j hj
    have hlv := ho p i ss _ hp hk hmem
    have e : S.levelOf c p = S.idx2lvl i := by simp [Mgr.levelOf, hk]
    have hne : j ≠ i := by
      rintro rfl
      omega
    rw [upd_other _ _ hne]

end

/-- Product of the domains of the levels from `l` to `l'`. -/
def prodBetween (c : Cfg) (S : Mgr) (l l' : Nat) : Nat :=
  ((List.range (l' - l)).map fun k => c.dom (S.lvl2idx (l + k))).prod

theorem prodBetween_self {l : Nat} : prodBetween c S l l = 1 := by simp [prodBetween]

theorem prodBetween_cons {l l' : Nat} (h : l < l') :
    prodBetween c S l l' = c.dom (S.lvl2idx l) * prodBetween c S (l + 1) l' := by
  unfold prodBetween
  have : l' - l = (l' - (l + 1)) + 1 := by omega
  rw [this, List.range_succ_eq_map]
  simp only [List.map_cons, List.prod_cons, List.map_map, Nat.add_zero]
  congr 2
  refine List.map_congr_left (fun k _ => ?_)
  simp only [Function.comp]
  congr 2
  omega

theorem prodBetween_eq_domProd {l : Nat} :
    prodBetween c S l c.n = domProd c.dom (varsFrom c S l) := by
  unfold prodBetween domProd varsFrom
  rw [List.map_map, List.range'_eq_map_range, List.map_map]
  rfl

/-- Number of assignments of the variables from level `l` on with value `v`. -/
noncomputable def cnt (c : Cfg) (S : Mgr) (v : Int) (l : Nat) (p : Ptr) : Nat :=
  nodeSum (R := Nat) c S (fun _ _ => 1) (fun a => if a = v then 1 else 0) l p

theorem cnt_skip (h : Inv c ext tmp S) (ho : Ordered c S) (hc : CfgOK c) {p : Ptr} {v : Int}
    (hp : S.used p = true) {l : Nat} (hl : l ≤ S.levelOf c p) :
    cnt c S v l p = prodBetween c S l (S.levelOf c p) * cnt c S v (S.levelOf c p) p := by
  generalize hd : S.levelOf c p - l = d
  induction d generalizing l with
  | zero =>
      have : l = S.levelOf c p := by omega
      rw [← this, prodBetween_self, Nat.one_mul]
  | succ d ih =>
      have hlt : l < S.levelOf c p := by omega
      rw [prodBetween_cons hlt, Nat.mul_assoc, ← ih (by omega) (by omega)]
      unfold cnt
      rw [nodeSum_skip h ho hc hp hlt]
      simp

theorem cnt_le (h : Inv c ext tmp S) {p : Ptr} {v : Int} {l : Nat} :
    cnt c S v l p ≤ prodBetween c S l c.n := by
  unfold cnt nodeSum
  rw [wsum_eq (nodup_varsFrom h.order), prodBetween_eq_domProd, ← length_assignments]
  generalize assignments c.dom (varsFrom c S l) = L
  induction L with
  | nil => simp
  | cons a L ih =>
      simp only [List.map_cons, List.sum_cons, List.length_cons]
      have : ((List.map (fun i => 1) (varsFrom c S l)).prod *
        if valOf S a p = v then 1 else 0) ≤ 1 := by
        simp
        split <;> omega
      dsimp only at ih ⊢
      omega

theorem cnt_inner (h : Inv c ext tmp S) (ho : Ordered c S) (hc : CfgOK c) {p : Ptr} {i : Nat}
    {ss : List Ptr} {v : Int} (hp : S.used p = true) (hk : S.kind p = .inner i ss) :
    cnt c S v (S.idx2lvl i) p = (ss.map (cnt c S v (S.idx2lvl i + 1))).sum := by
  unfold cnt
  rw [nodeSum_inner h ho hc hp hk]
  congr 1
  refine List.ext_getElem (by simp) ?_
  intro k h1 h2
  simp at h1
  simp [h1]

theorem cnt_root {p : Ptr} {f : Asg → Int} {v : Int} (h : Inv c ext tmp S) (hc : CfgOK c)
    (hd : Den c S p f) : cnt c S v 0 p = countValue c.n c.dom f v := by
  rw [countValue_eq (varsFrom_zero_perm h.order)]
  unfold cnt nodeSum
  refine wsum_congr (nodup_varsFrom h.order) ?_
  intro x h1 h2
  rw [valOf_eq (hd x (valid_of_vars hc h1 h2))]

theorem prodBetween_split {l m r : Nat} (h1 : l ≤ m) (h2 : m ≤ r) :
    prodBetween c S l r = prodBetween c S l m * prodBetween c S m r := by
  generalize hd : m - l = d
  induction d generalizing l with
  | zero =>
      have : l = m := by omega
      subst this
      rw [prodBetween_self, Nat.one_mul]
  | succ d ih =>
      rw [prodBetween_cons (by omega : l < r), prodBetween_cons (by omega : l < m),
        ih (by omega) (by omega), Nat.mul_assoc]

theorem prodBetween_pos (h : OrderOK c S) (hc : CfgOK c) {l r : Nat} (hr : r ≤ c.n) :
    1 ≤ prodBetween c S l r := by
  refine prod_pos ?_
  intro d hd
  obtain ⟨k, hk, rfl⟩ := List.mem_map.1 hd
  have := List.mem_range.1 hk
  exact hc.dom_pos _ (h.l2i_lt _ (by omega))

theorem prodBetween_le (h : OrderOK c S) (hc : CfgOK c) {l r l' r' : Nat} (h1 : l' ≤ l)
    (h2 : l ≤ r) (h3 : r ≤ r') (hr : r' ≤ c.n) : prodBetween c S l r ≤ prodBetween c S l' r' := by
  rw [prodBetween_split h1 (h2.trans h3), prodBetween_split h2 h3]
  have e1 := prodBetween_pos h hc (l := l') (r := l) (by omega)
  have e2 := prodBetween_pos h hc (l := r) (r := r') hr
  have e3 := prodBetween_pos h hc (l := l) (r := r) (by omega)
  calc prodBetween c S l r ≤ prodBetween c S l r * prodBetween c S r r' :=
        Nat.le_mul_of_pos_right _ e2
    _ ≤ _ := Nat.le_mul_of_pos_left _ e1

theorem prodBetween_total (h : OrderOK c S) :
    prodBetween c S 0 c.n = ((List.range c.n).map c.dom).prod := by
  rw [prodBetween_eq_domProd]
  exact ((varsFrom_zero_perm h).map c.dom).prod_eq

theorem total_fits (h : OrderOK c S) (hc : CfgOK c) (hf : CountFits c) :
    prodBetween c S 0 c.n ≤ 9223372036854775807 := by
  rw [prodBetween_total h]
  unfold CountFits ProdFits at hf
  cases hfd : c.fixedDom with
  | none => simpa [hfd] using hf
  | some m =>
      have e : ((List.range c.n).map c.dom).prod = m ^ c.n := by
        have : (List.range c.n).map c.dom = List.replicate c.n m := by
          rw [List.eq_replicate_iff]
          refine ⟨by simp, ?_⟩
          intro d hd
          obtain ⟨i, hi, rfl⟩ := List.mem_map.1 hd
          exact hc.fixed m hfd i (List.mem_range.1 hi)
        rw [this]; simp
      rw [e]
      simp only [hfd, List.length_map, List.length_range] at hf
      split at hf
      · rename_i hm
        subst hm
        have : (2 : Nat) ^ c.n ≤ 2 ^ 62 := Nat.pow_le_pow_right (by omega) (by omega)
        have h62 : (2 : Nat) ^ 62 = 4611686018427387904 := by norm_num
        omega
      · omega

/-- The domains of the levels from `l` to `r`. -/
def domsBetween (c : Cfg) (S : Mgr) (l r : Nat) : List Nat :=
  (List.range (r - l)).map fun k => c.dom (S.lvl2idx (l + k))

theorem domainProduct_fits (h : OrderOK c S) (hc : CfgOK c) {l r : Nat}
    (hf : ProdFits c.fixedDom (domsBetween c S l r))
    (hr : r ≤ c.n) {s : Mgr} (hs : s.lvl2idx = S.lvl2idx) :
    domainProduct c l r s = .ok ((prodBetween c S l r : Nat), s) := by
  unfold domainProduct
  rw [bind_ok (s' := s) (a := s) rfl, hs]
  have hpos : ∀ d ∈ (List.range (r - l)).map (fun k => c.dom (S.lvl2idx (l + k))), 1 ≤ d := by
    intro d hd
    obtain ⟨k, hk, rfl⟩ := List.mem_map.1 hd
    have := List.mem_range.1 hk
    exact hc.dom_pos _ (h.l2i_lt _ (by omega))
  have hfx : ∀ m, c.fixedDom = some m →
      ∀ d ∈ (List.range (r - l)).map (fun k => c.dom (S.lvl2idx (l + k))), d = m := by
    intro m hm d hd
    obtain ⟨k, hk, rfl⟩ := List.mem_map.1 hd
    have := List.mem_range.1 hk
    exact hc.fixed m hm _ (h.l2i_lt _ (by omega))
  rw [domainProductOf_ok hpos hfx hf]
  rfl

theorem fits_between (h : OrderOK c S) (hc : CfgOK c) (hf : CountFits c) {l r : Nat}
    (hr : r ≤ c.n) : ProdFits c.fixedDom (domsBetween c S l r) := by
  unfold domsBetween
  have tot := total_fits h hc hf
  unfold CountFits ProdFits at hf
  unfold ProdFits
  cases hfd : c.fixedDom with
  | none =>
      dsimp only
      by_cases hlr : l ≤ r
      · exact (prodBetween_le h hc (Nat.zero_le _) hlr hr (Nat.le_refl _)).trans tot
      · have : r - l = 0 := by omega
        rw [this]; simp
  | some m =>
      simp only [hfd, List.length_map, List.length_range] at hf ⊢
      split at hf
      · rw [if_pos ‹_›]; omega
      · rw [if_neg ‹_›]
        by_cases hn : c.n = 0
        · have : r - l = 0 := by omega
          rw [this]; simp
        · have hm : 1 ≤ m := by
            rw [← hc.fixed m hfd 0 (by omega)]
            exact hc.dom_pos 0 (by omega)
          exact (Nat.pow_le_pow_right hm (by omega)).trans hf

theorem domainProduct_ok (h : OrderOK c S) (hc : CfgOK c) (hf : CountFits c) {l r : Nat}
    (hr : r ≤ c.n) {s : Mgr} (hs : s.lvl2idx = S.lvl2idx) :
    domainProduct c l r s = .ok ((prodBetween c S l r : Nat), s) :=
  domainProduct_fits h hc (fits_between h hc hf hr) hr hs

theorem liftE_fit64 {v : Nat} {s : Mgr} (h : v ≤ 9223372036854775807) :
    (liftE (fit64 (v : Int)) : M Int) s = .ok ((v : Int), s) := by
  rw [fit64_ok (by omega) (by omega)]; rfl

theorem assertValue_ok {v : Int} {s : Mgr}
    (hv : ∀ m, c.fixedDom = some m → c.asserts = true → v < m) : assertValue c v s = .ok ((), s) := by
  unfold assertValue
  cases hfd : c.fixedDom with
  | none => rfl
  | some m =>
      dsimp only
      rw [if_neg]
      · rfl
      · simp only [Bool.and_eq_true, Bool.not_eq_true', decide_eq_false_iff_not, not_and, not_not]
        exact hv m hfd

/-- Nothing reachable from `root` is marked. -/
def CleanBelow (S : Mgr) (root : Ptr) : Prop := ∀ q, Reach S.kind root q → S.mark q = false

/-- The products `satisfy_count` computes for the levels skipped by the edges below `root` fit their type. -/
structure SkipsFit (c : Cfg) (S : Mgr) (root : Ptr) : Prop where
  top : ProdFits c.fixedDom (domsBetween c S 0 (S.levelOf c root))
  edge : ∀ p i ss q, Reach S.kind root p → S.kind p = .inner i ss → q ∈ ss →
    ProdFits c.fixedDom (domsBetween c S (S.idx2lvl i + 1) (S.levelOf c q))

theorem cnt_le_skip (h : Inv c ext tmp S) (ho : Ordered c S) (hc : CfgOK c) {p : Ptr} {v : Int}
    (hp : S.used p = true) {l : Nat} (hl : l ≤ S.levelOf c p) :
    cnt c S v (S.levelOf c p) p ≤ cnt c S v l p := by
  rw [cnt_skip h ho hc hp hl]
  exact Nat.le_mul_of_pos_left _ (prodBetween_pos h.order hc (levelOf_le h hp))

/-- The count of a node below another one is at most the count of that one. -/
theorem cnt_reach (h : Inv c ext tmp S) (ho : Ordered c S) (hc : CfgOK c) {p q : Ptr} {v : Int}
    (hr : Reach S.kind p q) (hp : S.used p = true) :
    cnt c S v (S.levelOf c q) q ≤ cnt c S v (S.levelOf c p) p := by
  induction hr with
  | refl => exact Nat.le_refl _
  | @step p q r i ss hk hq _ ih =>
      have hin := h.sons p i ss hp hk
      have hqu := hin.2.2 q hq
      have hlev : S.levelOf c p = S.idx2lvl i := by simp [Mgr.levelOf, hk]
      have hlq := ho p i ss q hp hk hq
      refine (ih hqu).trans ((cnt_le_skip h ho hc hqu (l := S.idx2lvl i + 1) (by omega)).trans ?_)
      rw [hlev, cnt_inner h ho hc hp hk]
      exact List.single_le_sum (by simp) _ (List.mem_map_of_mem hq)

theorem satisfyCount_fits {E : Env} (g : Good E ext S) {root : Ptr} (hp : S.used root = true)
    (hcl : CleanBelow S root) {f : Asg → Int} (hd : Den E.c S root f) {v : Int} (hf : SkipsFit E.c S root)
    (hn : countValue E.c.n E.c.dom f v ≤ 9223372036854775807)
    (hv : ∀ m, E.c.fixedDom = some m → E.c.asserts = true → v < m) :
    Ok (satisfyCount E.c v root) S (fun r s' => r = (countValue E.c.n E.c.dom f v : Nat) ∧ s' = S) := by
  have h := g.inv
  have ho := g.ord
  have hc := g.cfg
  have B : Below E.c S root := Below.of h ho hp
  have tot : cnt E.c S v 0 root ≤ 9223372036854775807 := by rw [cnt_root h hc hd]; exact hn
  unfold satisfyCount
  refine Ok.bindEq (assertValue_ok hv) ?_
  refine Ok.bind (traversePost_ok (I := fun ds (m : Ptr → Int) d => d = S.data ∧
    ∀ q ∈ ds, m q = (cnt E.c S v (S.levelOf E.c q) q : Nat)) B hcl ⟨rfl, by simp⟩ ?_) ?_
  · rintro vs ds p m s hT ⟨hdat, hm⟩ hr hpd hsons
    have hup := B.used p hr
    have hus : s.used p = true := by rw [hT.used]; exact hup
    unfold satCountVisit
    refine Ok.bindEq (getKind_ok hus) ?_
    rw [hT.kind]
    cases hk : S.kind p with
    | leaf a =>
        refine Ok.pure ⟨hT, hdat, ?_⟩
        intro q hq
        simp only [upd_apply]
        split
        · rename_i e
          subst e
          have : S.levelOf E.c q = E.c.n := by simp [Mgr.levelOf, hk]
          rw [this]
          unfold cnt
          rw [nodeSum_leaf hk]
          split <;> simp
        · rcases List.mem_append.1 hq with hq | hq
          · exact hm q hq
          · simp at hq; contradiction
    | inner i ss =>
        dsimp only
        refine Ok.bindGet ?_
        rw [hT.i2l]
        have hlev : S.levelOf E.c p = S.idx2lvl i := by simp [Mgr.levelOf, hk]
        have hin := h.sons p i ss hup hk
        have hbound : (ss.map (cnt E.c S v (S.idx2lvl i + 1))).sum ≤ 9223372036854775807 := by
          rw [← cnt_inner h ho hc hup hk]
          rw [← hlev]
          exact (cnt_reach h ho hc hr hp).trans ((cnt_le_skip h ho hc hp (Nat.zero_le _)).trans tot)
        refine Ok.bind (foldL_rule (I := fun rest (acc : Int) s' => s' = s ∧ ∃ done, ss = done ++ rest ∧
          acc = ((done.map (cnt E.c S v (S.idx2lvl i + 1))).sum : Nat)) ?_ ss 0 s
          ⟨rfl, [], by simp, by simp⟩) ?_
        · rintro q rest acc s' ⟨rfl, done, hss, rfl⟩
          have hqs : q ∈ ss := by rw [hss]; simp
          have hqu : S.used q = true := hin.2.2 q hqs
          have hqu' : s'.used q = true := by rw [hT.used]; exact hqu
          have hlq := ho p i ss q hup hk hqs
          have hqle := levelOf_le h hqu
          refine Ok.bindEq (getLevel_ok hqu') ?_
          have e1 : s'.levelOf E.c q = S.levelOf E.c q := by
            simp [Mgr.levelOf, hT.kind, hT.i2l]
          rw [e1]
          refine Ok.bindEq (domainProduct_fits h.order hc (hf.edge p i ss q hr hk hqs) hqle hT.l2i) ?_
          have hmq := hm q (hsons q (by rw [sonsOf_inner hk]; exact hqs))
          have e2 : m q * ((prodBetween E.c S (S.idx2lvl i + 1) (S.levelOf E.c q) : Nat) : Int)
              = ((cnt E.c S v (S.idx2lvl i + 1) q : Nat) : Int) := by
            rw [hmq, cnt_skip h ho hc hqu (by omega : S.idx2lvl i + 1 ≤ S.levelOf E.c q)]
            push_cast; ring
          have hsum : (done.map (cnt E.c S v (S.idx2lvl i + 1))).sum + cnt E.c S v (S.idx2lvl i + 1) q
              ≤ 9223372036854775807 := by
            rw [hss] at hbound
            simp only [List.map_append, List.sum_append, List.map_cons, List.sum_cons] at hbound
            omega
          rw [e2]
          refine Ok.bindEq (liftE_fit64 (by omega)) ?_
          have e3 : ((((done.map (cnt E.c S v (S.idx2lvl i + 1))).sum : Nat) : Int)
              + ((cnt E.c S v (S.idx2lvl i + 1) q : Nat) : Int))
              = (((done.map (cnt E.c S v (S.idx2lvl i + 1))).sum
                + cnt E.c S v (S.idx2lvl i + 1) q : Nat) : Int) := by push_cast; ring
          rw [e3]
          refine Ok.of_eq (liftE_fit64 hsum) ⟨rfl, done ++ [q], by simp [hss], by simp⟩
        · rintro acc s' ⟨rfl, done, hss, rfl⟩
          simp at hss
          subst hss
          refine Ok.pure ⟨hT, hdat, ?_⟩
          intro q hq
          simp only [upd_apply]
          split
          · rename_i e
            subst e
            rw [hlev, cnt_inner h ho hc hup hk]
          · rcases List.mem_append.1 hq with hq | hq
            · exact hm q hq
            · simp at hq; contradiction
  · rintro m s' ⟨vs, _, hvs, hs', hdat, hm⟩
    rw [hdat] at hs'
    have : s' = S := hs'
    subst this
    refine Ok.bindEq (getLevel_ok hp) ?_
    have hle := levelOf_le h hp
    refine Ok.bindEq (domainProduct_fits h.order hc hf.top hle rfl) ?_
    have hmr := hm root ((hvs root).2 .refl)
    have e2 : m root * ((prodBetween E.c s' 0 (s'.levelOf E.c root) : Nat) : Int)
        = ((countValue E.c.n E.c.dom f v : Nat) : Int) := by
      rw [← cnt_root h hc hd, hmr, cnt_skip h ho hc hp (Nat.zero_le _)]
      push_cast; ring
    rw [e2]
    exact Ok.of_eq (liftE_fit64 hn) ⟨rfl, rfl⟩

theorem satisfyCount_ok {E : Env} (g : Good E ext S) {root : Ptr} (hp : S.used root = true)
    (hcl : CleanBelow S root) (hf : CountFits E.c) {f : Asg → Int} (hd : Den E.c S root f) {v : Int}
    (hv : ∀ m, E.c.fixedDom = some m → E.c.asserts = true → v < m) :
    Ok (satisfyCount E.c v root) S (fun r s' => r = (countValue E.c.n E.c.dom f v : Nat) ∧ s' = S) := by
  have h := g.inv
  refine satisfyCount_fits g hp hcl hd ⟨fits_between h.order g.cfg hf (levelOf_le h hp), ?_⟩ ?_ hv
  · intro p i ss q hr hk hq
    exact fits_between h.order g.cfg hf (levelOf_le h ((hr.snoc hk hq).used h hp))
  · rw [← cnt_root h g.cfg hd]
    exact (cnt_le h).trans (total_fits h.order g.cfg hf)

end

end Teddy
