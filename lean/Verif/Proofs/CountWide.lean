import Verif.Proofs.Observe
import Verif.Proofs.OkE

/-! `satisfy_count` with many variables: the products of the domains of skipped levels. -/

namespace Teddy

open SM Spec

section
variable {c : Cfg} {ext : Ptr → Nat} {S : Mgr} {root : Ptr}

theorem mem_slice (h : Inv c ext [] S) {k i j : Nat} (hj : j ≤ c.n) :
    k ∈ ((levelVars c S).take j).drop i ↔ k < c.n ∧ i ≤ S.idx2lvl k ∧ S.idx2lvl k < j := by
  unfold levelVars
  rw [← List.map_take, ← List.map_drop, List.take_range, Nat.min_eq_left hj]
  simp only [List.mem_map, List.mem_drop_iff_getElem, List.length_range, List.getElem_range]
  constructor
  · rintro ⟨a, ⟨b, hb, rfl⟩, rfl⟩
    have hb' : i + b < c.n := by omega
    exact ⟨h.order.l2i_lt _ hb', by rw [h.order.l2i2l _ hb']; omega, by rw [h.order.l2i2l _ hb']; omega⟩
  · rintro ⟨h1, h2, h3⟩
    exact ⟨S.idx2lvl k, ⟨S.idx2lvl k - i, by omega, by omega⟩, h.order.i2l2i k h1⟩

theorem slice_doms {i j : Nat} (hj : j ≤ c.n) :
    (((levelVars c S).take j).drop i).map c.dom = domsBetween c S i j := by
  unfold levelVars domsBetween
  rw [← List.map_take, ← List.map_drop, List.take_range, Nat.min_eq_left hj, List.map_map]
  refine List.ext_getElem (by simp) ?_
  intro k h1 h2
  simp

theorem not_depends_of_agree (h : Inv c ext [] S) (ho : Ordered c S) {p : Ptr} (hp : S.used p = true)
    {f : Asg → Int} (hd : Den c S p f) {k : Nat} (hk : k < c.n) (hl : S.idx2lvl k < S.levelOf c p) :
    ¬ DependsOn c.n c.dom f k := by
  rintro ⟨x, v, hx, hv, hne⟩
  refine hne ?_
  have h1 := hd x hx
  have h2 := hd (upd x k v) (valid_upd hx (fun _ => hv))
  refine h2.det (h1.agree h ho hp ?_)
  intro j hj
  have : j ≠ k := by rintro rfl; omega
  rw [upd_other _ _ this]

/-- The levels above the root are skipped. -/
theorem root_skips (h : Inv c ext [] S) (ho : Ordered c S) (hp : S.used root = true) {f : Asg → Int}
    (hd : Den c S root f) (y : Asg) : Skips c.n c.dom (levelVars c S) f y 0 (S.levelOf c root) := by
  intro k hk
  obtain ⟨h1, -, h3⟩ := (mem_slice h (levelOf_le h hp)).1 hk
  have e : (fun x => f (fixFirst (levelVars c S) 0 y x)) = f := rfl
  rw [e]
  exact not_depends_of_agree h ho hp hd h1 h3

/-- The levels between the ends of an edge are skipped. -/
theorem edge_skips (h : Inv c ext [] S) (ho : Ordered c S) (hc : CfgOK c) (hp : S.used root = true) {f : Asg → Int}
    (hd : Den c S root f) {p q : Ptr} {i : Nat} {ss : List Ptr} (hr : Reach S.kind root p)
    (hk : S.kind p = .inner i ss) (hq : q ∈ ss) :
    ∃ y, Valid c y ∧ Skips c.n c.dom (levelVars c S) f y (S.idx2lvl i + 1) (S.levelOf c q) := by
  obtain ⟨y, hy, hz⟩ := path_to h ho hc hr hp
  have hup := hr.used h hp
  obtain ⟨hi, hlen, hus⟩ := h.sons p i ss hup hk
  obtain ⟨k, hget⟩ := List.mem_iff_getElem?.1 hq
  have hkl : k < ss.length := (List.getElem?_eq_some_iff.1 hget).1
  have hlp : S.levelOf c p = S.idx2lvl i := by simp [Mgr.levelOf, hk]
  have hlq := ho p i ss q hup hk hq
  have huq := hus q hq
  have hy' : Valid c (upd y i k) := valid_upd hy (fun _ => by omega)
  refine ⟨upd y i k, hy', ?_⟩
  have hdq : Den c S q (fun x => f (fixFirst (levelVars c S) (S.idx2lvl i + 1) (upd y i k) x)) := by
    intro x hx
    have hv := hd _ (fixFirst_valid (order := levelVars c S) (l := S.idx2lvl i + 1) hy' hx)
    have hzi : fixFirst (levelVars c S) (S.idx2lvl i + 1) (upd y i k) x i = k := by
      unfold fixFirst
      rw [if_pos ((mem_take_levelVars h).2 ⟨hi, by omega⟩), upd_same]
    have hv' := (hz _ _ (fun j hj _ hl => by
      have hji : j ≠ i := by rintro rfl; omega
      unfold fixFirst
      rw [if_pos ((mem_take_levelVars h).2 ⟨hj, by omega⟩), upd_other _ _ hji])).2 hv
    dsimp only
    generalize f (fixFirst (levelVars c S) (S.idx2lvl i + 1) (upd y i k) x) = u at hv'
    cases hv' with
    | leaf hk' => rw [hk] at hk'; cases hk'
    | inner hk' hq' hv' =>
        rw [hk] at hk'; cases hk'
        rw [hzi, hget] at hq'; cases hq'
        refine hv'.agree h ho huq ?_
        intro j hj
        unfold fixFirst
        rw [if_neg]
        intro hm
        have := ((mem_take_levelVars h).1 hm).2
        omega
  intro j hj
  obtain ⟨h1, -, h3⟩ := (mem_slice h (levelOf_le h huq)).1 hj
  exact not_depends_of_agree h ho huq hdq h1 h3

/-- If the products of the domains of skipped variables fit, those the program computes do. -/
theorem skipsFit (h : Inv c ext [] S) (ho : Ordered c S) (hc : CfgOK c) (hp : S.used root = true) {f : Asg → Int}
    (hd : Den c S root f)
    (hs : ∀ y i j, Valid c y → i ≤ j → j ≤ c.n → Skips c.n c.dom (levelVars c S) f y i j →
      ProdFits c.fixedDom ((((levelVars c S).take j).drop i).map c.dom)) : SkipsFit c S root where
  top := by
    rw [← slice_doms (levelOf_le h hp)]
    exact hs (fun _ => 0) 0 _ (fun i hi => hc.dom_pos i hi) (Nat.zero_le _) (levelOf_le h hp)
      (root_skips h ho hp hd _)
  edge p i ss q hr hk hq := by
    have hup := hr.used h hp
    have hlp : S.levelOf c p = S.idx2lvl i := by simp [Mgr.levelOf, hk]
    have hlq := ho p i ss q hup hk hq
    have hle := levelOf_le h ((hr.snoc hk hq).used h hp)
    obtain ⟨y, hy, sk⟩ := edge_skips h ho hc hp hd hr hk hq
    rw [← slice_doms hle]
    exact hs y _ _ hy (by omega) hle sk

/-- A node at or below the skipped levels is below all of them. -/
theorem skips_level (h : Inv c ext [] S) (ho : Ordered c S) (hc : CfgOK c) (hcan : Canon S) (hp : S.used root = true)
    {f : Asg → Int} (hd : Den c S root f) {y : Asg} (hy : Valid c y) {i j : Nat} (hj : j ≤ c.n)
    (hs : Skips c.n c.dom (levelVars c S) f y i j) (hi : i ≤ S.levelOf c root) : j ≤ S.levelOf c root := by
  by_contra hlt
  cases hk : S.kind root with
  | leaf v =>
      have : S.levelOf c root = c.n := by simp [Mgr.levelOf, hk]
      omega
  | inner k ss =>
      have hl : S.levelOf c root = S.idx2lvl k := by simp [Mgr.levelOf, hk]
      have hkn := (h.sons root k ss hp hk).1
      have hd' : Den c S root (fun x => f (fixFirst (levelVars c S) i y x)) := by
        intro x hx
        refine (hd _ (fixFirst_valid hy hx)).agree h ho hp ?_
        intro m hm
        unfold fixFirst
        rw [if_neg]
        intro hmem
        have := ((mem_take_levelVars h).1 hmem).2
        omega
      exact hs k ((mem_slice h hj).2 ⟨hkn, by omega, by omega⟩)
        ((tested_iff h ho hc hcan hp hd' hkn).1 ⟨root, ss, .refl, hk⟩)

/-- Skipped levels are skipped by an edge. -/
theorem skips_edge (h : Inv c ext [] S) (ho : Ordered c S) (hc : CfgOK c) (hcan : Canon S) {y : Asg} (hy : Valid c y)
    {i j : Nat} (hij : i ≤ j) (hj : j ≤ c.n) :
    ∀ (d : Nat) (r : Ptr) (f : Asg → Int), c.n - S.levelOf c r = d → S.used r = true → Den c S r f →
      Skips c.n c.dom (levelVars c S) f y i j → S.levelOf c r < i →
      ∃ p k ss q, Reach S.kind r p ∧ S.kind p = .inner k ss ∧ q ∈ ss ∧ S.idx2lvl k < i ∧ j ≤ S.levelOf c q := by
  intro d
  induction d using Nat.strong_induction_on with
  | _ d ih =>
  intro r f hd hu hden hs hl
  cases hk : S.kind r with
  | leaf v =>
      have : S.levelOf c r = c.n := by simp [Mgr.levelOf, hk]
      omega
  | inner k ss =>
      obtain ⟨hi, hlen, hus⟩ := h.sons r k ss hu hk
      have hyi := hy k hi
      have hlr : S.levelOf c r = S.idx2lvl k := by simp [Mgr.levelOf, hk]
      have hget : ss[y k]? = some (ss[y k]'(by omega)) := List.getElem?_eq_getElem (by omega)
      generalize (ss[y k]'(by omega)) = q at hget
      have hq := List.mem_of_getElem? hget
      have hlt := ho r k ss _ hu hk hq
      have hlq := levelOf_le h (hus _ hq)
      have hdq : Den c S q (fun x => f (upd x k (y k))) := by
        intro x hx
        have hv := hden (upd x k (y k)) (valid_upd hx (fun _ => hyi))
        dsimp only
        generalize f (upd x k (y k)) = u at hv
        cases hv with
        | leaf hk' => rw [hk] at hk'; cases hk'
        | inner hk' hq' hv =>
            rw [hk] at hk'; cases hk'
            rw [upd_same, hget] at hq'; cases hq'
            refine hv.agree h ho (hus _ hq) ?_
            intro m hm
            have hne : m ≠ k := by rintro rfl; omega
            rw [upd_other _ _ hne]
      have hs' : Skips c.n c.dom (levelVars c S) (fun x => f (upd x k (y k))) y i j := by
        have e : (fun x => f (upd (fixFirst (levelVars c S) i y x) k (y k))) =
            fun x => f (fixFirst (levelVars c S) i y x) := by
          funext x
          congr 1
          funext m
          simp only [upd_apply]
          split
          · rename_i e
            subst e
            unfold fixFirst
            rw [if_pos ((mem_take_levelVars h).2 ⟨hi, by omega⟩)]
          · rfl
        intro m hm
        have := hs m hm
        rw [← e] at this
        exact this
      by_cases hqi : S.levelOf c q < i
      · obtain ⟨p, k', ss', q', h1, h2⟩ := ih (c.n - S.levelOf c q) (by omega) q _ rfl (hus _ hq) hdq hs' hqi
        exact ⟨p, k', ss', q', .step hk hq h1, h2⟩
      · exact ⟨r, k, ss, q, .refl, hk, hq, by omega,
          skips_level h ho hc hcan (hus _ hq) hdq hy hj hs' (by omega)⟩

theorem domainProduct_shl (hf : c.fixedDom = some 2) {l r : Nat} {s : Mgr} :
    domainProduct c l r s = (liftE (shl64 (r - l)) : M Int) s := by
  unfold domainProduct
  rw [bind_ok (s' := s) (a := s) rfl]
  simp [domainProductOf, hf]

theorem fit64_okE {v : Int} {s : Mgr} {Q : Int → Mgr → Prop} (h : ∀ r, Q r s) :
    OkE (· = .overflow) (liftE (fit64 v) : M Int) s Q := by
  unfold fit64
  split
  · exact h _
  · rfl

theorem shl64_okE {k : Nat} {s : Mgr} {Q : Int → Mgr → Prop} (h : k < 64 → ∀ r, Q r s) :
    OkE (· = .overflow) (liftE (shl64 k) : M Int) s Q := by
  unfold shl64
  by_cases h1 : k < 63
  · rw [if_pos h1]; exact h (by omega) _
  · rw [if_neg h1]
    by_cases h2 : k = 63
    · rw [if_pos h2]; exact h (by omega) _
    · rw [if_neg h2]; rfl

/-- `satisfy_count` of a `bdd_manager` overflows, or no edge skips 64 levels. -/
theorem satisfyCount_okE {E : Env} (g : Good E ext S) (hp : S.used root = true)
    (hcl : CleanBelow S root) (hf : E.c.fixedDom = some 2) {v : Int}
    (hv : ∀ m, E.c.fixedDom = some m → E.c.asserts = true → v < m) :
    OkE (· = .overflow) (satisfyCount E.c v root) S (fun _ _ => S.levelOf E.c root < 64 ∧
      ∀ p i ss q, Reach S.kind root p → S.kind p = .inner i ss → q ∈ ss →
        S.levelOf E.c q - (S.idx2lvl i + 1) < 64) := by
  have h := g.inv
  have ho := g.ord
  have B : Below E.c S root := Below.of h ho hp
  unfold satisfyCount
  refine OkE.bindEq (assertValue_ok hv) ?_
  refine OkE.bind (traversePost_okE (E := (· = .overflow)) (I := fun ds (_ : Ptr → Int) _ =>
    ∀ p ∈ ds, ∀ i ss q, S.kind p = .inner i ss → q ∈ ss → S.levelOf E.c q - (S.idx2lvl i + 1) < 64) B hcl
    (by simp) ?_) ?_
  · rintro vs ds p m s hT hm hr hpd hsons
    have hup := B.used p hr
    have hus : s.used p = true := by rw [hT.used]; exact hup
    unfold satCountVisit
    refine OkE.bindEq (getKind_ok hus) ?_
    rw [hT.kind]
    cases hk : S.kind p with
    | leaf a =>
        refine OkE.pure ⟨hT, ?_⟩
        intro q hq i ss r hk' hr'
        rcases List.mem_append.1 hq with hq | hq
        · exact hm q hq i ss r hk' hr'
        · simp at hq; subst hq; rw [hk] at hk'; cases hk'
    | inner i ss =>
        dsimp only
        refine OkE.bindGet ?_
        rw [hT.i2l]
        have hin := h.sons p i ss hup hk
        refine OkE.bind (foldL_ruleE (I := fun rest (_ : Int) s' => s' = s ∧ ∃ done, ss = done ++ rest ∧
          ∀ q ∈ done, S.levelOf E.c q - (S.idx2lvl i + 1) < 64) ?_ ss 0 s ⟨rfl, [], by simp, by simp⟩) ?_
        · rintro q rest acc s' ⟨rfl, done, hss, hdone⟩
          have hqs : q ∈ ss := by rw [hss]; simp
          have hqu' : s'.used q = true := by rw [hT.used]; exact hin.2.2 q hqs
          refine OkE.bindEq (getLevel_ok hqu') ?_
          have e1 : s'.levelOf E.c q = S.levelOf E.c q := by simp [Mgr.levelOf, hT.kind, hT.i2l]
          rw [e1]
          refine OkE.bind (Q := fun _ s => s = s' ∧ S.levelOf E.c q - (S.idx2lvl i + 1) < 64) ?_ ?_
          · unfold OkE
            rw [domainProduct_shl hf]
            exact shl64_okE fun hlt _ => ⟨rfl, hlt⟩
          rintro d _ ⟨rfl, hlt⟩
          refine OkE.bind (Q := fun _ s => s = _) (fit64_okE fun _ => rfl) ?_
          rintro r _ rfl
          refine fit64_okE fun _ => ⟨rfl, done ++ [q], by simp [hss], ?_⟩
          intro a ha
          rcases List.mem_append.1 ha with ha | ha
          · exact hdone a ha
          · simp at ha; subst ha; exact hlt
        · rintro acc s' ⟨rfl, done, hss, hdone⟩
          simp at hss
          subst hss
          refine OkE.pure ⟨hT, ?_⟩
          intro q hq i' ss' r hk' hr'
          rcases List.mem_append.1 hq with hq | hq
          · exact hm q hq i' ss' r hk' hr'
          · simp at hq; subst hq; rw [hk] at hk'; cases hk'; exact hdone r hr'
  · rintro m s' ⟨vs, _, hvs, hs', hm⟩
    have hu' : s'.used root = true := by rw [hs']; exact hp
    refine OkE.bindEq (getLevel_ok hu') ?_
    have e1 : s'.levelOf E.c root = S.levelOf E.c root := by rw [hs']; rfl
    rw [e1]
    refine OkE.bind (Q := fun _ _ => S.levelOf E.c root < 64) ?_ ?_
    · unfold OkE
      rw [domainProduct_shl hf]
      exact shl64_okE fun hlt _ => by simpa using hlt
    rintro d s'' hlt
    exact fit64_okE fun _ => ⟨hlt, fun p i ss q hr hk hq => hm p ((hvs p).2 hr) i ss q hk hq⟩

/-- `satisfy_count` of a `bdd_manager` overflows if 64 variables are skipped. -/
theorem satisfyCount_overflow {E : Env} (g : Good E ext S) (hcan : Canon S) (hp : S.used root = true)
    (hcl : CleanBelow S root) (hf : E.c.fixedDom = some 2) {f : Asg → Int} (hd : Den E.c S root f) {v : Int}
    (hv : ∀ m, E.c.fixedDom = some m → E.c.asserts = true → v < m) {y : Asg} (hy : Valid E.c y) {i j : Nat}
    (hij : i + 64 ≤ j) (hj : j ≤ E.c.n) (hs : Skips E.c.n E.c.dom (levelVars E.c S) f y i j) :
    satisfyCount E.c v root S = .error .overflow := by
  refine (satisfyCount_okE g hp hcl hf hv).error ?_
  rintro _ _ ⟨h1, h2⟩
  have h := g.inv
  have ho := g.ord
  by_cases hl : S.levelOf E.c root < i
  · obtain ⟨p, k, ss, q, hr, hk, hq, h3, h4⟩ := skips_edge h ho g.cfg hcan hy (by omega) hj _ root f rfl hp hd hs hl
    have := h2 p k ss q hr hk hq
    omega
  · have := skips_level h ho g.cfg hcan hp hd hy hj hs (by omega)
    omega

end

section
variable {P : Setup} {w : World} {σ : SState}

/-- `satisfy_count` whenever the products of the domains of skipped variables and the answer fit. -/
theorem count_fits (hP : P.OK) (h : Reachable P w σ) (hclean : σ.clean = true) {a : Nat} {f : Asg → Int}
    (hf : σ.Has a f) {v : Int} (hv : ∀ m, P.c.fixedDom = some m → P.c.asserts = true → v < m)
    (hs : ∀ y i j, InDomain P.c.n P.c.dom y → i ≤ j → j ≤ P.c.n → Skips P.c.n P.c.dom σ.order f y i j →
      ProdFits P.c.fixedDom (((σ.order.take j).drop i).map P.c.dom))
    (hn : countValue P.c.n P.c.dom f v ≤ 9223372036854775807) :
    exec P.c (.satisfyCount v a) w = .ok (.int (countValue P.c.n P.c.dom f v : Nat), w) := by
  have R := reachable_rel hP h
  obtain ⟨p, hp, hd⟩ := R.has a f hf
  have hsk : SkipsFit P.c w.mgr p := by
    refine skipsFit R.good.inv R.good.ord R.good.cfg (R.used hp) hd ?_
    rw [R.order]
    exact hs
  obtain ⟨r, s', e, rfl, rfl⟩ := satisfyCount_fits R.good (R.used hp) (R.cleanBelow hclean p) hd hsk hn hv
  simp only [exec]
  rw [bind_ok (rootOf_ok hp)]
  have e' : (onMgr (satisfyCount P.c v p)) w = .ok (((countValue P.c.n P.c.dom f v : Nat) : Int), w) := by
    unfold onMgr
    rw [show satisfyCount P.c v p w.mgr = _ from e]
    rfl
  rw [bind_ok e']
  rfl

/-- `satisfy_count` of a `bdd_manager` whenever 64 variables are skipped. -/
theorem count_overflow (hP : P.OK) (h : Reachable P w σ) (hclean : σ.clean = true) (hcan : σ.canon = true)
    (h2 : P.c.fixedDom = some 2) {a : Nat} {f : Asg → Int} (hf : σ.Has a f) {v : Int} (hv : ∀ m, P.c.fixedDom = some m → P.c.asserts = true → v < m)
    {y : Asg} (hy : InDomain P.c.n P.c.dom y) {i j : Nat} (hij : i + 64 ≤ j) (hj : j ≤ P.c.n)
    (hs : Skips P.c.n P.c.dom σ.order f y i j) : exec P.c (.satisfyCount v a) w = .error .overflow := by
  have R := reachable_rel hP h
  obtain ⟨p, hp, hd⟩ := R.has a f hf
  have e := satisfyCount_overflow (E := envOf P σ) R.good (R.good.canon hcan) (R.used hp) (R.cleanBelow hclean p) h2
    hd hv hy hij hj (by rw [show levelVars (envOf P σ).c w.mgr = σ.order from R.order]; exact hs)
  simp only [exec]
  rw [bind_ok (rootOf_ok hp), bind_run]
  have e' : (onMgr (satisfyCount P.c v p)) w = .error .overflow := by
    unfold onMgr
    rw [show satisfyCount P.c v p w.mgr = _ from e]
  rw [e']

end

end Teddy
