import Verif.Reliability
import Verif.Proofs.Count

/-! Probabilities stored in the data members of nodes. -/

namespace Teddy

open SM Spec

section
variable {E : Env} {c : Cfg} {ext : Ptr → Nat} {tmp : List Ptr} {S s : Mgr} {root : Ptr}

/-- `s` differs from `S` in the data members only. -/
def DSt (S s : Mgr) : Prop := s = { S with data := s.data }

theorem DSt.refl (S : Mgr) : DSt S S := rfl
theorem DSt.kind (h : DSt S s) : s.kind = S.kind := by rw [h]
theorem DSt.used (h : DSt S s) : s.used = S.used := by rw [h]
theorem DSt.i2l (h : DSt S s) : s.idx2lvl = S.idx2lvl := by rw [h]
theorem DSt.l2i (h : DSt S s) : s.lvl2idx = S.lvl2idx := by rw [h]
theorem DSt.mark (h : DSt S s) : s.mark = S.mark := by rw [h]
theorem DSt.terminals (h : DSt S s) : s.terminals = S.terminals := by rw [h]
theorem DSt.set (h : DSt S s) (d : Ptr → Option Rat) : DSt S { s with data := d } := by
  unfold DSt at h ⊢
  dsimp only
  rw [h]
theorem DSt.trans {s' : Mgr} (h : DSt S s) (h' : DSt s s') : DSt S s' := by
  rw [h']; exact h.set _

theorem DSt.good (h : DSt S s) (g : Good E ext S) : Good E ext s := by
  rw [h]
  have hi : Inv E.c ext [] { S with data := s.data } :=
    g.inv.of_eq rfl rfl rfl rfl rfl rfl rfl rfl rfl rfl rfl rfl rfl rfl
  exact
    { cfg := g.cfg, inv := hi, ord := g.ord, pool := ⟨g.pool.extra, g.pool.den, g.pool.thr⟩
      auto := g.auto, defer := g.defer, pool0 := g.pool0
      canon := fun h => ⟨(g.canon h).nonred, (g.canon h).nodup⟩
      cache := fun h i e he =>
        have ok := g.cache h i e he
        ok.same rfl rfl ⟨ok.lhs, ok.rhs, ok.res⟩ }

theorem setData_ok {p : Ptr} (h : s.used p = true) (q : Rat) :
    setData p q s = .ok ((), { s with data := upd s.data p (some q) }) := by
  simp [setData, bind_run, chkUsed_ok h]

theorem getData_ok {p : Ptr} (h : s.used p = true) {x : Rat} (hd : s.data p = some x) :
    getData p s = .ok (x, s) := by
  simp [getData, bind_run, chkUsed_ok h, hd]

/-- Where the terminals are. -/
theorem leaf_place (h : Inv c ext tmp s) {p : Ptr} (hp : s.used p = true) {a : Int}
    (hk : s.kind p = .leaf a) (ha : a ≠ Undefined) :
    ∃ v : Nat, a = v ∧ s.terminals[v]? = some (some p) := by
  rcases (h.placed p).1 hp with ⟨i, hi, hm⟩ | hm | hm | hm
  · obtain ⟨ss, e⟩ := h.tabKind i hi p hm
    rw [hk] at e; cases e
  · obtain ⟨i, ss, e⟩ := h.tmpInner p hm
    rw [hk] at e; cases e
  · obtain ⟨v, hv⟩ := List.getElem?_of_mem hm
    have := (h.termKind v p hv).1
    rw [hk] at this
    cases this
    exact ⟨v, rfl, hv⟩
  · have := h.specKind p hm
    rw [hk] at this
    cases this
    exact absurd rfl ha

theorem leaf_inj (h : Inv c ext tmp s) {p q : Ptr} (hp : s.used p = true) (hq : s.used q = true)
    {a : Int} (hkp : s.kind p = .leaf a) (hkq : s.kind q = .leaf a) (ha : a ≠ Undefined) : p = q := by
  obtain ⟨v, rfl, h1⟩ := leaf_place h hp hkp ha
  obtain ⟨w, e, h2⟩ := leaf_place h hq hkq ha
  cases Int.ofNat_inj.1 e
  rw [h1] at h2
  cases h2
  rfl

/-- Data of every terminal reset to zero. -/
theorem resetTerminals_ok (h : Inv c ext tmp S) :
    Ok (forEachTerminal fun p => setData p 0) S (fun _ s => DSt S s ∧
      ∀ q, s.data q = if some q ∈ S.terminals then some 0 else S.data q) := by
  unfold forEachTerminal
  refine Ok.bindGet ?_
  refine (forL_rule (I := fun rest s => DSt S s ∧ ∃ done, S.terminals = done ++ rest ∧
    ∀ q, s.data q = if some q ∈ done then some 0 else S.data q) ?_ S.terminals S
    ⟨DSt.refl S, [], by simp, by simp⟩).mono ?_
  · rintro o rest s ⟨hT, done, hd, hq⟩
    cases o with
    | none =>
        refine Ok.pure ⟨hT, done ++ [none], by simp [hd], ?_⟩
        intro q
        simp [hq q]
    | some p =>
        have hu : s.used p = true := by
          rw [hT.used]
          exact (h.placed p).2 (Or.inr (Or.inr (Or.inl (by rw [hd]; simp))))
        refine Ok.of_eq (setData_ok hu 0) ⟨hT.set _, done ++ [some p], by simp [hd], ?_⟩
        intro q
        simp only [upd_apply]
        by_cases e : q = p
        · simp [e]
        · simp [e, hq q]
  · rintro _ s ⟨hT, done, hd, hq⟩
    simp only [List.append_nil] at hd
    exact ⟨hT, by rw [hd]; exact hq⟩

theorem getTerminal_ok (h : Inv c ext tmp s) {v : Int} (hv : 0 ≤ v) :
    ∃ o, getTerminal v s = .ok (o, s) ∧
      (∀ p, o = some p → s.used p = true ∧ s.kind p = .leaf v ∧ v ≠ Undefined) ∧
      (o = none → ∀ p, s.used p = true → s.kind p = .leaf v → v = Undefined) := by
  obtain ⟨k, rfl⟩ := Int.eq_ofNat_of_zero_le hv
  have key : ∀ o, s.terminals.getD k none = o →
      (∀ p, o = some p → s.used p = true ∧ s.kind p = .leaf (k : Int) ∧ (k : Int) ≠ Undefined) ∧
      (o = none → ∀ p, s.used p = true → s.kind p = .leaf (k : Int) → (k : Int) = Undefined) := by
    intro o ho
    refine ⟨?_, ?_⟩
    · rintro p rfl
      have : s.terminals[k]? = some (some p) := by
        rw [List.getD_eq_getElem?_getD] at ho
        cases hg : s.terminals[k]? with
        | none => rw [hg] at ho; cases ho
        | some o => rw [hg] at ho; simp at ho; rw [ho]
      exact ⟨h.termUsed this, (h.termKind k p this)⟩
    · rintro rfl p hp hk
      by_contra hu
      obtain ⟨w, e, hw⟩ := leaf_place h hp hk hu
      cases Int.ofNat_inj.1 e
      rw [List.getD_eq_getElem?_getD, hw] at ho
      cases ho
  by_cases hl : (k : Int) < (s.terminals.length : Int)
  · refine ⟨s.terminals.getD k none, ?_, key _ rfl⟩
    have : k < s.terminals.length := by omega
    have h0 : ¬ (k : Int) < 0 := by omega
    simp [getTerminal, bind_run, this, h0]
  · refine ⟨none, ?_, key none ?_⟩
    · have : ¬ k < s.terminals.length := by omega
      simp [getTerminal, bind_run, this]
    · rw [List.getD_eq_getElem?_getD, List.getElem?_eq_none (by omega)]
      rfl

/-- After the terminals are set, each holds whether its value is selected. -/
def TermData (S : Mgr) (G : Int → Rat) (d : Ptr → Option Rat) : Prop :=
  ∀ q a, S.used q = true → S.kind q = .leaf a → a ≠ Undefined → d q = some (G a)

theorem selectTerminals_ok (h : Inv c ext tmp S) (selected : List Int) (hs : ∀ v ∈ selected, 0 ≤ v)
    (h0 : TermData S (fun _ => 0) S.data) :
    Ok (forL (fun v => do
      match ← getTerminal v with
      | some p => setData p 1
      | none => pure ()) selected) S (fun _ s => DSt S s ∧
        TermData S (fun a => if a ∈ selected then 1 else 0) s.data) := by
  refine (forL_rule (I := fun rest s => DSt S s ∧ ∃ done, selected = done ++ rest ∧
    TermData S (fun a => if a ∈ done then 1 else 0) s.data) ?_ selected S
    ⟨DSt.refl S, [], by simp, by simpa using h0⟩).mono ?_
  · rintro v rest s ⟨hT, done, hd, hq⟩
    have hi : Inv c ext tmp s := by
      rw [hT]
      exact h.of_eq rfl rfl rfl rfl rfl rfl rfl rfl rfl rfl rfl rfl rfl rfl
    obtain ⟨o, e, hsome, hnone⟩ := getTerminal_ok hi (hs v (by rw [hd]; simp))
    refine Ok.bindEq e ?_
    cases o with
    | none =>
        refine Ok.pure ⟨hT, done ++ [v], by simp [hd], ?_⟩
        intro q a hu hk ha
        have hav : a ≠ v := by
          rintro rfl
          exact ha (hnone rfl q (by rw [hT.used]; exact hu) (by rw [hT.kind]; exact hk))
        rw [hq q a hu hk ha]
        simp [hav]
    | some p =>
        obtain ⟨hu, hk, hv⟩ := hsome p rfl
        refine Ok.of_eq (setData_ok hu 1) ⟨hT.set _, done ++ [v], by simp [hd], ?_⟩
        intro q a hqu hqk ha
        simp only [upd_apply]
        rw [hT.kind] at hk
        rw [hT.used] at hu
        by_cases e' : q = p
        · subst e'
          rw [hk] at hqk
          cases hqk
          simp
        · have hav : a ≠ v := by
            rintro rfl
            exact e' (leaf_inj h hqu hu hqk hk ha)
          simp [e', hq q a hqu hqk ha, hav]
  · rintro _ s ⟨hT, done, hd, hq⟩
    simp only [List.append_nil] at hd
    exact ⟨hT, by rw [hd]; exact hq⟩

section
variable {R : Type} [CommSemiring R]

/-- Probability that the terminal reached from `p` satisfies `G`. -/
noncomputable def prOf (c : Cfg) (S : Mgr) (P : Nat → Nat → R) (G : Int → R) (p : Ptr) : R :=
  nodeSum c S P G (S.levelOf c p) p

/-- The probabilities of the values of every variable sum to one. -/
abbrev Sums (c : Cfg) (P : Nat → Nat → R) : Prop := SumsToOne c.n c.dom P

variable {P : Nat → Nat → R} {G : Int → R}

theorem nodeSum_level (h : Inv c ext tmp S) (ho : Ordered c S) (hc : CfgOK c) (hP : Sums c P)
    {p : Ptr} (hp : S.used p = true) {l : Nat} (hl : l ≤ S.levelOf c p) :
    nodeSum c S P G l p = prOf c S P G p := by
  unfold prOf
  generalize hd : S.levelOf c p - l = d
  induction d generalizing l with
  | zero => rw [show l = S.levelOf c p by omega]
  | succ d ih =>
      have hlt : l < S.levelOf c p := by omega
      have hle := levelOf_le h hp
      rw [nodeSum_skip h ho hc hp hlt, hP _ (h.order.l2i_lt l (by omega)), one_mul]
      exact ih (by omega) (by omega)

theorem prOf_leaf {p : Ptr} {v : Int} (hk : S.kind p = .leaf v) : prOf c S P G p = G v := by
  unfold prOf
  have : S.levelOf c p = c.n := by simp [Mgr.levelOf, hk]
  rw [this, nodeSum_leaf hk]

theorem prOf_inner (h : Inv c ext tmp S) (ho : Ordered c S) (hc : CfgOK c) (hP : Sums c P) {p : Ptr}
    {i : Nat} {ss : List Ptr} (hp : S.used p = true) (hk : S.kind p = .inner i ss) :
    prOf c S P G p = ((ss.zip (List.range ss.length)).map fun e => prOf c S P G e.1 * P i e.2).sum := by
  have hlev : S.levelOf c p = S.idx2lvl i := by simp [Mgr.levelOf, hk]
  conv => lhs; unfold prOf
  rw [hlev, nodeSum_inner h ho hc hp hk]
  congr 1
  refine List.ext_getElem (by simp) ?_
  intro k h1 h2
  have hkl : k < ss.length := by simpa using h1
  have hmem : ss[k] ∈ ss := List.getElem_mem hkl
  obtain ⟨_, _, hu⟩ := h.sons p i ss hp hk
  have hlt := ho p i ss _ hp hk hmem
  simp only [List.getElem_map, List.getElem_range, List.getElem_zip]
  rw [List.getD_eq_getElem?_getD, List.getElem?_eq_getElem hkl, Option.getD_some,
    nodeSum_level h ho hc hP (hu _ hmem) (by omega), mul_comm]

theorem prOf_root (h : Inv c ext tmp S) (ho : Ordered c S) (hc : CfgOK c) (hP : Sums c P) {p : Ptr}
    (hp : S.used p = true) {f : Asg → Int} (hd : Den c S p f) {φ : Int → Bool} :
    prOf c S P (fun a => if φ a then 1 else 0) p = probability c.n c.dom P (fun x => φ (f x)) := by
  rw [← nodeSum_level h ho hc hP hp (Nat.zero_le _), probability_eq (varsFrom_zero_perm h.order)]
  unfold nodeSum
  refine wsum_congr (nodup_varsFrom h.order) ?_
  intro x h1 h2
  rw [valOf_eq (hd x (valid_of_vars hc h1 h2))]

end

variable {P : Nat → Nat → Rat} {G : Int → Rat}

theorem leaf_defined (g : Good E ext S) (hp : S.used root = true) {f : Asg → Int}
    (hd : Den E.c S root f) (hU : ∀ x, Valid E.c x → f x ≠ Undefined) {q : Ptr}
    (hr : Reach S.kind root q) {a : Int} (hk : S.kind q = .leaf a) : a ≠ Undefined := by
  obtain ⟨x, hx, he⟩ := (leafVal_iff g hp hd).1 ⟨q, hr, hk⟩
  rw [← he]
  exact hU x hx

/-- The post-order computation of probabilities. -/
theorem ntpsPost_ok (g : Good E ext S) (hp : S.used root = true) (hcl : CleanBelow S root)
    {f : Asg → Int} (hd : Den E.c S root f) (hP : Sums E.c P)
    (hU : ∀ x, Valid E.c x → f x ≠ Undefined) {selected : List Int} (hs : ∀ v ∈ selected, 0 ≤ v) :
    Ok (ntpsPost E.c selected P root) S (fun r s' =>
      r = probability E.c.n E.c.dom P (fun x => decide (f x ∈ selected)) ∧ DSt S s') := by
  have h := g.inv
  have ho := g.ord
  have hc := g.cfg
  unfold ntpsPost
  refine Ok.bind (resetTerminals_ok h) ?_
  rintro _ s1 ⟨D1, hd1⟩
  have h1 := (D1.good g).inv
  have t1 : TermData s1 (fun _ => 0) s1.data := by
    intro q a hu hk ha
    rw [D1.used] at hu
    rw [D1.kind] at hk
    obtain ⟨v, _, hv⟩ := leaf_place h hu hk ha
    rw [hd1, if_pos (List.mem_of_getElem? hv)]
  refine Ok.bind (selectTerminals_ok h1 selected hs t1) ?_
  rintro _ s2 ⟨D2, t2⟩
  have D := D1.trans D2
  have g2 := D.good g
  have h2 := g2.inv
  have ho2 := g2.ord
  have hp2 : s2.used root = true := by rw [D.used]; exact hp
  have B : Below E.c s2 root := Below.of h2 ho2 hp2
  have hd2 : Den E.c s2 root f := by
    intro x hx
    rw [D.kind]
    exact hd x hx
  let G : Int → Rat := fun a => if decide (a ∈ selected) then 1 else 0
  refine Ok.bind (traversePost_ok (I := fun ds (_ : Unit) d => ∀ q,
    (q ∈ ds ∨ ∃ a, s2.kind q = .leaf a ∧ Reach s2.kind root q) →
      d q = some (prOf E.c s2 P G q)) B ?_ ?_ ?_) ?_
  · intro q hq
    rw [D.kind] at hq
    rw [D.mark]
    exact hcl q hq
  · rintro q (hq | ⟨a, hk, hr⟩)
    · simp at hq
    · rw [prOf_leaf hk]
      have := t2 q a (by rw [← D2.used]; exact B.used q hr) (by rw [← D2.kind]; exact hk)
        (leaf_defined g2 hp2 hd2 hU hr hk)
      rw [this]
      simp [G]
  · rintro vs ds p _ s hT hI hr hpd hsons
    have hup := B.used p hr
    have hus : s.used p = true := by rw [hT.used]; exact hup
    unfold ntpsPostVisit
    refine Ok.bindEq (getKind_ok hus) ?_
    rw [hT.kind]
    cases hk : s2.kind p with
    | leaf a =>
        refine Ok.pure ⟨hT, ?_⟩
        rintro q (hq | hq)
        · rcases List.mem_append.1 hq with hq | hq
          · exact hI q (Or.inl hq)
          · simp at hq
            subst hq
            exact hI q (Or.inr ⟨a, hk, hr⟩)
        · exact hI q (Or.inr hq)
    | inner i ss =>
        dsimp only
        obtain ⟨hi, hlen, hu⟩ := h2.sons p i ss hup hk
        refine Ok.bindEq (setData_ok hus 0) ?_
        refine (forL_rule (I := fun rest s' => TSt s2 s2.mark true vs s' ∧
          (∀ q, q ≠ p → s'.data q = s.data q) ∧ ∃ done, ss.zip (List.range ss.length) = done ++ rest ∧
          s'.data p = some ((done.map fun e => prOf E.c s2 P G e.1 * P i e.2).sum)) ?_ _ _
          ⟨?_, ?_, [], by simp, by simp⟩).mono ?_
        · rintro ⟨q, k⟩ rest s' ⟨hT', hoth, done, hz, hpv⟩
          have hq : q ∈ ss := by
            have : (q, k) ∈ ss.zip (List.range ss.length) := by rw [hz]; simp
            exact (List.of_mem_zip this).1
          have hlt := ho2 p i ss q hup hk hq
          have hqp : q ≠ p := by rintro rfl; omega
          have hqd : q ∈ ds := hsons q (by rw [sonsOf_inner hk]; exact hq)
          have hqu : s'.used q = true := by rw [hT'.used]; exact hu q hq
          have hpu : s'.used p = true := by rw [hT'.used]; exact hup
          refine Ok.bindEq (getData_ok hqu (by rw [hoth q hqp]; exact hI q (Or.inl hqd))) ?_
          refine Ok.bindEq (getData_ok hpu hpv) ?_
          refine Ok.of_eq (setData_ok hpu _) ⟨?_, ?_, done ++ [(q, k)], by simp [hz], by simp⟩
          · unfold TSt at hT' ⊢
            dsimp only
            rw [hT']
          · intro q' hq'
            simp [upd_apply, hq', hoth q' hq']
        · unfold TSt at hT ⊢
          dsimp only
          rw [hT]
        · intro q' hq'
          simp [upd_apply, hq']
        · rintro _ s' ⟨hT', hoth, done, hz, hpv⟩
          simp only [List.append_nil] at hz
          refine ⟨hT', ?_⟩
          have hother : ∀ q, q ≠ p → (q ∈ ds ∨ ∃ a, s2.kind q = .leaf a ∧ Reach s2.kind root q) →
              s'.data q = some (prOf E.c s2 P G q) := by
            intro q hqp hq
            rw [hoth q hqp]
            exact hI q hq
          have hpp : s'.data p = some (prOf E.c s2 P G p) := by
            rw [hpv, prOf_inner h2 ho2 hc hP hup hk, hz]
          intro q hq
          by_cases e : q = p
          · rw [e]; exact hpp
          · refine hother q e ?_
            rcases hq with hq | hq
            · rcases List.mem_append.1 hq with hq | hq
              · exact Or.inl hq
              · simp at hq; exact absurd hq e
            · exact Or.inr hq
  · rintro _ s3 ⟨vs, _, hvs, e, hI⟩
    have D3 : DSt s2 s3 := e
    refine Ok.of_eq (getData_ok (by rw [D3.used]; exact hp2) (hI root (Or.inl ((hvs root).2 .refl))))
      ⟨?_, D.trans D3⟩
    exact prOf_root h2 ho2 hc hP hp2 hd2 (φ := fun a => decide (a ∈ selected))

theorem TSt.setData {M0 : Ptr → Bool} {b : Bool} {vs : List Ptr} (h : TSt S M0 b vs s)
    (d : Ptr → Option Rat) : TSt S M0 b vs { s with data := d } := by
  unfold TSt at h ⊢
  dsimp only
  rw [h]

/-- `satisfy_count` of a manager whose nodes have a data member. -/
theorem satisfyCountData_ok (g : Good E ext S) (hp : S.used root = true)
    (hcl : CleanBelow S root) (hf : CountFits E.c) {f : Asg → Int} (hd : Den E.c S root f) {v : Int}
    (hv : ∀ m, E.c.fixedDom = some m → E.c.asserts = true → v < m) :
    Ok (satisfyCountData E.c v root) S (fun r s' =>
      r = (countValue E.c.n E.c.dom f v : Nat) ∧ DSt S s') := by
  have h := g.inv
  have ho := g.ord
  have hc := g.cfg
  have B : Below E.c S root := Below.of h ho hp
  have tot := total_fits h.order hc hf
  unfold satisfyCountData
  refine Ok.bindEq (assertValue_ok hv) ?_
  refine Ok.bind (traversePost_ok (I := fun ds (_ : Unit) d =>
    ∀ q ∈ ds, d q = some ((cnt E.c S v (S.levelOf E.c q) q : Nat) : Rat)) B hcl (by simp) ?_) ?_
  · rintro vs ds p _ s hT hm hr hpd hsons
    have hup := B.used p hr
    have hus : s.used p = true := by rw [hT.used]; exact hup
    unfold satCountDataVisit
    refine Ok.bindEq (getKind_ok hus) ?_
    rw [hT.kind]
    have fin : ∀ s', TSt S S.mark true vs s' → (∀ q, q ≠ p → s'.data q = s.data q) →
        s'.data p = some ((cnt E.c S v (S.levelOf E.c p) p : Nat) : Rat) →
        (TSt S S.mark true vs s' ∧ ∀ q ∈ ds ++ [p],
          s'.data q = some ((cnt E.c S v (S.levelOf E.c q) q : Nat) : Rat)) := by
      intro s' hT' hoth hpp
      refine ⟨hT', fun q hq => ?_⟩
      by_cases e : q = p
      · rw [e]; exact hpp
      · rw [hoth q e]
        rcases List.mem_append.1 hq with hq | hq
        · exact hm q hq
        · simp at hq; contradiction
    cases hk : S.kind p with
    | leaf a =>
        refine Ok.of_eq (setData_ok hus _) (fin _ (hT.setData _) ?_ ?_)
        · intro q hq
          simp [upd_apply, hq]
        · have : S.levelOf E.c p = E.c.n := by simp [Mgr.levelOf, hk]
          rw [this]
          unfold cnt
          rw [nodeSum_leaf hk]
          dsimp only
          rw [upd_same]
          split <;> simp
    | inner i ss =>
        dsimp only
        have hlev : S.levelOf E.c p = S.idx2lvl i := by simp [Mgr.levelOf, hk]
        have hin := h.sons p i ss hup hk
        refine Ok.bindEq (setData_ok hus 0) ?_
        refine Ok.bindGet ?_
        refine (forL_rule (I := fun rest s' => TSt S S.mark true vs s' ∧
          (∀ q, q ≠ p → s'.data q = s.data q) ∧ ∃ done, ss = done ++ rest ∧
          s'.data p = some (((done.map (cnt E.c S v (S.idx2lvl i + 1))).sum : Nat) : Rat)) ?_ _ _
          ⟨hT.setData _, ?_, [], by simp, by simp⟩).mono ?_
        · rintro q rest s' ⟨hT', hoth, done, hss, hpv⟩
          have hqs : q ∈ ss := by rw [hss]; simp
          have hqu : S.used q = true := hin.2.2 q hqs
          have hqu' : s'.used q = true := by rw [hT'.used]; exact hqu
          have hpu' : s'.used p = true := by rw [hT'.used]; exact hup
          have hlq := ho p i ss q hup hk hqs
          have hqp : q ≠ p := by rintro rfl; omega
          have hqle := levelOf_le h hqu
          refine Ok.bindEq (getLevel_ok hqu') ?_
          have e1 : s'.levelOf E.c q = S.levelOf E.c q := by
            simp [Mgr.levelOf, hT'.kind, hT'.i2l]
          rw [e1]
          dsimp only
          rw [hT.i2l]
          refine Ok.bindEq (domainProduct_ok h.order hc hf hqle hT'.l2i) ?_
          have hmq := hm q (hsons q (by rw [sonsOf_inner hk]; exact hqs))
          refine Ok.bindEq (getData_ok hqu' (by rw [hoth q hqp]; exact hmq)) ?_
          refine Ok.bindEq (getData_ok hpu' hpv) ?_
          refine Ok.of_eq (setData_ok hpu' _) ⟨hT'.setData _, ?_, done ++ [q], by simp [hss], ?_⟩
          · intro q' hq'
            simp [upd_apply, hq', hoth q' hq']
          · dsimp only
            rw [upd_same]
            congr 1
            simp only [List.map_append, List.sum_append, List.map_cons, List.map_nil, List.sum_cons,
              List.sum_nil]
            rw [cnt_skip h ho hc hqu (by omega : S.idx2lvl i + 1 ≤ S.levelOf E.c q)]
            push_cast
            ring
        · intro q hq
          simp [upd_apply, hq]
        · rintro _ s' ⟨hT', hoth, done, hss, hpv⟩
          simp only [List.append_nil] at hss
          refine fin s' hT' hoth ?_
          rw [hpv, hlev, cnt_inner h ho hc hup hk, hss]
  · rintro _ s' ⟨vs, _, hvs, e, hm⟩
    have D : DSt S s' := e
    have hp' : s'.used root = true := by rw [D.used]; exact hp
    refine Ok.bindEq (getLevel_ok hp') ?_
    have e1 : s'.levelOf E.c root = S.levelOf E.c root := by
      simp [Mgr.levelOf, D.kind, D.i2l]
    rw [e1]
    have hle := levelOf_le h hp
    refine Ok.bindEq (getData_ok hp' (hm root ((hvs root).2 .refl))) ?_
    have hfl : (((cnt E.c S v (S.levelOf E.c root) root : Nat) : Rat)).floor
        = ((cnt E.c S v (S.levelOf E.c root) root : Nat) : Int) := by
      simp [Rat.floor]
    rw [hfl]
    have hc1 : cnt E.c S v (S.levelOf E.c root) root ≤ 9223372036854775807 := by
      refine (cnt_le h).trans ((prodBetween_le h.order hc (Nat.zero_le _) hle (Nat.le_refl _)
        (Nat.le_refl _)).trans tot)
    refine Ok.bindEq (liftE_fit64 hc1) ?_
    refine Ok.bindEq (domainProduct_ok h.order hc hf hle D.l2i) ?_
    have e2 : ((cnt E.c S v (S.levelOf E.c root) root : Nat) : Int)
        * ((prodBetween E.c S 0 (S.levelOf E.c root) : Nat) : Int)
        = ((countValue E.c.n E.c.dom f v : Nat) : Int) := by
      rw [← cnt_root h hc hd, cnt_skip h ho hc hp (Nat.zero_le _)]
      push_cast; ring
    rw [e2]
    refine Ok.of_eq (liftE_fit64 ?_) ⟨rfl, D⟩
    rw [← cnt_root h hc hd]
    exact (cnt_le h).trans tot

theorem total_eq (h : OrderOK c S) : (allAsg c.n c.dom).length = prodBetween c S 0 c.n := by
  unfold allAsg
  rw [length_assignments, prodBetween_total h]
  rfl

/-- The fraction of assignments with a given value. -/
theorem stateFrequency_ok (g : Good E ext S) (hp : S.used root = true)
    (hcl : CleanBelow S root) (hf : CountFits E.c) {f : Asg → Int} (hd : Den E.c S root f) {v : Int}
    (hv : ∀ m, E.c.fixedDom = some m → E.c.asserts = true → v < m) :
    Ok (stateFrequency E.c v root) S (fun r s' =>
      r = (countValue E.c.n E.c.dom f v : Rat) / ((allAsg E.c.n E.c.dom).length : Rat) ∧ DSt S s') := by
  unfold stateFrequency
  refine Ok.bindEq (domainProduct_ok g.inv.order g.cfg hf (Nat.le_refl _) rfl) ?_
  refine Ok.bind (satisfyCountData_ok g hp hcl hf hd hv) ?_
  rintro k s' ⟨rfl, D⟩
  refine Ok.pure ⟨?_, D⟩
  rw [total_eq g.inv.order]
  push_cast
  rfl

theorem probability_congr (h : OrderOK c S) (hc : CfgOK c) {φ ψ : Asg → Bool}
    (hφ : ∀ x, Valid c x → φ x = ψ x) : probability c.n c.dom P φ = probability c.n c.dom P ψ := by
  rw [probability_eq (varsFrom_zero_perm h), probability_eq (varsFrom_zero_perm h)]
  refine wsum_congr (nodup_varsFrom h) ?_
  intro x h1 h2
  rw [hφ x (valid_of_vars hc h1 h2)]

/-- The values of the terminals that exist and satisfy `φ`. -/
theorem terminalValues_ok (h : Inv c ext tmp s) (φ : Int → Bool) :
    Ok (terminalValues φ) s (fun l s' => s' = s ∧ ∀ a, a ∈ l ↔ φ a = true ∧ a ≠ Undefined ∧
      ∃ p, s.used p = true ∧ s.kind p = .leaf a) := by
  unfold terminalValues
  refine Ok.bindGet ?_
  refine (foldL_rule (I := fun rest (acc : List Int) s' => s' = s ∧ ∃ done,
    s.terminals = done ++ rest ∧ ∀ a, a ∈ acc ↔ φ a = true ∧ ∃ p, some p ∈ done ∧ s.kind p = .leaf a)
    ?_ s.terminals [] s ⟨rfl, [], by simp, by simp⟩).mono ?_
  · rintro o rest acc s' ⟨rfl, done, hd, hm⟩
    cases o with
    | none =>
        refine Ok.pure ⟨rfl, done ++ [none], by simp [hd], ?_⟩
        intro a
        simp [hm a]
    | some p =>
        obtain ⟨v, hv⟩ := List.getElem?_of_mem (by rw [hd]; simp : some p ∈ s'.terminals)
        have hk := (h.termKind v p hv).1
        dsimp only
        refine Ok.bindEq (getKind_ok (h.termUsed hv)) ?_
        rw [hk]
        refine Ok.pure ⟨rfl, done ++ [some p], by simp [hd], ?_⟩
        intro a
        by_cases hφ : φ (v : Int) = true
        · rw [if_pos hφ, List.mem_append, hm a]
          constructor
          · rintro (⟨h1, q, h2, h3⟩ | h1)
            · exact ⟨h1, q, by simp [h2], h3⟩
            · simp at h1
              subst h1
              exact ⟨hφ, p, by simp, hk⟩
          · rintro ⟨h1, q, h2, h3⟩
            rcases List.mem_append.1 h2 with h2 | h2
            · exact Or.inl ⟨h1, q, h2, h3⟩
            · simp at h2
              subst h2
              rw [hk] at h3
              cases h3
              simp
        · rw [if_neg hφ, hm a]
          constructor
          · rintro ⟨h1, q, h2, h3⟩
            exact ⟨h1, q, by simp [h2], h3⟩
          · rintro ⟨h1, q, h2, h3⟩
            rcases List.mem_append.1 h2 with h2 | h2
            · exact ⟨h1, q, h2, h3⟩
            · simp at h2
              subst h2
              rw [hk] at h3
              cases h3
              exact absurd h1 hφ
  · rintro l s' ⟨rfl, done, hd, hm⟩
    simp only [List.append_nil] at hd
    refine ⟨rfl, fun a => ?_⟩
    rw [hm a, ← hd]
    constructor
    · rintro ⟨h1, q, h2, h3⟩
      obtain ⟨v, hv⟩ := List.getElem?_of_mem h2
      have hk := h.termKind v q hv
      rw [hk.1] at h3
      cases h3
      exact ⟨h1, hk.2, q, h.termUsed hv, hk.1⟩
    · rintro ⟨h1, h2, q, hu, hk⟩
      obtain ⟨v, rfl, hv⟩ := leaf_place h hu hk h2
      exact ⟨h1, q, List.mem_of_getElem? hv, hk⟩

theorem ntpsValues_ok (g : Good E ext S) (hp : S.used root = true) (hcl : CleanBelow S root)
    {f : Asg → Int} (hd : Den E.c S root f) (hP : Sums E.c P)
    (hU : ∀ x, Valid E.c x → f x ≠ Undefined) (φ : Int → Bool) :
    Ok (do
      let states ← terminalValues φ
      ntpsPost E.c states P root) S (fun r s' =>
      r = probability E.c.n E.c.dom P (fun x => φ (f x)) ∧ DSt S s') := by
  have h := g.inv
  refine Ok.bind (terminalValues_ok h φ) ?_
  rintro l s' ⟨rfl, hl⟩
  refine (ntpsPost_ok g hp hcl hd hP hU ?_).mono ?_
  · intro v hv
    obtain ⟨_, h1, p, hu, hk⟩ := (hl v).1 hv
    obtain ⟨k, rfl, _⟩ := leaf_place h hu hk h1
    omega
  · rintro r s2 ⟨rfl, D⟩
    refine ⟨?_, D⟩
    refine probability_congr h.order g.cfg ?_
    intro x hx
    have hev := hd x hx
    have : f x ∈ l ↔ φ (f x) = true := by
      rw [hl]
      refine ⟨fun h => h.1, fun hφ => ⟨hφ, hU x hx, ?_⟩⟩
      obtain ⟨q, hr, hk⟩ := (leafVal_iff g hp hd).2 ⟨x, hx, rfl⟩
      exact ⟨q, hr.used h hp, hk⟩
    by_cases hφ : φ (f x) = true
    · simp [this.2 hφ, hφ]
    · have hn : f x ∉ l := fun h => hφ (this.1 h)
      simp [hn, hφ]

/-! ### Level order -/

/-- Marks of the sons pushed into the buckets. -/
theorem levelPushSons_ok {vs : List Ptr} {p : Ptr} {i : Nat} {ss : List Ptr} (B : Below c S root)
    (hc : ∀ q, Reach S.kind root q → S.mark q = false) (hr : Reach S.kind root p)
    (hk : S.kind p = .inner i ss) (hpv : p ∈ vs) (hT : TSt S S.mark true vs s) (hn : vs.Nodup)
    (bs : Nat → List Ptr) :
    Ok (levelPushSons c p ss bs) s (fun bs' s' => ∃ ws, TSt S S.mark true (vs ++ ws) s' ∧
      s'.data = s.data ∧ (vs ++ ws).Nodup ∧ (∀ q ∈ ws, q ∈ ss) ∧ (∀ q ∈ ss, q ∈ vs ++ ws) ∧
      ∀ l, bs' l = bs l ++ ws.filter (fun q => decide (S.levelOf c q = l))) := by
  unfold levelPushSons
  refine (foldL_rule (I := fun rest (bs' : Nat → List Ptr) s' => ∃ ws done, ss = done ++ rest ∧
    TSt S S.mark true (vs ++ ws) s' ∧
      s'.data = s.data ∧ (vs ++ ws).Nodup ∧ (∀ q ∈ ws, q ∈ ss) ∧ (∀ q ∈ done, q ∈ vs ++ ws) ∧
      ∀ l, bs' l = bs l ++ ws.filter (fun q => decide (S.levelOf c q = l))) ?_ ss bs s
      ⟨[], [], by simp, by simpa using hT, rfl, by simpa using hn, by simp, by simp, by simp⟩).mono ?_
  · rintro q rest bs' s' ⟨ws, done, hss, hT', hdat, hnd, hws, hdone, hbs⟩
    have hq : q ∈ ss := by rw [hss]; simp
    have hrq : Reach S.kind root q := by
      clear hss hdone hbs hT' hws
      have aux : ∀ {a b : Ptr}, Reach S.kind a b → ∀ {i : Nat} {ss : List Ptr} {q : Ptr},
          S.kind b = .inner i ss → q ∈ ss → Reach S.kind a q := by
        intro a b hab
        induction hab with
        | refl => intro i ss q h1 h2; exact .step h1 h2 .refl
        | step h1 h2 _ ih => intro i ss q h3 h4; exact .step h1 h2 (ih h3 h4)
      exact aux hr hk hq
    have hqu : s'.used q = true := by rw [hT'.used]; exact B.used q hrq
    have hpu : s'.used p = true := by rw [hT'.used]; exact B.used p hr
    refine Ok.bindEq (isMarked_ok hqu) ?_
    refine Ok.bindEq (isMarked_ok hpu) ?_
    have mp : s'.mark p = true := by rw [hT'.mark]; simp [hpv]
    rw [mp]
    by_cases hqm : q ∈ vs ++ ws
    · have mq : s'.mark q = true := by rw [hT'.mark]; simp only [hqm, if_true]
      rw [mq]
      simp only [bne_self_eq_false, Bool.false_eq_true, if_false]
      refine Ok.pure ⟨ws, done ++ [q], by simp [hss], hT', hdat, hnd, hws, ?_, hbs⟩
      intro r hr
      rcases List.mem_append.1 hr with hr | hr
      · exact hdone r hr
      · simp at hr; rw [hr]; exact hqm
    · have mq : s'.mark q = false := by rw [hT'.mark]; simp only [hqm, if_false]; exact hc q hrq
      rw [mq]
      simp only [Bool.false_bne, if_true]
      refine Ok.bindEq (getLevel_ok hqu) ?_
      have e1 : s'.levelOf c q = S.levelOf c q := by simp [Mgr.levelOf, hT'.kind, hT'.i2l]
      rw [e1]
      refine Ok.bindEq (toggleMarked_ok hqu) ?_
      refine Ok.pure ⟨ws ++ [q], done ++ [q], by simp [hss], ?_, hdat, ?_, ?_, ?_, ?_⟩
      · rw [← List.append_assoc]
        exact hT'.toggle hqm (by rw [hc q hrq]; rfl)
      · rw [← List.append_assoc]
        exact List.nodup_append.2 ⟨hnd, by simp, by
          intro a ha b hb e; simp at hb; subst hb; subst e; exact hqm ha⟩
      · intro r hr
        rcases List.mem_append.1 hr with hr | hr
        · exact hws r hr
        · simp at hr; rw [hr]; exact hq
      · intro r hr
        rw [← List.append_assoc]
        rcases List.mem_append.1 hr with hr | hr
        · exact List.mem_append_left _ (hdone r hr)
        · exact List.mem_append_right _ hr
      · intro l
        simp only [upd_apply]
        by_cases e : l = S.levelOf c q
        · subst e
          simp [hbs, List.filter_append]
        · have e' : ¬ S.levelOf c q = l := fun h => e h.symm
          simp [e, e', hbs, List.filter_append]
  · rintro bs' s' ⟨ws, done, hss, h⟩
    simp only [List.append_nil] at hss
    subst hss
    exact ⟨ws, h⟩

/-- What is known between two visits of the level-order traversal: `vs` are the nodes found so far,
`ds` those already visited, `l` the current level. -/
structure LevelSt (c : Cfg) (S : Mgr) (root : Ptr) (vs ds : List Ptr) (l : Nat)
    (bs : Nat → List Ptr) : Prop where
  nodup : vs.Nodup
  has : root ∈ vs
  reach : ∀ q ∈ vs, Reach S.kind root q
  dsNodup : ds.Nodup
  dsIn : ∀ q ∈ ds, q ∈ vs ∧ S.levelOf c q ≤ l
  below : ∀ q ∈ vs, S.levelOf c q < l → q ∈ ds
  sons : ∀ p ∈ ds, ∀ q ∈ S.sonsOf p, q ∈ vs
  bucketNodup : ∀ k, l < k → (bs k).Nodup
  bucket : ∀ k, l < k → ∀ q, q ∈ bs k ↔ q ∈ vs ∧ S.levelOf c q = k

theorem traverseLevel_ok {op : Ptr → M Unit} (I : List Ptr → (Ptr → Option Rat) → Prop)
    (B : Below c S root) (hc : ∀ q, Reach S.kind root q → S.mark q = false) (hI : I [] S.data)
    (hop : ∀ vs ds p s, TSt S S.mark true vs s → I ds s.data → Reach S.kind root p → p ∉ ds →
      (∀ q ∈ ds, S.levelOf c q ≤ S.levelOf c p) →
      Ok (op p) s (fun _ s' => TSt S S.mark true vs s' ∧ I (ds ++ [p]) s'.data)) :
    Ok (traverseLevel c op root) S (fun _ s' => ∃ ds, ds.Nodup ∧
      (∀ q, q ∈ ds ↔ Reach S.kind root q) ∧ s' = { S with data := s'.data } ∧ I ds s'.data) := by
  have hru := B.used root .refl
  unfold traverseLevel
  refine Ok.bindEq (getLevel_ok hru) ?_
  refine Ok.bindEq (toggleMarked_ok hru) ?_
  have hT0 : TSt S S.mark true [root] { S with mark := upd S.mark root (!S.mark root) } := by
    have : TSt S S.mark true [] S := by simp [TSt]
    exact this.toggle (by simp) (by rw [hc root .refl]; rfl)
  refine Ok.bind (foldL_rule (I := fun rest (bs : Nat → List Ptr) s => ∃ l vs ds,
    rest = List.range' l (c.n + 1 - l) ∧ l ≤ c.n + 1 ∧ TSt S S.mark true vs s ∧ I ds s.data ∧
    (∀ q ∈ ds, S.levelOf c q < l) ∧ (bs l).Nodup ∧ (∀ q, q ∈ bs l ↔ q ∈ vs ∧ S.levelOf c q = l) ∧
    LevelSt c S root vs ds l bs) ?_ (List.range (c.n + 1)) _ _ ?_) ?_
  · rintro l' rest bs s ⟨l, vs, ds, hrest, hl, hT, hId, hlt, hbn, hbm, L⟩
    have hln : l < c.n + 1 := by
      by_contra hcon
      rw [show c.n + 1 - l = 0 by omega] at hrest
      cases hrest
    rw [show c.n + 1 - l = (c.n + 1 - (l + 1)) + 1 by omega, List.range'_succ] at hrest
    obtain ⟨hl', hrest⟩ := List.cons.inj hrest
    subst hrest
    rw [hl']
    -- the nodes of one level
    refine (foldL_rule (I := fun rest2 (bs' : Nat → List Ptr) s => ∃ vs' done,
      bs l = done ++ rest2 ∧ TSt S S.mark true vs' s ∧ I (ds ++ done) s.data ∧
      (∀ q, q ∈ bs l ↔ q ∈ vs' ∧ S.levelOf c q = l) ∧
      LevelSt c S root vs' (ds ++ done) l bs') ?_ (bs l) bs s
      ⟨vs, [], by simp, hT, by simpa using hId, hbm, by simpa using L⟩).mono ?_
    · rintro p rest2 bs' s ⟨vs', done, hbl, hT', hId', hbm', L'⟩
      have hpb : p ∈ bs l := by rw [hbl]; simp
      obtain ⟨hpv, hpl⟩ := (hbm' p).1 hpb
      have hpd : p ∉ ds ++ done := by
        intro h
        rcases List.mem_append.1 h with h | h
        · have := hlt p h
          omega
        · rw [hbl] at hbn
          exact (List.nodup_append.1 hbn).2.2 p h p (by simp) rfl
      have hr := L'.reach p hpv
      refine Ok.bind (hop vs' (ds ++ done) p s hT' hId' hr hpd ?_) ?_
      · intro q hq
        rw [hpl]
        exact (L'.dsIn q hq).2
      · rintro _ s1 ⟨hT1, hI1⟩
        have hpu : s1.used p = true := by rw [hT1.used]; exact B.used p hr
        refine Ok.bindEq (getKind_ok hpu) ?_
        rw [hT1.kind]
        have hdn : (ds ++ done ++ [p]).Nodup :=
          List.nodup_append.2 ⟨L'.dsNodup, by simp, by
            intro a ha b hb e; simp at hb; subst hb; subst e; exact hpd ha⟩
        have fin : ∀ ws (bs2 : Nat → List Ptr), (vs' ++ ws).Nodup → (∀ q ∈ ws, q ∈ S.sonsOf p) →
            (∀ q ∈ S.sonsOf p, q ∈ vs' ++ ws) →
            (∀ k, bs2 k = bs' k ++ ws.filter (fun q => decide (S.levelOf c q = k))) →
            (∀ q, q ∈ bs l ↔ q ∈ vs' ++ ws ∧ S.levelOf c q = l) ∧
              LevelSt c S root (vs' ++ ws) (ds ++ (done ++ [p])) l bs2 := by
          intro ws bs2 hn hws hsons hbs2
          have hwl : ∀ q ∈ ws, Reach S.kind root q ∧ l < S.levelOf c q := by
            intro q hq
            have hqs := hws q hq
            cases hk : S.kind p with
            | leaf a => simp [Mgr.sonsOf, hk] at hqs
            | inner i ss =>
                rw [sonsOf_inner hk] at hqs
                exact ⟨hr.snoc hk hqs, by rw [← hpl]; exact B.lvl p i ss q hr hk hqs⟩
          refine ⟨?_, ?_⟩
          · intro q
            rw [hbm' q]
            constructor
            · rintro ⟨h1, h2⟩
              exact ⟨List.mem_append_left _ h1, h2⟩
            · rintro ⟨h1, h2⟩
              rcases List.mem_append.1 h1 with h1 | h1
              · exact ⟨h1, h2⟩
              · have := (hwl q h1).2
                omega
          · rw [← List.append_assoc]
            refine
              { nodup := hn, has := List.mem_append_left _ L'.has, reach := ?_, dsNodup := hdn
                dsIn := ?_, below := ?_, sons := ?_, bucketNodup := ?_, bucket := ?_ }
            · intro q hq
              rcases List.mem_append.1 hq with hq | hq
              · exact L'.reach q hq
              · exact (hwl q hq).1
            · intro q hq
              rcases List.mem_append.1 hq with hq | hq
              · exact ⟨List.mem_append_left _ (L'.dsIn q hq).1, (L'.dsIn q hq).2⟩
              · simp at hq
                subst hq
                exact ⟨List.mem_append_left _ hpv, by omega⟩
            · intro q hq hql
              rcases List.mem_append.1 hq with hq | hq
              · exact List.mem_append_left _ (L'.below q hq hql)
              · have := (hwl q hq).2
                omega
            · intro r hr q hq
              rcases List.mem_append.1 hr with hr | hr
              · exact List.mem_append_left _ (L'.sons r hr q hq)
              · simp at hr
                subst hr
                exact hsons q hq
            · intro k hk
              rw [hbs2]
              refine List.nodup_append.2 ⟨L'.bucketNodup k hk,
                ((List.nodup_append.1 hn).2.1).filter _, ?_⟩
              intro a ha b hb e
              subst e
              have h1 := ((L'.bucket k hk a).1 ha).1
              exact (List.nodup_append.1 hn).2.2 a h1 a (List.mem_of_mem_filter hb) rfl
            · intro k hk q
              rw [hbs2, List.mem_append, L'.bucket k hk q, List.mem_filter, List.mem_append]
              simp only [decide_eq_true_eq]
              tauto
        cases hk : S.kind p with
        | leaf a =>
            obtain ⟨f1, f2⟩ := fin [] bs' (by simpa using L'.nodup) (by simp)
              (by simp [Mgr.sonsOf, hk]) (by simp)
            simp only [List.append_nil] at f1 f2
            exact Ok.pure ⟨vs', done ++ [p], by simp [hbl], hT1, by simpa using hI1, f1, f2⟩
        | inner i ss =>
            dsimp only
            refine (levelPushSons_ok B hc hr hk hpv hT1 L'.nodup bs').mono ?_
            rintro bs2 s2 ⟨ws, hT2, hdat, hn, h1, h2, h3⟩
            obtain ⟨f1, f2⟩ := fin ws bs2 hn (by rw [sonsOf_inner hk]; exact h1)
              (by rw [sonsOf_inner hk]; exact h2) h3
            exact ⟨vs' ++ ws, done ++ [p], by simp [hbl], hT2, by rw [hdat]; simpa using hI1, f1, f2⟩
    · rintro bs' s' ⟨vs', done, hbl, hT', hId', hbm', L'⟩
      simp only [List.append_nil] at hbl
      refine ⟨l + 1, vs', ds ++ done, rfl, by omega, hT', hId', ?_, L'.bucketNodup _ (by omega),
        L'.bucket _ (by omega), ?_⟩
      · intro q hq
        have := (L'.dsIn q hq).2
        omega
      · refine
          { nodup := L'.nodup, has := L'.has, reach := L'.reach, dsNodup := L'.dsNodup
            dsIn := fun q hq => ⟨(L'.dsIn q hq).1, by have := (L'.dsIn q hq).2; omega⟩
            below := ?_, sons := L'.sons
            bucketNodup := fun k hk => L'.bucketNodup k (by omega)
            bucket := fun k hk => L'.bucket k (by omega) }
        intro q hq hql
        by_cases e : S.levelOf c q = l
        · exact List.mem_append_right _ (by rw [← hbl]; exact (hbm' q).2 ⟨hq, e⟩)
        · exact L'.below q hq (by omega)
  · refine ⟨0, [root], [], by rw [List.range_eq_range']; simp, by omega, hT0, hI, by simp, ?_, ?_, ?_⟩
    · simp only [upd_apply]
      split <;> simp
    · intro q
      simp only [upd_apply]
      split
      · rename_i e
        simp only [List.mem_singleton]
        constructor
        · rintro rfl; exact ⟨rfl, e.symm⟩
        · exact fun h => h.1
      · rename_i e
        simp only [List.mem_singleton]
        constructor
        · intro h; cases h
        · rintro ⟨rfl, h⟩; exact absurd h.symm e
    · refine
        { nodup := by simp, has := by simp, reach := by simp; exact .refl, dsNodup := by simp
          dsIn := by simp, below := fun q _ h => by omega, sons := by simp, bucketNodup := ?_
          bucket := ?_ }
      · intro k _
        simp only [upd_apply]
        split <;> simp
      · intro k _ q
        simp only [upd_apply]
        split
        · rename_i e
          simp only [List.mem_singleton]
          constructor
          · rintro rfl; exact ⟨rfl, e.symm⟩
          · exact fun h => h.1
        · rename_i e
          simp only [List.mem_singleton]
          constructor
          · intro h; cases h
          · rintro ⟨rfl, h⟩; exact absurd h.symm e
  · rintro bs s1 ⟨l, vs, ds, hrest, hl, h1, hId, hlt, _, _, L⟩
    have hln : l = c.n + 1 := by
      by_contra hcon
      rw [show c.n + 1 - l = (c.n + 1 - (l + 1)) + 1 by omega, List.range'_succ] at hrest
      cases hrest
    have hds : ∀ q ∈ vs, q ∈ ds := by
      intro q hq
      exact L.below q hq (by have := B.le q (L.reach q hq); omega)
    have hws : ∀ q, q ∈ vs ↔ Reach S.kind root q := fun q =>
      ⟨L.reach q, closed_all L.has (fun w hw => L.sons w (hds w hw)) q⟩
    have B' : Below c s1 root := by
      rw [h1]
      exact ⟨B.used, B.lvl, B.le⟩
    refine (traversePreImpl_ok (op := fun _ (u : Unit) => pure u) (b := false)
      (M0 := s1.mark) (fun _ _ d => d = s1.data) B' ?_ ?_
      (c.n + 1) root [] () s1 .refl (by simp) (by simp) (by simp [TSt]) rfl (by omega)).mono ?_
    · intro q hq
      rw [h1.kind] at hq
      rw [h1.mark]
      simp [(hws q).2 hq]
    · intro vs p t s hT hd _ _
      exact Ok.pure ⟨hT, hd⟩
    · rintro _ s2 ⟨us, k1, k2, k3, k4, k5, k6⟩
      simp only [List.nil_append] at k1 k2 k3 k6
      rw [h1.kind] at k5
      have hus : ∀ q, q ∈ us ↔ Reach S.kind root q := by
        refine fun q => ⟨k5 q, fun h => closed_all k4 k6 q ?_⟩
        rw [h1.kind]; exact h
      have e := restore hc h1 k1 hws hus k2
      refine ⟨ds, L.dsNodup, fun q => ?_, ?_, ?_⟩
      · rw [← hws q]
        exact ⟨fun h => (L.dsIn q h).1, hds q⟩
      · rw [k2]; exact e
      · rw [k2]; exact hId

/-! ### Probabilities of all states -/

theorem sum_change {V : List Ptr} (hn : V.Nodup) {q : Ptr} (hq : q ∈ V) {a b : Ptr → Rat}
    (h : ∀ r ∈ V, r ≠ q → a r = b r) : (V.map a).sum = (V.map b).sum + (a q - b q) := by
  induction V with
  | nil => cases hq
  | cons r V ih =>
      simp only [List.map_cons, List.sum_cons]
      have hr := (List.nodup_cons.1 hn).1
      by_cases e : r = q
      · subst e
        have : V.map a = V.map b :=
          List.map_congr_left fun t ht => h t (by simp [ht]) (by rintro rfl; exact hr ht)
        rw [this]
        ring
      · rw [ih (List.nodup_cons.1 hn).2 (by
          rcases List.mem_cons.1 hq with h | h
          · exact absurd h.symm e
          · exact h) (fun t ht => h t (by simp [ht])), h r (by simp) e]
        ring

theorem sum_zero {V : List Ptr} : (V.map fun _ => (0 : Rat)).sum = 0 := by
  induction V with
  | nil => rfl
  | cons r V _ => simp

/-- Has the data of `q` been passed on to its sons? -/
def passed (S : Mgr) (ds : List Ptr) (q : Ptr) : Bool :=
  match S.kind q with
  | .leaf _ => false
  | .inner _ _ => decide (q ∈ ds)

/-- Probability mass that has not been passed on to the sons yet. -/
noncomputable def part (c : Cfg) (S : Mgr) (P : Nat → Nat → Rat) (ds : List Ptr) (G : Int → Rat)
    (d : Ptr → Option Rat) (q : Ptr) : Rat :=
  if passed S ds q then 0 else (d q).getD 0 * prOf c S P G q

noncomputable def mass (c : Cfg) (S : Mgr) (P : Nat → Nat → Rat) (V ds : List Ptr) (G : Int → Rat)
    (d : Ptr → Option Rat) : Rat := (V.map (part c S P ds G d)).sum

theorem passed_not {ds : List Ptr} {q : Ptr} (h : q ∉ ds) : passed S ds q = false := by
  unfold passed
  split <;> simp [h]

theorem passed_append {ds : List Ptr} {p r : Ptr} (h : r ≠ p) :
    passed S (ds ++ [p]) r = passed S ds r := by
  unfold passed
  cases S.kind r <;> simp [h]

theorem mass_add {V ds : List Ptr} (hn : V.Nodup) {q : Ptr} (hq : q ∈ V) (hd : q ∉ ds)
    {d : Ptr → Option Rat} {x y : Rat} (hx : d q = some x) :
    mass c S P V ds G (upd d q (some (x + y))) = mass c S P V ds G d + y * prOf c S P G q := by
  unfold mass
  rw [sum_change hn hq (b := part c S P ds G d)]
  · simp only [part, passed_not hd, Bool.false_eq_true, if_false, upd_same, hx, Option.getD_some]
    ring
  · intro r _ hr
    simp only [part, upd_apply, hr, if_false]

theorem mass_visit {V ds : List Ptr} (hn : V.Nodup) {p : Ptr} (hp : p ∈ V) (hd : p ∉ ds) {i : Nat}
    {ss : List Ptr} (hk : S.kind p = .inner i ss) {d : Ptr → Option Rat} {x : Rat}
    (hx : d p = some x) :
    mass c S P V (ds ++ [p]) G d = mass c S P V ds G d - x * prOf c S P G p := by
  unfold mass
  rw [sum_change hn hp (b := part c S P ds G d)]
  · simp only [part, passed_not hd]
    simp [passed, hk, hx]
    ring
  · intro r _ hr
    simp only [part, passed_append hr]

theorem mass_leaf {V ds : List Ptr} {p : Ptr} {a : Int} (hk : S.kind p = .leaf a)
    {d : Ptr → Option Rat} : mass c S P V (ds ++ [p]) G d = mass c S P V ds G d := by
  unfold mass
  congr 1
  refine List.map_congr_left ?_
  intro q _
  by_cases e : q = p
  · subst e
    simp [part, passed, hk]
  · simp only [part, passed_append e]

/-- The level-order computation leaves the probability of its value in every terminal. -/
theorem calculateProbabilities_ok (g : Good E ext S) (hp : S.used root = true)
    (hcl : CleanBelow S root) {f : Asg → Int} (hd : Den E.c S root f) (hP : Sums E.c P) :
    Ok (calculateProbabilities E.c P root) S (fun _ s' => DSt S s' ∧
      ∀ q a, S.used q = true → S.kind q = .leaf a → a ≠ Undefined →
        s'.data q = some (probability E.c.n E.c.dom P (fun x => decide (f x = a)))) := by
  have h := g.inv
  have ho := g.ord
  have hc := g.cfg
  have B0 : Below E.c S root := Below.of h ho hp
  unfold calculateProbabilities
  refine Ok.bind (traversePre_ok (I := fun vs (_ : Unit) d => ∀ q ∈ vs, d q = some 0) B0 hcl
    (by simp) ?_) ?_
  · rintro vs p _ s hT hI hr hpv
    have hus : s.used p = true := by rw [hT.used]; exact B0.used p hr
    refine Ok.of_eq (setData_ok hus 0) ⟨hT.setData _, ?_⟩
    intro q hq
    simp only [upd_apply]
    split
    · rfl
    · rename_i e
      rcases List.mem_append.1 hq with hq | hq
      · exact hI q hq
      · simp at hq; exact absurd hq e
  rintro _ s0 ⟨V, hVn, hV, e0, hz⟩
  have D0 : DSt S s0 := e0
  refine Ok.bind (resetTerminals_ok (D0.good g).inv) ?_
  rintro _ s1 ⟨D1, hd1⟩
  have D01 := D0.trans D1
  have hp1 : s1.used root = true := by rw [D01.used]; exact hp
  refine Ok.bindEq (setData_ok hp1 1) ?_
  generalize hs2 : ({ s1 with data := upd s1.data root (some 1) } : Mgr) = s2
  have D : DSt S s2 := by rw [← hs2]; exact D01.set _
  have g2 := D.good g
  have h2 := g2.inv
  have ho2 := g2.ord
  have hp2 : s2.used root = true := by rw [D.used]; exact hp
  have B : Below E.c s2 root := Below.of h2 ho2 hp2
  have hd2 : Den E.c s2 root f := by
    intro x hx
    rw [D.kind]
    exact hd x hx
  have hV2 : ∀ q, q ∈ V ↔ Reach s2.kind root q := by intro q; rw [D.kind]; exact hV q
  have hrV : root ∈ V := (hV2 root).2 .refl
  have z1 : ∀ q ∈ V, s1.data q = some 0 := by
    intro q hq
    rw [hd1]
    split
    · rfl
    · exact hz q hq
  have dat : ∀ q, s2.data q = if q = root then some 1 else s1.data q := by
    intro q
    rw [← hs2]
    simp only [upd_apply]
  have start : ∀ G : Int → Rat, mass E.c s2 P V [] G s2.data = prOf E.c s2 P G root := by
    intro G
    unfold mass
    rw [sum_change hVn hrV (b := fun _ => 0), sum_zero]
    · simp [part, passed_not, dat]
    · intro r hr hne
      simp [part, passed_not, dat, hne, z1 r hr]
  refine (traverseLevel_ok (I := fun ds d => (∀ q ∈ V, ∃ x, d q = some x) ∧
    (∀ q, q ∉ V → d q = s2.data q) ∧
    ∀ G : Int → Rat, mass E.c s2 P V ds G d = prOf E.c s2 P G root) B ?_ ⟨?_, fun _ _ => rfl, start⟩
    ?_).mono ?_
  · intro q hq
    rw [D.kind] at hq
    rw [D.mark]
    exact hcl q hq
  · intro q hq
    rw [dat]
    split
    · exact ⟨1, rfl⟩
    · exact ⟨0, z1 q hq⟩
  · rintro vs ds p s hT ⟨hsome, hout, hmass⟩ hr hpd hlev
    have hup := B.used p hr
    have hus : s.used p = true := by rw [hT.used]; exact hup
    have hpV := (hV2 p).2 hr
    unfold ntpsLevelVisit
    refine Ok.bindEq (getKind_ok hus) ?_
    rw [hT.kind]
    cases hk : s2.kind p with
    | leaf a =>
        exact Ok.pure ⟨hT, hsome, hout, fun G => by rw [mass_leaf hk]; exact hmass G⟩
    | inner i ss =>
        dsimp only
        obtain ⟨hi, hlen, hu⟩ := h2.sons p i ss hup hk
        obtain ⟨x, hx⟩ := hsome p hpV
        refine (forL_rule (I := fun rest s' => TSt s2 s2.mark true vs s' ∧
          (∀ q ∈ V, ∃ x, s'.data q = some x) ∧ (∀ q, q ∉ V → s'.data q = s2.data q) ∧
          s'.data p = some x ∧ ∃ done, ss.zip (List.range ss.length) = done ++ rest ∧
          ∀ G : Int → Rat, mass E.c s2 P V ds G s'.data = mass E.c s2 P V ds G s.data +
            x * (done.map fun e => prOf E.c s2 P G e.1 * P i e.2).sum) ?_ _ _
          ⟨hT, hsome, hout, hx, [], by simp, by simp⟩).mono ?_
        · rintro ⟨q, k⟩ rest s' ⟨hT', hsome', hout', hx', done, hz', hm'⟩
          have hq : q ∈ ss := by
            have : (q, k) ∈ ss.zip (List.range ss.length) := by rw [hz']; simp
            exact (List.of_mem_zip this).1
          have hlt := ho2 p i ss q hup hk hq
          have hqp : q ≠ p := by rintro rfl; omega
          have hqd : q ∉ ds := fun hqd => by have := hlev q hqd; omega
          have hqV : q ∈ V := (hV2 q).2 (hr.snoc hk hq)
          have hqu : s'.used q = true := by rw [hT'.used]; exact hu q hq
          have hpu : s'.used p = true := by rw [hT'.used]; exact hup
          obtain ⟨y, hy⟩ := hsome' q hqV
          refine Ok.bindEq (getData_ok hpu hx') ?_
          refine Ok.bindEq (getData_ok hqu hy) ?_
          refine Ok.of_eq (setData_ok hqu _) ⟨hT'.setData _, ?_, ?_, ?_, done ++ [(q, k)],
            by simp [hz'], ?_⟩
          · intro r hr
            simp only [upd_apply]
            split
            · exact ⟨_, rfl⟩
            · exact hsome' r hr
          · intro r hr
            have : r ≠ q := by rintro rfl; exact hr hqV
            simp only [upd_apply, this, if_false]
            exact hout' r hr
          · simp only [upd_apply, Ne.symm hqp, if_false]
            exact hx'
          · intro G
            dsimp only
            rw [mass_add hVn hqV hqd hy, hm' G]
            simp only [List.map_append, List.sum_append, List.map_cons, List.map_nil, List.sum_cons,
              List.sum_nil]
            ring
        · rintro _ s' ⟨hT', hsome', hout', hx', done, hz', hm'⟩
          simp only [List.append_nil] at hz'
          refine ⟨hT', hsome', hout', fun G => ?_⟩
          rw [mass_visit hVn hpV hpd hk hx', hm' G, hmass G, ← hz',
            ← prOf_inner h2 ho2 hc hP hup hk]
          ring
  · rintro _ s3 ⟨ds, _, hds, e3, hsome, hout, hmass⟩
    have D3 : DSt s2 s3 := e3
    refine ⟨D.trans D3, ?_⟩
    intro t a htu htk ha
    rw [← D.used] at htu
    rw [← D.kind] at htk
    have hpr := prOf_root h2 ho2 hc hP hp2 hd2 (φ := fun b => decide (b = a))
    rw [← hpr, ← hmass]
    have hpass : ∀ q ∈ V, passed s2 ds q = true ∨ ∃ b, s2.kind q = .leaf b := by
      intro q hq
      cases hk : s2.kind q with
      | leaf b => exact Or.inr ⟨b, rfl⟩
      | inner i ss =>
          refine Or.inl ?_
          simp [passed, hk, (hds q).2 ((hV2 q).1 hq)]
    have other : ∀ r ∈ V, r ≠ t → part E.c s2 P ds (fun b => if decide (b = a) = true then 1 else 0)
        s3.data r = 0 := by
      intro r hr hne
      rcases hpass r hr with h | ⟨b, hb⟩
      · simp [part, h]
      · have hba : b ≠ a := by
          rintro rfl
          exact hne (leaf_inj h2 (B.used r ((hV2 r).1 hr)) htu hb htk ha)
        unfold part
        rw [prOf_leaf hb]
        simp [hba]
    by_cases htV : t ∈ V
    · unfold mass
      rw [sum_change hVn htV (b := fun _ => 0) other, sum_zero]
      obtain ⟨x, hx⟩ := hsome t htV
      unfold part
      rw [prOf_leaf htk]
      simp [passed, htk, hx]
    · have : mass E.c s2 P V ds (fun b => if decide (b = a) = true then 1 else 0) s3.data = 0 := by
        unfold mass
        rw [List.map_congr_left (fun r hr => other r hr (by rintro rfl; exact htV hr)), sum_zero]
      rw [this, hout t htV, dat, if_neg (by rintro rfl; exact htV hrV), hd1]
      rw [D.used] at htu
      rw [D.kind] at htk
      obtain ⟨v, _, hv⟩ := leaf_place h htu htk ha
      rw [D0.terminals, if_pos (List.mem_of_getElem? hv)]

theorem probability_or {n : Nat} {dom : Nat → Nat} {φ ψ : Asg → Bool}
    (h : ∀ x, ¬ (φ x = true ∧ ψ x = true)) :
    probability n dom P (fun x => φ x || ψ x) = probability n dom P φ + probability n dom P ψ := by
  unfold probability
  generalize allAsg n dom = L
  induction L with
  | nil => simp
  | cons x L ih =>
      have hx := h x
      cases h1 : φ x <;> cases h2 : ψ x <;> simp_all <;> ring

theorem probability_false {n : Nat} {dom : Nat → Nat} :
    probability n dom P (fun _ => false) = 0 := by
  unfold probability
  simp

theorem wsum_one {dom : Nat → Nat} {vars : List Nat}
    (h : ∀ i ∈ vars, ((List.range (dom i)).map (P i)).sum = 1) :
    wsum dom P vars (fun _ => 1) = 1 := by
  induction vars with
  | nil => rfl
  | cons i vars ih =>
      simp only [wsum]
      rw [ih (fun j hj => h j (by simp [hj]))]
      simp only [mul_one]
      exact h i (by simp)

theorem probability_true {n : Nat} {dom : Nat → Nat}
    (h : ∀ i, i < n → ((List.range (dom i)).map (P i)).sum = 1) :
    probability n dom P (fun _ => true) = 1 := by
  rw [probability_eq (List.Perm.refl _)]
  simp only [if_true]
  exact wsum_one fun i hi => h i (List.mem_range.1 hi)

theorem probability_compl {n : Nat} {dom : Nat → Nat}
    (h : ∀ i, i < n → ((List.range (dom i)).map (P i)).sum = 1) (φ : Asg → Bool) :
    probability n dom P φ + probability n dom P (fun x => !φ x) = 1 := by
  rw [← probability_or (by intro x; cases φ x <;> simp), ← probability_true h]
  congr 1
  funext x
  cases φ x <;> rfl

/-- Reading a probability that has been calculated. -/
theorem getProbability_ok (g : Good E ext s) {f : Asg → Int} (hp : s.used root = true)
    (hd : Den E.c s root f) (hs : ∀ q a, s.used q = true → s.kind q = .leaf a → a ≠ Undefined →
      s.data q = some (probability E.c.n E.c.dom P (fun x => decide (f x = a))))
    {v : Int} (h0 : 0 ≤ v) (hv : v ≠ Undefined) :
    getProbability v s = .ok (probability E.c.n E.c.dom P (fun x => decide (f x = v)), s) := by
  obtain ⟨o, e, h1, h2⟩ := getTerminal_ok g.inv h0
  unfold getProbability
  rw [bind_ok e]
  cases o with
  | some p =>
      obtain ⟨hu, hk, _⟩ := h1 p rfl
      exact getData_ok hu (hs p v hu hk hv)
  | none =>
      have : probability E.c.n E.c.dom P (fun x => decide (f x = v)) = 0 := by
        rw [← probability_false (n := E.c.n) (dom := E.c.dom)]
        refine probability_congr g.inv.order g.cfg ?_
        intro x hx
        rw [decide_eq_false_iff_not]
        intro e
        obtain ⟨q, hr, hk⟩ := (leafVal_iff g hp hd).2 ⟨x, hx, e⟩
        exact hv (h2 rfl q (hr.used g.inv hp) hk)
      rw [this]
      rfl

/-- Adding up the probabilities of the terminals. -/
theorem sumTerminals_ok (g : Good E ext s) {f : Asg → Int} (hp : s.used root = true)
    (hd : Den E.c s root f) (hs : ∀ q a, s.used q = true → s.kind q = .leaf a → a ≠ Undefined →
      s.data q = some (probability E.c.n E.c.dom P (fun x => decide (f x = a))))
    (hU : ∀ x, Valid E.c x → f x ≠ Undefined) (φ : Int → Bool) :
    sumTerminals φ s = .ok (probability E.c.n E.c.dom P (fun x => φ (f x)), s) := by
  have h := g.inv
  suffices hok : Ok (sumTerminals φ) s (fun r s' => s' = s ∧
      r = probability E.c.n E.c.dom P (fun x => φ (f x))) by
    obtain ⟨r, s', e, rfl, rfl⟩ := hok
    exact e
  unfold sumTerminals
  refine Ok.bindGet ?_
  have place : ∀ x, Valid E.c x → ∃ (v : Nat) (p : Ptr), f x = v ∧ s.terminals[v]? = some (some p) := by
    intro x hx
    obtain ⟨q, hr, hk⟩ := (leafVal_iff g hp hd).2 ⟨x, hx, rfl⟩
    obtain ⟨v, h1, h2⟩ := leaf_place h (hr.used h hp) hk (hU x hx)
    exact ⟨v, q, h1, h2⟩
  refine (foldL_rule (I := fun rest (acc : Rat) s' => s' = s ∧ ∃ k,
    rest = s.terminals.drop k ∧ acc = probability E.c.n E.c.dom P
      (fun x => φ (f x) && decide (f x < (k : Int)))) ?_ s.terminals 0 s ⟨rfl, 0, by simp, ?_⟩).mono ?_
  · rintro o rest acc s' ⟨rfl, k, hr, rfl⟩
    have hk : s'.terminals[k]? = some o := by
      rw [← List.head?_drop, ← hr]; rfl
    have hr' : rest = s'.terminals.drop (k + 1) := by
      rw [← List.tail_drop, ← hr]; rfl
    have step : ∀ x, decide (f x < ((k + 1 : Nat) : Int)) = (decide (f x < (k : Int)) || decide (f x = k)) := by
      intro x
      rw [Bool.eq_iff_iff]
      simp
      omega
    have skip : (∀ x, Valid E.c x → φ (f x) = true → f x ≠ k) →
        probability E.c.n E.c.dom P (fun x => φ (f x) && decide (f x < (k : Int)))
          = probability E.c.n E.c.dom P (fun x => φ (f x) && decide (f x < ((k + 1 : Nat) : Int))) := by
      intro hno
      refine probability_congr h.order g.cfg ?_
      intro x hx
      rw [step]
      cases hφ : φ (f x) with
      | false => rfl
      | true => simp [hno x hx hφ]
    cases o with
    | none =>
        refine Ok.pure ⟨rfl, k + 1, hr', skip ?_⟩
        intro x hx _ e
        obtain ⟨v, p, h1, h2⟩ := place x hx
        rw [e] at h1
        cases Int.ofNat_inj.1 h1
        rw [hk] at h2
        cases h2
    | some p =>
        obtain ⟨hkind, hne⟩ := h.termKind k p hk
        have hu := h.termUsed hk
        dsimp only
        refine Ok.bindEq (getKind_ok hu) ?_
        rw [hkind]
        dsimp only
        by_cases hφ : φ (k : Int) = true
        · rw [if_pos hφ]
          refine Ok.bindEq (getData_ok hu (hs p _ hu hkind hne)) ?_
          refine Ok.pure ⟨rfl, k + 1, hr', ?_⟩
          rw [← probability_or]
          · congr 1
            funext x
            rw [step]
            by_cases e : f x = k
            · simp [e, hφ]
            · simp [e]
          · intro x
            simp
            omega
        · rw [if_neg hφ]
          refine Ok.pure ⟨rfl, k + 1, hr', skip ?_⟩
          intro x _ h1 e
          rw [e] at h1
          exact hφ h1
  · rw [← probability_false (n := E.c.n) (dom := E.c.dom)]
    refine probability_congr h.order g.cfg ?_
    intro x hx
    obtain ⟨v, p, h1, h2⟩ := place x hx
    simp [h1]
  · rintro acc s' ⟨rfl, k, hr, rfl⟩
    refine ⟨rfl, probability_congr h.order g.cfg ?_⟩
    intro x hx
    obtain ⟨v, p, h1, h2⟩ := place x hx
    have hv : v < s'.terminals.length := by
      by_contra hc
      rw [List.getElem?_eq_none (by omega)] at h2
      cases h2
    have : s'.terminals.length ≤ k := by
      have := congrArg List.length hr
      simp at this
      omega
    simp [h1]
    intro _
    omega

end

end Teddy
