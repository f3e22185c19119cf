import Verif.Demo
import Mathlib.Tactic.IntervalCases

/-!
# Properties of reliability analysis
-/

namespace Teddy
namespace Properties

open SM Spec

variable {P : Setup} {w : World} {σ : SState}

/-! ### C29 probability of a state -/

/-- `calculate_probability(s, pr, d)` is the sum, over the assignments on which `d` has value `s`, of
the products of the probabilities of the variables' values (exact arithmetic).

Missing for the full property: `d` must not take the special value `Undefined` (see
`C29_violated`), `s` must not be negative (`C29_violated_negative`), no `from_expression_tree` before
(`C24_violated`). -/
theorem C29_calculate_probability_partial (hP : P.OK) (h : Reachable P w σ) (hclean : σ.clean = true)
    {a : Nat} {f : Asg → Int} (ha : Denotes P w a f) (hf : Defined P.c f) {pr : Nat → Nat → Rat}
    (hpr : SumsToOne P.c.n P.c.dom pr) {s : Int} (hs : 0 ≤ s) :
    Answers P w (.calculateProbability s pr a)
      (.rat (((allAsg P.c.n P.c.dom).filter fun x => f x = s).map
        (weight pr (List.range P.c.n))).sum) := by
  obtain ⟨f', hf', e1⟩ := (reachable_rel hP h).of_denotes ha
  obtain ⟨o, e, ho⟩ := answers (k := .calculateProbability s pr a) hP h
    ⟨hclean, hs, hpr, f', hf', e1.defined hf⟩ (fun _ => rfl)
  rw [ho, hf'.fn, e1.probability pr fun v => decide (v = s)] at e
  exact e

/-- A distribution: variable `i` is 1 with probability 1 / (i + 2). -/
def demoPr : Nat → Nat → Rat := probVectorWrap fun i => 1 / (i + 2)

theorem demoPr_sums : SumsToOne bdd3.c.n bdd3.c.dom demoPr := by
  intro i _
  simp [bdd3, demoPr, probVectorWrap, List.range_succ]

theorem bdd3_defined {g : Asg → Int} (hg : g ∈ [fun x : Asg => (x 0 : Int), fun x => (x 1 : Int),
    fun x => Op.AND.val (x 0) (x 1)]) : Defined bdd3.c g := by
  intro x hx
  have := bdd3_bits g hg x hx
  rw [und_val]
  omega

/-- The probability of x0 ∧ x1 is 1/2 · 1/3. -/
example : ∃ w σ, Reachable bdd3 w σ ∧
    Answers bdd3 w (.calculateProbability 1 demoPr 2) (.rat (1 / 6)) := by
  obtain ⟨w, h⟩ := bdd3_world
  refine ⟨w, _, h, ?_⟩
  have := C29_calculate_probability_partial (a := 2) bdd3_ok h rfl
    ((reachable_rel bdd3_ok h).denotes rfl) (bdd3_defined (by simp)) demoPr_sums (s := 1) (by decide)
  rw [show (((allAsg bdd3.c.n bdd3.c.dom).filter fun x => decide (Op.AND.val (x 0) (x 1) = 1)).map
    (weight demoPr (List.range bdd3.c.n))).sum = 1 / 6 from by decide +kernel] at this
  exact this

/-! ### C30 both probability algorithms agree -/

/-- After `calculate_probabilities(pr, d)`, `get_probability(s)` returns, for every state, what
`calculate_probability(s, pr, d)` returns.

Missing for the full property: see C29; here `d` may be undefined somewhere as long as `s` is not the
special value itself. -/
theorem C30_get_probability_partial (hP : P.OK) (h : Reachable P w σ) (hclean : σ.clean = true)
    {a : Nat} {f : Asg → Int} (ha : Denotes P w a f) {pr : Nat → Nat → Rat}
    (hpr : SumsToOne P.c.n P.c.dom pr) :
    ∃ w', exec P.c (.calculateProbabilities pr a) w = .ok (.unit, w') ∧
      (∀ s, 0 ≤ s → s ≠ Undefined → onMgr (getProbability s) w' =
        .ok (probability P.c.n P.c.dom pr fun x => decide (f x = s), w')) ∧
      (Defined P.c f → ∀ s, 0 ≤ s → s ≠ Undefined → ∃ q, onMgr (getProbability s) w' = .ok (q, w') ∧
        Answers P w (.calculateProbability s pr a) (.rat q)) := by
  have R := reachable_rel hP h
  obtain ⟨f', hf', e1⟩ := R.of_denotes ha
  obtain ⟨p, hp, hd⟩ := R.has a f' hf'
  obtain ⟨_, s', e, D, hdata⟩ := calculateProbabilities_ok R.good (R.used hp)
    (R.cleanBelow hclean p) hd hpr
  have key : ∀ s, 0 ≤ s → s ≠ Undefined → onMgr (getProbability s) { w with mgr := s' } =
      .ok (probability P.c.n P.c.dom pr fun x => decide (f x = s), { w with mgr := s' }) := by
    intro s h0 hs
    have := getProbability_ok (root := p) (P := pr) (f := f') (D.good R.good)
      (by rw [D.used]; exact R.used hp) (fun x hx => by rw [D.kind]; exact hd x hx)
      (fun q a hq hk => hdata q a (by rw [← D.used]; exact hq) (by rw [← D.kind]; exact hk)) h0 hs
    simp only [onMgr]
    rw [this]
    dsimp only
    rw [← e1.probability pr fun v => decide (v = s)]
    rfl
  refine ⟨{ w with mgr := s' }, ?_, key, ?_⟩
  · simp only [exec]
    rw [bind_ok (rootOf_ok hp), bind_ok (a := ()) (s' := { w with mgr := s' })]
    · rfl
    · simp only [onMgr]
      rw [show calculateProbabilities P.c pr p w.mgr = _ from e]
  · intro hf s h0 hs
    exact ⟨_, key s h0 hs, C29_calculate_probability_partial hP h hclean ha hf hpr h0⟩

/-- The hypotheses are met by x0 ∧ x1; all states are read after one calculation. -/
example : ∃ w σ w', Reachable bdd3 w σ ∧
    exec bdd3.c (.calculateProbabilities demoPr 2) w = .ok (.unit, w') ∧
    onMgr (getProbability 1) w' = .ok (1 / 6, w') ∧ onMgr (getProbability 0) w' = .ok (5 / 6, w') := by
  obtain ⟨w, h⟩ := bdd3_world
  obtain ⟨w', e, h1, _⟩ := C30_get_probability_partial (a := 2) bdd3_ok h rfl
    ((reachable_rel bdd3_ok h).denotes rfl) demoPr_sums
  refine ⟨w, _, w', h, e, ?_, ?_⟩
  · rw [h1 1 (by decide) (by decide)]
    rw [show probability bdd3.c.n bdd3.c.dom demoPr (fun x => decide (Op.AND.val (x 0) (x 1) = 1))
      = 1 / 6 from by decide +kernel]
  · rw [h1 0 (by decide) (by decide)]
    rw [show probability bdd3.c.n bdd3.c.dom demoPr (fun x => decide (Op.AND.val (x 0) (x 1) = 0))
      = 5 / 6 from by decide +kernel]

/-! ### C31 availability and unavailability -/

/-- `calculate_availability(s, pr, d)` is the probability that `d` is at least `s`,
`calculate_unavailability(s, pr, d)` that it is below `s`, and they sum to one.

Missing for the full property: see C29 (here `s` may be any number). -/
theorem C31_availability_partial (hP : P.OK) (h : Reachable P w σ) (hclean : σ.clean = true)
    {a : Nat} {f : Asg → Int} (ha : Denotes P w a f) (hf : Defined P.c f) {pr : Nat → Nat → Rat}
    (hpr : SumsToOne P.c.n P.c.dom pr) (s : Int) :
    ∃ A U : Rat, Answers P w (.calculateAvailability s pr a) (.rat A) ∧
      Answers P w (.calculateUnavailability s pr a) (.rat U) ∧
      A = probability P.c.n P.c.dom pr (fun x => decide (s ≤ f x)) ∧
      U = probability P.c.n P.c.dom pr (fun x => decide (f x < s)) ∧ A + U = 1 := by
  obtain ⟨f', hf', e1⟩ := (reachable_rel hP h).of_denotes ha
  obtain ⟨o, e, ho⟩ := answers (k := .calculateAvailability s pr a) hP h
    ⟨hclean, hpr, f', hf', e1.defined hf⟩ (fun _ => rfl)
  obtain ⟨o', e', ho'⟩ := answers (k := .calculateUnavailability s pr a) hP h
    ⟨hclean, hpr, f', hf', e1.defined hf⟩ (fun _ => rfl)
  rw [ho, hf'.fn, e1.probability pr fun v => decide (v ≥ s)] at e
  rw [ho', hf'.fn, e1.probability pr fun v => decide (v < s)] at e'
  refine ⟨_, _, e, e', rfl, rfl, ?_⟩
  rw [← probability_compl hpr (fun x => decide (f x ≥ s))]
  congr 2
  funext x
  by_cases hx : f x < s <;> simp [hx]
  omega

/-- The same numbers read back with `get_availability(s)` and `get_unavailability(s)` after
`calculate_probabilities`. -/
theorem C31_get_availability_partial (hP : P.OK) (h : Reachable P w σ) (hclean : σ.clean = true)
    {a : Nat} {f : Asg → Int} (ha : Denotes P w a f) (hf : Defined P.c f) {pr : Nat → Nat → Rat}
    (hpr : SumsToOne P.c.n P.c.dom pr) :
    ∃ w', exec P.c (.calculateProbabilities pr a) w = .ok (.unit, w') ∧ ∀ s,
      onMgr (getAvailability s) w' =
        .ok (probability P.c.n P.c.dom pr fun x => decide (s ≤ f x), w') ∧
      onMgr (getUnavailability s) w' =
        .ok (probability P.c.n P.c.dom pr fun x => decide (f x < s), w') := by
  have R := reachable_rel hP h
  obtain ⟨f', hf', e1⟩ := R.of_denotes ha
  obtain ⟨p, hp, hd⟩ := R.has a f' hf'
  obtain ⟨_, s', e, D, hdata⟩ := calculateProbabilities_ok R.good (R.used hp)
    (R.cleanBelow hclean p) hd hpr
  have key : ∀ φ, sumTerminals φ s' = .ok (probability P.c.n P.c.dom pr (fun x => φ (f x)), s') := by
    intro φ
    have := sumTerminals_ok (root := p) (P := pr) (f := f') (D.good R.good)
      (by rw [D.used]; exact R.used hp) (fun x hx => by rw [D.kind]; exact hd x hx)
      (fun q a hq hk => hdata q a (by rw [← D.used]; exact hq) (by rw [← D.kind]; exact hk))
      (e1.defined hf) φ
    rw [this, ← e1.probability pr φ]
    rfl
  refine ⟨{ w with mgr := s' }, ?_, ?_⟩
  · simp only [exec]
    rw [bind_ok (rootOf_ok hp), bind_ok (a := ()) (s' := { w with mgr := s' })]
    · rfl
    · simp only [onMgr]
      rw [show calculateProbabilities P.c pr p w.mgr = _ from e]
  · intro s
    constructor
    · simp only [onMgr, getAvailability, key]
    · simp only [onMgr, getUnavailability, key]

/-- The hypotheses are met by x0 ∧ x1. -/
example : ∃ w σ, Reachable bdd3 w σ ∧
    Answers bdd3 w (.calculateAvailability 1 demoPr 2) (.rat (1 / 6)) ∧
    Answers bdd3 w (.calculateUnavailability 1 demoPr 2) (.rat (5 / 6)) := by
  obtain ⟨w, h⟩ := bdd3_world
  obtain ⟨A, U, h1, h2, rfl, rfl, _⟩ := C31_availability_partial (a := 2) bdd3_ok h rfl
    ((reachable_rel bdd3_ok h).denotes rfl) (bdd3_defined (by simp)) demoPr_sums 1
  refine ⟨w, _, h, ?_, ?_⟩
  · rw [show probability bdd3.c.n bdd3.c.dom demoPr
      (fun x => decide (1 ≤ Op.AND.val (x 0) (x 1))) = 1 / 6 from by decide +kernel] at h1
    exact h1
  · rw [show probability bdd3.c.n bdd3.c.dom demoPr
      (fun x => decide (Op.AND.val (x 0) (x 1) < 1)) = 5 / 6 from by decide +kernel] at h2
    exact h2

/-! ### C32 direct partial logic derivatives -/

/-- `dpld(var: a -> b, change, d)` evaluates to 1 where `change` holds between the values of `d` with
the variable set to `a` and to `b`, and to 0 elsewhere.  The terminal 1 has to be allowed (on a fixed
domain with assertions, the domain has at least two values). -/
theorem C32_dpld (hP : P.OK) (h : Reachable P w σ) (hauto : σ.auto = false) {a : Nat} {f : Asg → Int} (ha : Denotes P w a f)
    (h1 : TermOK P.c 1) {vc : VarChange} (hfrom : vc.from < P.c.dom vc.index)
    (hto : vc.to < P.c.dom vc.index) (ch : Int → Int → Bool) :
    Makes P w (.dpld vc ch a) (fun x =>
      if ch (f (upd x vc.index vc.from)) (f (upd x vc.index vc.to)) = true then 1 else 0) := by
  obtain ⟨f', hf', e1⟩ := (reachable_rel hP h).of_denotes ha
  refine makes (k := .dpld vc ch a) hP h ⟨⟨f', hf'⟩, h1, fun _ => ⟨hfrom, hto⟩⟩ rfl ?_
  intro x hx
  have hu : ∀ v, v < P.c.dom vc.index → InDomain P.c.n P.c.dom (upd x vc.index v) := by
    intro v hv j hj
    simp only [upd_apply]
    split
    · subst_vars; exact hv
    · exact hx j hj
  simp only [hf'.fn]
  rw [e1 _ (hu _ hfrom), e1 _ (hu _ hto)]
  unfold b2i
  rfl

/-- ∂(x0 ∧ x1)(1 → 0) / ∂x0(1 → 0). -/
example : ∃ w σ, Reachable bdd3 w σ ∧ Makes bdd3 w (.dpld ⟨0, 1, 0⟩ (Dpld.basic 1 0) 2) (fun x =>
    if Dpld.basic 1 0 (Op.AND.val 1 (x 1)) (Op.AND.val 0 (x 1)) = true then 1 else 0) := by
  obtain ⟨w, h⟩ := bdd3_world
  exact ⟨w, _, h, C32_dpld bdd3_ok h rfl ((reachable_rel bdd3_ok h).denotes (a := 2) rfl) term1_bdd3
    (vc := ⟨0, 1, 0⟩) (by decide) (by decide) _⟩

/-! The derivative types of the library (dplds.hpp), each with its condition written out. -/

private theorem dpld_of_iff (hP : P.OK) (h : Reachable P w σ) (hauto : σ.auto = false) {a : Nat} {f : Asg → Int}
    (ha : Denotes P w a f) (h1 : TermOK P.c 1) {vc : VarChange} (hfrom : vc.from < P.c.dom vc.index)
    (hto : vc.to < P.c.dom vc.index) {ch : Int → Int → Bool} {C : Int → Int → Prop}
    [∀ l r, Decidable (C l r)] (hC : ∀ l r, ch l r = true ↔ C l r) :
    Makes P w (.dpld vc ch a) (fun x =>
      if C (f (upd x vc.index vc.from)) (f (upd x vc.index vc.to)) then 1 else 0) := by
  have := C32_dpld hP h hauto ha h1 hfrom hto ch
  simp only [hC] at this
  exact this

/-- The derivative of type `basic` is 1 where the value changes from `j` to `k` when the variable changes, and 0 elsewhere. -/
theorem C32_basic (hP : P.OK) (h : Reachable P w σ) (hauto : σ.auto = false) {a : Nat} {f : Asg → Int} (ha : Denotes P w a f)
    (h1 : TermOK P.c 1) {vc : VarChange} (hfrom : vc.from < P.c.dom vc.index)
    (hto : vc.to < P.c.dom vc.index) (j k : Int) :
    Makes P w (.dpld vc (Dpld.basic j k) a) (fun x =>
      if f (upd x vc.index vc.from) = j ∧ f (upd x vc.index vc.to) = k then 1 else 0) :=
  dpld_of_iff hP h hauto ha h1 hfrom hto (C := fun l r => l = j ∧ r = k) (fun l r => by simp [Dpld.basic])

/-- The derivative of type `type1Decrease` is 1 where the value falls from `j` when the variable changes, and 0 elsewhere. -/
theorem C32_type1Decrease (hP : P.OK) (h : Reachable P w σ) (hauto : σ.auto = false) {a : Nat} {f : Asg → Int} (ha : Denotes P w a f)
    (h1 : TermOK P.c 1) {vc : VarChange} (hfrom : vc.from < P.c.dom vc.index)
    (hto : vc.to < P.c.dom vc.index) (j : Int) :
    Makes P w (.dpld vc (Dpld.type1Decrease j) a) (fun x =>
      if f (upd x vc.index vc.from) = j ∧ f (upd x vc.index vc.to) < j then 1 else 0) :=
  dpld_of_iff hP h hauto ha h1 hfrom hto (C := fun l r => l = j ∧ r < j) (fun l r => by simp [Dpld.type1Decrease])

/-- The derivative of type `type1Increase` is 1 where the value rises from `j` when the variable changes, and 0 elsewhere. -/
theorem C32_type1Increase (hP : P.OK) (h : Reachable P w σ) (hauto : σ.auto = false) {a : Nat} {f : Asg → Int} (ha : Denotes P w a f)
    (h1 : TermOK P.c 1) {vc : VarChange} (hfrom : vc.from < P.c.dom vc.index)
    (hto : vc.to < P.c.dom vc.index) (j : Int) :
    Makes P w (.dpld vc (Dpld.type1Increase j) a) (fun x =>
      if f (upd x vc.index vc.from) = j ∧ j < f (upd x vc.index vc.to) then 1 else 0) :=
  dpld_of_iff hP h hauto ha h1 hfrom hto (C := fun l r => l = j ∧ j < r) (fun l r => by simp [Dpld.type1Increase])

/-- The derivative of type `type2Decrease` is 1 where the value falls when the variable changes, and 0 elsewhere. -/
theorem C32_type2Decrease (hP : P.OK) (h : Reachable P w σ) (hauto : σ.auto = false) {a : Nat} {f : Asg → Int} (ha : Denotes P w a f)
    (h1 : TermOK P.c 1) {vc : VarChange} (hfrom : vc.from < P.c.dom vc.index)
    (hto : vc.to < P.c.dom vc.index) :
    Makes P w (.dpld vc Dpld.type2Decrease a) (fun x =>
      if f (upd x vc.index vc.to) < f (upd x vc.index vc.from) then 1 else 0) :=
  dpld_of_iff hP h hauto ha h1 hfrom hto (C := fun l r => r < l) (fun l r => by simp [Dpld.type2Decrease])

/-- The derivative of type `type2Increase` is 1 where the value rises when the variable changes, and 0 elsewhere. -/
theorem C32_type2Increase (hP : P.OK) (h : Reachable P w σ) (hauto : σ.auto = false) {a : Nat} {f : Asg → Int} (ha : Denotes P w a f)
    (h1 : TermOK P.c 1) {vc : VarChange} (hfrom : vc.from < P.c.dom vc.index)
    (hto : vc.to < P.c.dom vc.index) :
    Makes P w (.dpld vc Dpld.type2Increase a) (fun x =>
      if f (upd x vc.index vc.from) < f (upd x vc.index vc.to) then 1 else 0) :=
  dpld_of_iff hP h hauto ha h1 hfrom hto (C := fun l r => l < r) (fun l r => by simp [Dpld.type2Increase])

/-- The derivative of type `type3Decrease` is 1 where the value falls from `j` or more to less than `j` when the variable changes, and 0 elsewhere. -/
theorem C32_type3Decrease (hP : P.OK) (h : Reachable P w σ) (hauto : σ.auto = false) {a : Nat} {f : Asg → Int} (ha : Denotes P w a f)
    (h1 : TermOK P.c 1) {vc : VarChange} (hfrom : vc.from < P.c.dom vc.index)
    (hto : vc.to < P.c.dom vc.index) (j : Int) :
    Makes P w (.dpld vc (Dpld.type3Decrease j) a) (fun x =>
      if j ≤ f (upd x vc.index vc.from) ∧ f (upd x vc.index vc.to) < j then 1 else 0) :=
  dpld_of_iff hP h hauto ha h1 hfrom hto (C := fun l r => j ≤ l ∧ r < j) (fun l r => by simp [Dpld.type3Decrease])

/-- The derivative of type `type3Increase` is 1 where the value rises from less than `j` to `j` or more when the variable changes, and 0 elsewhere. -/
theorem C32_type3Increase (hP : P.OK) (h : Reachable P w σ) (hauto : σ.auto = false) {a : Nat} {f : Asg → Int} (ha : Denotes P w a f)
    (h1 : TermOK P.c 1) {vc : VarChange} (hfrom : vc.from < P.c.dom vc.index)
    (hto : vc.to < P.c.dom vc.index) (j : Int) :
    Makes P w (.dpld vc (Dpld.type3Increase j) a) (fun x =>
      if f (upd x vc.index vc.from) < j ∧ j ≤ f (upd x vc.index vc.to) then 1 else 0) :=
  dpld_of_iff hP h hauto ha h1 hfrom hto (C := fun l r => l < j ∧ j ≤ r) (fun l r => by simp [Dpld.type3Increase])

/-- ∂(x0 ∧ x1)(1 → 0) / ∂x0(1 → 0) is x1. -/
example : ∃ w σ, Reachable bdd3 w σ ∧ Makes bdd3 w (.dpld ⟨0, 1, 0⟩ (Dpld.basic 1 0) 2) (fun x =>
    if Op.AND.val 1 (x 1) = 1 ∧ Op.AND.val 0 (x 1) = 0 then 1 else 0) := by
  obtain ⟨w, h⟩ := bdd3_world
  exact ⟨w, _, h, C32_basic bdd3_ok h rfl ((reachable_rel bdd3_ok h).denotes (a := 2) rfl) term1_bdd3
    (vc := ⟨0, 1, 0⟩) (by decide) (by decide) 1 0⟩

/-- The derivative does not depend on the variable it is taken by. -/
theorem C32_independent (f : Asg → Int) (ch : Int → Int → Bool) (vc : VarChange) :
    ¬ DependsOn P.c.n P.c.dom (fun x =>
      if ch (f (upd x vc.index vc.from)) (f (upd x vc.index vc.to)) = true then 1 else 0)
      vc.index := by
  rintro ⟨x, k, _, _, hne⟩
  apply hne
  have : ∀ v, upd (upd x vc.index k) vc.index v = upd x vc.index v := by
    intro v
    funext j
    simp only [upd_apply]
    split <;> rfl
  simp only [this]

/-! ### C33 extended derivatives -/

/-- `to_dpld_e(from, var, d)` agrees with `d` where variable `var` equals `from` and is undefined
elsewhere.

Missing for the full property: the terminal `Undefined` has to pass the assertion of
`make_terminal_node`, so no manager with a fixed domain and assertions enabled
(`C33_violated`); `d` does not depend on `var` (this holds for every derivative by `var`,
`C32_independent`; otherwise see `C33_violated_dependent`); no reordering before (not needed when `d`
has just been made by `dpld`, `C33_extended_derivative_partial`). -/
theorem C33_to_dpld_e_partial (hP : P.OK) (h : Reachable P w σ) (hauto : σ.auto = false) (hcan : σ.canon = true) {a : Nat}
    {f : Asg → Int} (ha : Denotes P w a f) (hU : TermOK P.c Undefined) {var : Nat}
    (hv : var < P.c.n) (hd : ¬ DependsOn P.c.n P.c.dom f var) (varFrom : Nat) :
    Makes P w (.toDpldE varFrom var a) (fun x => if x var = varFrom then f x else Undefined) := by
  obtain ⟨f', hf', e1⟩ := (reachable_rel hP h).of_denotes ha
  refine makes (k := .toDpldE varFrom var a) hP h ⟨hv, hU, hcan, f', hf',
    fun hc => hd (e1.dependsOn hc)⟩ rfl ?_
  intro x hx
  simp only [hf'.fn, e1 x hx]

/-- `to_dpld_e(from, var, dpld(var: from -> to, change, d))` is the derivative where the variable equals
`from` and undefined elsewhere, whatever happened before.

Missing for the full property: as above, no manager with a fixed domain and assertions enabled. -/
theorem C33_extended_derivative_partial (hP : P.OK) (h : Reachable P w σ) (hauto : σ.auto = false) {a : Nat} {f : Asg → Int}
    (ha : Denotes P w a f) (h1 : TermOK P.c 1) (hU : TermOK P.c Undefined) {vc : VarChange}
    (hi : vc.index < P.c.n) (hfrom : vc.from < P.c.dom vc.index) (hto : vc.to < P.c.dom vc.index)
    (ch : Int → Int → Bool) :
    ∃ w', exec P.c (.dpld vc ch a) w = .ok (.slot w.slots.length, w') ∧
      Makes P w' (.toDpldE vc.from vc.index w.slots.length) (fun x =>
        if x vc.index = vc.from then
          if ch (f x) (f (upd x vc.index vc.to)) = true then 1 else 0
        else Undefined) := by
  obtain ⟨w', e, hd, hk⟩ := extendedDerivative hP h hauto ha h1 hU hi hfrom hto ch
  exact ⟨w', e, hd, hk⟩

theorem mdd3_undefined : TermOK mdd3.c Undefined := ⟨by decide, fun h => by cases h⟩

/-- The hypotheses are met by max(x0, x1), extended by x2 = 1. -/
example : ∃ w σ, Reachable mdd3 w σ ∧ Makes mdd3 w (.toDpldE 1 2 2)
    (fun x => if x 2 = 1 then Op.MAX.val (x 0) (x 1) else Undefined) := by
  obtain ⟨w, h⟩ := mdd3_world
  refine ⟨w, _, h, C33_to_dpld_e_partial mdd3_ok h rfl rfl
    ((reachable_rel mdd3_ok h).denotes (a := 2) rfl) mdd3_undefined (by decide) ?_ 1⟩
  rintro ⟨x, k, _, _, hne⟩
  exact hne (by simp [upd_apply])

/-- The hypotheses are met: max(x0, x1) reaches 2 when x1 improves from 1 to 2. -/
example : ∃ w σ w', Reachable mdd3 w σ ∧
    exec mdd3.c (.dpld ⟨1, 1, 2⟩ (Dpld.type3Increase 2) 2) w = .ok (.slot w.slots.length, w') ∧
    Makes mdd3 w' (.toDpldE 1 1 w.slots.length) (fun x => if x 1 = 1 then
      if Dpld.type3Increase 2 (Op.MAX.val (x 0) (x 1)) (Op.MAX.val (x 0) 2) = true then 1 else 0
      else Undefined) := by
  obtain ⟨w, h⟩ := mdd3_world
  obtain ⟨w', e, hm⟩ := C33_extended_derivative_partial mdd3_ok h rfl
    ((reachable_rel mdd3_ok h).denotes (a := 2) rfl) ⟨by decide, fun h => by cases h⟩ mdd3_undefined
    (vc := ⟨1, 1, 2⟩) (by decide) (by decide) (by decide) (Dpld.type3Increase 2)
  exact ⟨w, _, w', h, e, hm⟩

/-! ### C34 minimal cut vectors -/

/-- `mcvs(d, s)` lists exactly the state vectors other than the all-best one on which `d` is below `s`
and on which every improvement of a single component reaches `s`, each once.

Missing for the full property: no manager with a fixed domain and assertions (`C34_violated`), no
stale apply cache (C19); the operation with the id of `PI_CONJ` is `PI_CONJ`; some variable has two
values. -/
theorem C34_mcvs_partial (hP : P.OK) (h : Reachable P w σ) (hauto : σ.auto = false) (hv : VectorsOK P σ) {a : Nat}
    {f : Asg → Int} (ha : Denotes P w a f) (s : Int) :
    ∃ l, Answers P w (.mcvs s a) (.asgs l) ∧ ListsExactly P (fun x =>
      (∃ i, i < P.c.n ∧ x i + 1 < P.c.dom i) ∧ f x < s ∧
        ∀ i, i < P.c.n → x i + 1 < P.c.dom i → s ≤ f (upd x i (x i + 1))) l := by
  have R := reachable_rel hP h
  obtain ⟨f', hf', e1⟩ := R.of_denotes ha
  obtain ⟨o, e, ho⟩ := answers (k := .mcvs s a) hP h ⟨hv, f', hf'⟩ (fun _ => rfl)
  rw [ho, hf'.fn] at e
  refine ⟨_, e, listsExactly R ?_ ?_⟩
  · intro x hx
    unfold MinCut
    rw [e1 x hx]
    refine and_congr_right fun _ => and_congr_right fun _ => forall_congr' fun i => forall_congr' fun _ =>
      forall_congr' fun hi => ?_
    rw [e1 _ (inDomain_upd hx hi)]
  · rintro x y hx hxy ⟨⟨i, hi, h1⟩, h2, h3⟩
    refine ⟨⟨i, hi, by rw [← hxy i hi]; exact h1⟩, by rw [R.denotes_eq ha hx hxy]; exact h2, ?_⟩
    intro j hj hyj
    rw [← hxy j hj] at hyj ⊢
    rw [R.denotes_eq ha (inDomain_upd hx hyj) (upd_agree hxy j _)]
    exact h3 j hj hyj

/-- For a monotone function these are the minimal cut vectors: `f` is below `s` on the vector and
reaches `s` on every greater one. -/
theorem C34_monotone {n : Nat} {dom : Nat → Nat} {f : Asg → Int}
    (hm : ∀ x y, InDomain n dom x → InDomain n dom y → (∀ i, i < n → x i ≤ y i) → f x ≤ f y)
    {s : Int} {x : Asg} (hx : InDomain n dom x) :
    ((∃ i, i < n ∧ x i + 1 < dom i) ∧ f x < s ∧
        ∀ i, i < n → x i + 1 < dom i → s ≤ f (upd x i (x i + 1))) ↔
      (∃ i, i < n ∧ x i + 1 < dom i) ∧ f x < s ∧
        ∀ y, InDomain n dom y → (∀ i, i < n → x i ≤ y i) → (∃ i, i < n ∧ x i < y i) → s ≤ f y := by
  refine and_congr_right fun _ => and_congr_right fun _ => ⟨?_, ?_⟩
  · rintro h y hy hxy ⟨i, hi, hlt⟩
    have hd : x i + 1 < dom i := by have := hy i hi; omega
    refine (h i hi hd).trans (hm _ _ (inDomain_upd hx hd) hy ?_)
    intro j hj
    simp only [upd_apply]
    split
    · subst_vars; exact hlt
    · exact hxy j hj
  · intro h i hi hd
    refine h _ (inDomain_upd hx hd) ?_ ⟨i, hi, by simp [upd_apply]⟩
    intro j _
    simp only [upd_apply]
    split
    · subst_vars; omega
    · exact Nat.le_refl _

theorem mdd3_vectors : VectorsOK mdd3 mdd3State :=
  ⟨rfl, rfl, ⟨by decide, fun h => by cases h⟩, mdd3_undefined, 0, by decide, by decide⟩

/-- The minimal cut vectors of max(x0, x1) for state 2: x1 one below its best and the rest best. -/
example : ∃ w l, Reachable mdd3 w mdd3State ∧ Answers mdd3 w (.mcvs 2 2) (.asgs l) ∧
    l = [[1, 1, 1]] := by
  obtain ⟨w, h⟩ := mdd3_world
  obtain ⟨o, e, ho⟩ := answers (k := .mcvs 2 2) mdd3_ok h ⟨mdd3_vectors, _, rfl⟩ (fun _ => rfl)
  exact ⟨w, _, h, ho ▸ e, by decide +kernel⟩

/-- … and the hypotheses of the theorem are met. -/
example : ∃ w l, Reachable mdd3 w mdd3State ∧ Answers mdd3 w (.mcvs 1 2) (.asgs l) ∧ [0, 0, 1] ∈ l := by
  obtain ⟨w, h⟩ := mdd3_world
  obtain ⟨l, e, _, hl⟩ := C34_mcvs_partial mdd3_ok h rfl mdd3_vectors
    ((reachable_rel mdd3_ok h).denotes (a := 2) rfl) 1
  refine ⟨w, l, h, e, (hl _).2 ⟨fun i => if i = 2 then 1 else 0, ?_, ?_, by decide⟩⟩
  · unfold InDomain; decide
  · decide +kernel

/-! ### C35 minimal path vectors -/

/-- `mpvs_g(d, s, out)` lists exactly the state vectors other than the all-worst one on which `d`
reaches `s` and on which every degradation of a single component drops below `s`, each once.

Missing for the full property: `mpvs(d, s)` itself calls `mcvs_g` and returns the minimal cut vectors
(`C35_violated`); the other restrictions are those of C34; the all-worst vector is never listed
(`C35_violated_worst`). -/
theorem C35_mpvs_g_partial (hP : P.OK) (h : Reachable P w σ) (hauto : σ.auto = false) (hv : VectorsOK P σ) {a : Nat}
    {f : Asg → Int} (ha : Denotes P w a f) (s : Int) :
    ∃ l, Answers P w (.mpvsG s a) (.asgs l) ∧ ListsExactly P (fun x =>
      (∃ i, i < P.c.n ∧ 0 < x i) ∧ s ≤ f x ∧
        ∀ i, i < P.c.n → 0 < x i → f (upd x i (x i - 1)) < s) l := by
  have R := reachable_rel hP h
  obtain ⟨f', hf', e1⟩ := R.of_denotes ha
  obtain ⟨o, e, ho⟩ := answers (k := .mpvsG s a) hP h ⟨hv, f', hf'⟩ (fun _ => rfl)
  rw [ho, hf'.fn] at e
  refine ⟨_, e, listsExactly R ?_ ?_⟩
  · intro x hx
    unfold MinPath
    rw [e1 x hx]
    refine and_congr_right fun _ => and_congr_right fun _ => forall_congr' fun i => forall_congr' fun hi =>
      forall_congr' fun _ => ?_
    have := hx i hi
    rw [e1 _ (inDomain_upd hx (by omega))]
  · rintro x y hx hxy ⟨⟨i, hi, h1⟩, h2, h3⟩
    refine ⟨⟨i, hi, by rw [← hxy i hi]; exact h1⟩, by rw [R.denotes_eq ha hx hxy]; exact h2, ?_⟩
    intro j hj hyj
    rw [← hxy j hj] at hyj ⊢
    have := hx j hj
    rw [R.denotes_eq ha (inDomain_upd hx (by omega)) (upd_agree hxy j _)]
    exact h3 j hj hyj

/-- The minimal path vectors of max(x0, x1) for state 1 include 1, 0, 0. -/
example : ∃ w l, Reachable mdd3 w mdd3State ∧ Answers mdd3 w (.mpvsG 1 2) (.asgs l) ∧ [1, 0, 0] ∈ l := by
  obtain ⟨w, h⟩ := mdd3_world
  obtain ⟨l, e, _, hl⟩ := C35_mpvs_g_partial mdd3_ok h rfl mdd3_vectors
    ((reachable_rel mdd3_ok h).denotes (a := 2) rfl) 1
  refine ⟨w, l, h, e, (hl _).2 ⟨fun i => if i = 0 then 1 else 0, ?_, ?_, by decide⟩⟩
  · unfold InDomain; decide
  · decide +kernel

/-! ### C36 importance measures

Missing for the full property, in each of the following: histories in which `from_expression_tree` left
marks behind (`C36_violated`). -/

/-- `state_frequency(d, s)` is the fraction of assignments on which `d` has value `s`. -/
theorem C36_state_frequency_partial (hP : P.OK) (h : Reachable P w σ) (hclean : σ.clean = true)
    (hfit : CountFits P.c) {a : Nat} {f : Asg → Int} (ha : Denotes P w a f) {s : Int}
    (hs : ∀ m, P.c.fixedDom = some m → P.c.asserts = true → s < m) :
    Answers P w (.stateFrequency s a)
      (.rat (countValue P.c.n P.c.dom f s / (allAsg P.c.n P.c.dom).length)) := by
  obtain ⟨f', hf', e1⟩ := (reachable_rel hP h).of_denotes ha
  obtain ⟨o, e, ho⟩ := answers (k := .stateFrequency s a) hP h ⟨hclean, hfit, ⟨f', hf'⟩, hs⟩
    (fun _ => rfl)
  rw [ho, hf'.fn, e1.countValue] at e
  exact e

/-- `structural_importance(d)` of a derivative is the fraction of assignments on which it is 1. -/
theorem C36_structural_importance_partial (hP : P.OK) (h : Reachable P w σ) (hclean : σ.clean = true)
    (hfit : CountFits P.c) {a : Nat} {f : Asg → Int} (ha : Denotes P w a f) (h1 : TermOK P.c 1) :
    Answers P w (.structuralImportance a)
      (.rat (countValue P.c.n P.c.dom f 1 / (allAsg P.c.n P.c.dom).length)) := by
  obtain ⟨f', hf', e1⟩ := (reachable_rel hP h).of_denotes ha
  obtain ⟨o, e, ho⟩ := answers (k := .structuralImportance a) hP h
    ⟨hclean, hfit, ⟨f', hf'⟩, fun m hm hA => h1.2 hA m hm⟩ (fun _ => rfl)
  rw [ho, hf'.fn, e1.countValue] at e
  exact e

/-- `birnbaum_importance(pr, d)` of a derivative is the probability that it is 1. -/
theorem C36_birnbaum_importance_partial (hP : P.OK) (h : Reachable P w σ) (hclean : σ.clean = true)
    {a : Nat} {f : Asg → Int} (ha : Denotes P w a f) (hf : Defined P.c f) {pr : Nat → Nat → Rat}
    (hpr : SumsToOne P.c.n P.c.dom pr) :
    Answers P w (.birnbaumImportance pr a)
      (.rat (probability P.c.n P.c.dom pr fun x => decide (f x = 1))) := by
  obtain ⟨f', hf', e1⟩ := (reachable_rel hP h).of_denotes ha
  obtain ⟨o, e, ho⟩ := answers (k := .birnbaumImportance pr a) hP h
    ⟨hclean, hpr, f', hf', e1.defined hf⟩ (fun _ => rfl)
  rw [ho, hf'.fn, e1.probability pr fun v => decide (v = 1)] at e
  exact e

/-- `satisfy_count(v, d)` of a reliability manager, which counts with the data members. -/
theorem C36_satisfy_count_partial (hP : P.OK) (h : Reachable P w σ) (hclean : σ.clean = true)
    (hfit : CountFits P.c) {a : Nat} {f : Asg → Int} (ha : Denotes P w a f) {s : Int}
    (hs : ∀ m, P.c.fixedDom = some m → P.c.asserts = true → s < m) :
    Answers P w (.satisfyCountData s a) (.int (countValue P.c.n P.c.dom f s : Nat)) := by
  obtain ⟨f', hf', e1⟩ := (reachable_rel hP h).of_denotes ha
  obtain ⟨o, e, ho⟩ := answers (k := .satisfyCountData s a) hP h ⟨hclean, hfit, ⟨f', hf'⟩, hs⟩
    (fun _ => rfl)
  rw [ho, hf'.fn, e1.countValue] at e
  exact e

/-- x0 ∧ x1 over three variables is 1 on a quarter of the assignments. -/
example : ∃ w σ, Reachable bdd3 w σ ∧ Answers bdd3 w (.structuralImportance 2) (.rat (1 / 4)) ∧
    Answers bdd3 w (.stateFrequency 1 2) (.rat (1 / 4)) ∧
    Answers bdd3 w (.satisfyCountData 1 2) (.int 2) ∧
    Answers bdd3 w (.birnbaumImportance demoPr 2) (.rat (1 / 6)) := by
  obtain ⟨w, h⟩ := bdd3_world
  have hd := (reachable_rel bdd3_ok h).denotes (a := 2) rfl
  have h1 := C36_structural_importance_partial bdd3_ok h rfl (show 3 < 63 by decide) hd term1_bdd3
  have h2 := C36_state_frequency_partial bdd3_ok h rfl (show 3 < 63 by decide) hd (s := 1)
    (fun m hm _ => by cases hm; decide)
  have h3 := C36_satisfy_count_partial bdd3_ok h rfl (show 3 < 63 by decide) hd (s := 1)
    (fun m hm _ => by cases hm; decide)
  have h4 := C36_birnbaum_importance_partial bdd3_ok h rfl hd (bdd3_defined (by simp)) demoPr_sums
  have e : countValue bdd3.c.n bdd3.c.dom (fun x => Op.AND.val (x 0) (x 1)) 1 = 2 := by decide +kernel
  have e' : (allAsg bdd3.c.n bdd3.c.dom).length = 8 := by decide +kernel
  rw [e, e'] at h1 h2
  rw [e] at h3
  rw [show probability bdd3.c.n bdd3.c.dom demoPr (fun x => decide (Op.AND.val (x 0) (x 1) = 1))
      = 1 / 6 from by decide +kernel] at h4
  rw [show ((2 : Nat) : Rat) / ((8 : Nat) : Rat) = 1 / 4 from by decide +kernel] at h1 h2
  exact ⟨w, _, h, h1, h2, h3, h4⟩

/-! ### C54 Fussell-Vesely importance -/

/-- `fussell_vesely_importance(pr, d, u, s, i)` of a derivative `d` is
(pr[i][0] + … + pr[i][s-1]) · P(the vector lies below one where `d` is 1) / u.

Missing for the full property: `d` must be layered with respect to the current order (always so if `d` stays
1 when components get worse, see `C54_closed_partial`; in general the answer is too small, see
`C54_violated`, or uninitialised data is read, see `C54_violated_marks`); assertions and `Undefined` as in
C29; the diagrams must be canonical. -/
theorem C54_fussell_vesely_partial (hP : P.OK) (h : Reachable P w σ) (hauto : σ.auto = false) (hclean : σ.clean = true)
    (hcanon : σ.canon = true) {a : Nat} {f : Asg → Int} (ha : Denotes P w a f)
    (hf : ∀ x, InDomain P.c.n P.c.dom x → f x = 0 ∨ f x = 1) (hl : Layered P.c.n P.c.dom σ.order f)
    {pr : Nat → Nat → Rat} (hpr : SumsToOne P.c.n P.c.dom pr) {u : Rat} (hu : u ≠ 0) {s i : Nat}
    (hi : i < P.c.n) :
    Answers P w (.fussellVesely pr u s i a)
      (.rat (((List.range s).map (pr i)).sum *
        probability P.c.n P.c.dom pr (fun x => decide (Covered P.c.n P.c.dom f x)) / u)) := by
  obtain ⟨f', hf', e1⟩ := (reachable_rel hP h).of_denotes ha
  obtain ⟨o, e, ho⟩ := answers (k := .fussellVesely pr u s i a) hP h
    ⟨hclean, hcanon, hpr, hu, hi, f', hf', fun x hx => by rw [e1 x hx]; exact hf x hx,
      layered_congr e1 hl⟩ (fun _ => rfl)
  rw [ho, hf'.fn] at e
  simp only [covered_congr e1] at e
  exact e

/-- … for a derivative that stays 1 when components get worse this is
(pr[i][0] + … + pr[i][s-1]) · P(`d` = 1) / u. -/
theorem C54_closed_partial (hP : P.OK) (h : Reachable P w σ) (hauto : σ.auto = false) (hclean : σ.clean = true)
    (hcanon : σ.canon = true) {a : Nat} {f : Asg → Int} (ha : Denotes P w a f)
    (hf : ∀ x, InDomain P.c.n P.c.dom x → f x = 0 ∨ f x = 1)
    (hc : ∀ x y, InDomain P.c.n P.c.dom y → (∀ i, i < P.c.n → x i ≤ y i) → f y = 1 → f x = 1)
    {pr : Nat → Nat → Rat} (hpr : SumsToOne P.c.n P.c.dom pr) {u : Rat} (hu : u ≠ 0) {s i : Nat}
    (hi : i < P.c.n) :
    Answers P w (.fussellVesely pr u s i a)
      (.rat (((List.range s).map (pr i)).sum *
        probability P.c.n P.c.dom pr (fun x => decide (f x = 1)) / u)) := by
  have e := C54_fussell_vesely_partial hP h hauto hclean hcanon ha hf (layered_of_closed hc) hpr hu (s := s) hi
  have e2 : ∀ x ∈ allAsg P.c.n P.c.dom,
      decide (Covered P.c.n P.c.dom f x) = decide (f x = 1) := by
    intro x hx
    refine decide_eq_decide.2 ⟨fun ⟨y, hy, hle, h1⟩ => ?_, fun h1 => ⟨x, hx, fun _ _ => le_refl _, h1⟩⟩
    exact hc x y (fun i hi => ((mem_assignments List.nodup_range).1 hy).1 i (List.mem_range.2 hi)) hle h1
  unfold probability at e ⊢
  rwa [List.filter_congr e2] at e

/-- x0 ∧ x1 over three variables, order 2, 0, 1: every vector lies below one where it is 1, so the answer
is pr[0][0] / u. -/
example : ∃ w σ, Reachable bdd3 w σ ∧
    Answers bdd3 w (.fussellVesely demoPr (1 / 4) 1 0 2) (.rat 2) := by
  obtain ⟨w, h⟩ := bdd3_world
  have hd := (reachable_rel bdd3_ok h).denotes (a := 2) rfl
  have hl : Layered bdd3.c.n bdd3.c.dom bdd3State.order fun x => Op.AND.val (x 0) (x 1) := by
    intro l i y a b ho hy hab hb
    have hb' : b < 2 := hb
    obtain rfl : a = 0 := by omega
    have h0 : y 0 < 2 := hy 0 (by decide)
    match l, ho with
    | 0, ho =>
        cases ho
        exact .inr fun z hz e => ⟨z, hz, fun _ _ => le_refl _, e⟩
    | 1, ho =>
        cases ho
        refine .inl fun z hz => ?_
        have h1 : z 1 < 2 := hz 1 (by decide)
        show Op.AND.val ((0 : Nat) : Int) (z 1) ≠ 1
        interval_cases z 1 <;> decide
    | 2, ho =>
        cases ho
        refine .inl fun z hz => ?_
        show Op.AND.val (y 0) ((0 : Nat) : Int) ≠ 1
        interval_cases y 0 <;> decide
    | l + 3, ho => cases ho
  have e := C54_fussell_vesely_partial bdd3_ok h rfl rfl rfl hd (bdd3_bits _ (by simp)) hl demoPr_sums
    (u := 1 / 4) (by norm_num) (s := 1) (i := 0) (by decide)
  have e1 : ∀ x ∈ allAsg bdd3.c.n bdd3.c.dom,
      decide (Covered bdd3.c.n bdd3.c.dom (fun x => Op.AND.val (x 0) (x 1)) x) = true := by
    decide +kernel
  unfold probability at e
  rw [List.filter_eq_self.2 e1, show ((List.range 1).map (demoPr 0)).sum *
    ((allAsg bdd3.c.n bdd3.c.dom).map (weight demoPr (List.range bdd3.c.n))).sum / (1 / 4) = 2 from by
      decide +kernel] at e
  exact ⟨w, _, h, e⟩

/-- ¬x0 ∧ ¬x1 stays 1 when components get worse; it is 1 with probability 1/2 · 2/3 = 1/3. -/
example : ∃ w σ, Reachable bdd3 w σ ∧
    Answers bdd3 w (.fussellVesely demoPr (1 / 4) 1 0 3) (.rat (2 / 3)) := by
  obtain ⟨w, h⟩ := Reachable.build (σ' := { bdd3State with
      slots := bdd3State.slots ++ [some fun x => Op.NOR.val (x 0) (x 1)] }) bdd3_ok bdd3_world
    (.apply Op.NOR 0 1) ⟨rfl, rfl, fun x => (x 0 : Int), fun x => (x 1 : Int), rfl, rfl,
      opOK_NOR term1_bdd3 (bits_x (by decide) rfl) (bits_x (by decide) rfl)⟩ (fun _ => rfl)
  have hd := (reachable_rel bdd3_ok h).denotes (a := 3) rfl
  have e := C54_closed_partial bdd3_ok h rfl rfl rfl hd
    (fun x hx => by
      have h0 : x 0 < 2 := hx 0 (by decide)
      have h1 : x 1 < 2 := hx 1 (by decide)
      interval_cases x 0 <;> interval_cases x 1 <;> decide)
    (fun x y hy hle => by
      have h0 : y 0 < 2 := hy 0 (by decide)
      have h1 : y 1 < 2 := hy 1 (by decide)
      have l0 : x 0 ≤ y 0 := hle 0 (by decide)
      have l1 : x 1 ≤ y 1 := hle 1 (by decide)
      interval_cases y 0 <;> interval_cases y 1 <;> interval_cases x 0 <;> interval_cases x 1 <;> decide)
    demoPr_sums (u := 1 / 4) (by norm_num) (s := 1) (i := 0) (by decide)
  rw [show ((List.range 1).map (demoPr 0)).sum *
    probability bdd3.c.n bdd3.c.dom demoPr (fun x => decide (Op.NOR.val (x 0) (x 1) = 1)) / (1 / 4) = 2 / 3
      from by decide +kernel] at e
  exact ⟨w, _, h, e⟩

end Properties
end Teddy
