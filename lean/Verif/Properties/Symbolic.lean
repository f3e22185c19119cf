import Verif.Proofs.Symbolic
import Verif.Properties.Reliability
import Verif.Properties.Violations
import Mathlib.Analysis.Complex.ExponentialBounds

/-!
# Distributions over time and symbolic availability
-/

namespace Teddy
namespace Properties

open SM Spec

variable {P : Setup} {w : World} {σ : SState}

/-! ### C63 symbolic availability -/

theorem cast_sums {pr : Nat → Nat → Rat} {n : Nat} {dom : Nat → Nat}
    (h : SumsToOne n dom fun i k => (pr i k : ℝ)) : SumsToOne n dom pr := by
  intro i hi
  have := h i hi
  have e : ((((List.range (dom i)).map (pr i)).sum : Rat) : ℝ) = 1 := by
    rw [← this]
    generalize List.range (dom i) = l
    induction l with
    | nil => simp
    | cons a l ih => simp [ih]
  exact_mod_cast e

theorem cast_weight {pr : Nat → Nat → Rat} {vars : List Nat} {x : Asg} :
    ((weight pr vars x : Rat) : ℝ) = weight (fun i k => (pr i k : ℝ)) vars x := by
  unfold weight
  induction vars with
  | nil => simp
  | cons a l ih => simp [ih]

theorem cast_probability {pr : Nat → Nat → Rat} {n : Nat} {dom : Nat → Nat} {φ : Asg → Bool} :
    ((probability n dom pr φ : Rat) : ℝ) = probability n dom (fun i k => (pr i k : ℝ)) φ := by
  unfold probability
  generalize (allAsg n dom).filter φ = l
  induction l with
  | nil => simp
  | cons a l ih => simp [ih, cast_weight]

/-- `symbolic_availability(state, pr, d)` returns an expression whose value at every time `t` at which the
expressions in `pr` are distributions is the availability of the system at that time: the sum, over the assignments
on which `d` is at least `state`, of the products of the probabilities of the values at time `t`.  The manager does not
change.

Missing for the full property: as for `calculate_availability`, `d` must not take the value `Undefined`, and no
`from_expression_tree` before (`C63_violated`). -/
theorem C63_symbolic_availability_partial (hP : P.OK) (h : Reachable P w σ) (hclean : σ.clean = true)
    {a : Nat} {f : Asg → Int} (ha : Denotes P w a f) (hf : Defined P.c f) (state : Int) (pr : Nat → Nat → Sym) :
    ∃ e, symbolicAvailabilityOf P.c state pr a w = .ok (e, w) ∧
      ∀ t : ℝ, SumsToOne P.c.n P.c.dom (fun i k => (pr i k).eval t) →
        e.eval t = (((allAsg P.c.n P.c.dom).filter fun x => f x ≥ state).map
          (weight (fun i k => (pr i k).eval t) (List.range P.c.n))).sum := by
  have R := reachable_rel hP h
  obtain ⟨f', hf', e1⟩ := R.of_denotes ha
  obtain ⟨p, hp, hd⟩ := R.has a f' hf'
  obtain ⟨e, s', he, hs, hv⟩ := symbolicAvailability_ok R.good (R.used hp) (R.cleanBelow hclean p) hd
    (e1.defined hf) state pr
  refine ⟨e, ?_, ?_⟩
  · unfold symbolicAvailabilityOf
    rw [bind_run, (rootOf_ok hp : rootOf a w = _)]
    dsimp only [onMgr]
    have he' : symbolicAvailability P.c state pr p w.mgr = .ok (e, s') := he
    rw [he', hs]
  · intro t ht
    refine (hv t ht).trans ?_
    unfold probability
    congr 2
    refine List.filter_congr ?_
    intro x hx
    have hx' : InDomain P.c.n P.c.dom x := fun i hi =>
      ((mem_assignments List.nodup_range).1 hx).1 i (List.mem_range.2 hi)
    rw [e1 x hx']

/-- The expression agrees with `calculate_availability` on the probabilities of any time at which they are rational
numbers (a `double` is one). -/
theorem C63_agrees_partial (hP : P.OK) (h : Reachable P w σ) (hclean : σ.clean = true) {a : Nat} {f : Asg → Int}
    (ha : Denotes P w a f) (hf : Defined P.c f) (state : Int) (pr : Nat → Nat → Sym) {t : ℝ}
    {q : Nat → Nat → Rat} (hq : ∀ i k, (pr i k).eval t = q i k)
    (hs : SumsToOne P.c.n P.c.dom fun i k => (pr i k).eval t) :
    ∃ e r, symbolicAvailabilityOf P.c state pr a w = .ok (e, w) ∧
      Answers P w (.calculateAvailability state q a) (.rat r) ∧ e.eval t = r := by
  obtain ⟨e, he, hv⟩ := C63_symbolic_availability_partial hP h hclean ha hf state pr
  obtain ⟨f', hf', e1⟩ := (reachable_rel hP h).of_denotes ha
  have hq' : (fun i k => (pr i k).eval t) = fun i k => (q i k : ℝ) := by
    funext i k; exact hq i k
  have hsq : SumsToOne P.c.n P.c.dom q := cast_sums (by rw [← hq']; exact hs)
  obtain ⟨o, e', ho⟩ := answers (k := .calculateAvailability state q a) hP h
    ⟨hclean, hsq, f', hf', e1.defined hf⟩ (fun _ => rfl)
  rw [ho, hf'.fn, e1.probability q fun v => decide (v ≥ state)] at e'
  refine ⟨e, _, he, e', ?_⟩
  rw [hv t hs, hq', cast_probability]
  rfl

/-- The table of the shipped example `time_reliability`. -/
def timeTable : Nat → Nat → Sym :=
  Sym.table [[.complement (.weibull 1 1), .weibull 1 1], [.complement (.exponential (1 / 2)), .exponential (1 / 2)],
    [.complement (.exponential (1 / 2)), .exponential (1 / 2)]]

/-- Expressions made by `complement` or `as_matrix` sum to one at all times. -/
theorem complement_sums {n : Nat} {dom : Nat → Nat} (hd : ∀ i, i < n → dom i = 2) {pr : Nat → Nat → Sym}
    (hc : ∀ i, i < n → pr i 0 = .complement (pr i 1)) (t : ℝ) : SumsToOne n dom fun i k => (pr i k).eval t := by
  intro i hi
  rw [hd i hi]
  simp [List.range_succ, hc i hi, Sym.complement, Sym.eval]

theorem timeTable_sums (t : ℝ) : SumsToOne bdd3.c.n bdd3.c.dom fun i k => (timeTable i k).eval t :=
  complement_sums (fun _ _ => rfl) (fun i hi => by
    have : i < 3 := hi
    interval_cases i <;> rfl) t

/-- The symbolic availability of x0 ∧ x1 with the table of `time_reliability`: at time `t` it is the product of the
two values. -/
example : ∃ w σ, Reachable bdd3 w σ ∧ ∃ e, symbolicAvailabilityOf bdd3.c 1 timeTable 2 w = .ok (e, w) ∧
    ∀ t : ℝ, e.eval t = Real.exp (-t) * (1 / 2 * Real.exp (-(1 / 2) * t)) := by
  obtain ⟨w, h⟩ := bdd3_world
  refine ⟨w, _, h, ?_⟩
  obtain ⟨e, he, hv⟩ := C63_symbolic_availability_partial (a := 2) bdd3_ok h rfl
    ((reachable_rel bdd3_ok h).denotes rfl) (bdd3_defined (by simp)) 1 timeTable
  refine ⟨e, he, fun t => ?_⟩
  rw [hv t (timeTable_sums t)]
  have hA : ((allAsg bdd3.c.n bdd3.c.dom).filter fun x => decide (Op.AND.val (x 0) (x 1) ≥ 1)).map
      (fun x => (List.range 3).map x) = [[1, 1, 0], [1, 1, 1]] := by decide +kernel
  have hw : ∀ x : Asg, weight (fun i k => (timeTable i k).eval t) (List.range bdd3.c.n) x =
      (timeTable 0 (((List.range 3).map x).getD 0 0)).eval t * (timeTable 1 (((List.range 3).map x).getD 1 0)).eval t *
        (timeTable 2 (((List.range 3).map x).getD 2 0)).eval t := by
    intro x
    simp [weight, bdd3, List.range_succ, mul_assoc]
  rw [List.map_congr_left (fun x _ => hw x)]
  have : (((allAsg bdd3.c.n bdd3.c.dom).filter fun x => decide (Op.AND.val (x 0) (x 1) ≥ 1)).map fun x : Asg =>
      (timeTable 0 (((List.range 3).map x).getD 0 0)).eval t * (timeTable 1 (((List.range 3).map x).getD 1 0)).eval t *
        (timeTable 2 (((List.range 3).map x).getD 2 0)).eval t) =
      [[1, 1, 0], [1, 1, 1]].map fun l : List Nat => (timeTable 0 (l.getD 0 0)).eval t *
        (timeTable 1 (l.getD 1 0)).eval t * (timeTable 2 (l.getD 2 0)).eval t := by
    rw [← hA, List.map_map]
    rfl
  rw [this]
  simp [timeTable, Sym.table, Sym.weibull, Sym.exponential, Sym.complement, Sym.eval]
  ring

theorem asMatrix_table {es : List Sym} {i k : Nat} (hi : i < es.length) (hk : k < 2) :
    Sym.table (Sym.asMatrix es) i k = if k = 1 then es.getD i (.num 0) else .complement (es.getD i (.num 0)) := by
  obtain rfl | rfl : k = 0 ∨ k = 1 := by omega
  all_goals simp [Sym.table, Sym.asMatrix, List.getD, hi]

/-- `symbolic_availability(state, as_matrix(es), d)` for components with two states: at every time `t` the value of the
expression is the sum, over the assignments on which `d` is at least `state`, of the products of the value of the
expression of each component that works and one minus the value for each component that does not.

Missing for the full property: as for `C63_symbolic_availability_partial`. -/
theorem C63_as_matrix_partial (hP : P.OK) (h : Reachable P w σ) (hclean : σ.clean = true)
    {a : Nat} {f : Asg → Int} (ha : Denotes P w a f) (hf : Defined P.c f) (hb : ∀ i, i < P.c.n → P.c.dom i = 2)
    (state : Int) {es : List Sym} (hlen : P.c.n ≤ es.length) :
    ∃ e, symbolicAvailabilityOf P.c state (Sym.table (Sym.asMatrix es)) a w = .ok (e, w) ∧
      ∀ t : ℝ, e.eval t = (((allAsg P.c.n P.c.dom).filter fun x => f x ≥ state).map fun x =>
        ((List.range P.c.n).map fun i =>
          if x i = 1 then (es.getD i (.num 0)).eval t else 1 - (es.getD i (.num 0)).eval t).prod).sum := by
  obtain ⟨e, he, hv⟩ := C63_symbolic_availability_partial hP h hclean ha hf state (Sym.table (Sym.asMatrix es))
  refine ⟨e, he, fun t => ?_⟩
  rw [hv t (complement_sums hb (fun i hi => by
    rw [asMatrix_table (by omega) (by decide), asMatrix_table (by omega) (by decide)]; rfl) t)]
  congr 1
  refine List.map_congr_left fun x hx => ?_
  have hx' := (mem_assignments List.nodup_range).1 (List.mem_of_mem_filter hx)
  unfold weight
  congr 1
  refine List.map_congr_left fun i hi => ?_
  have hin := List.mem_range.1 hi
  have h2 := hx'.1 i hi
  rw [hb i hin] at h2
  dsimp only
  rw [asMatrix_table (by omega) h2]
  split
  · rfl
  · simp [Sym.complement, Sym.eval]

/-- The table of `time_reliability` is `as_matrix` of its expressions. -/
example : Sym.table (Sym.asMatrix [.weibull 1 1, .exponential (1 / 2), .exponential (1 / 2)]) = timeTable := rfl

example : ∃ w σ, Reachable bdd3 w σ ∧ ∃ e, symbolicAvailabilityOf bdd3.c 1
    (Sym.table (Sym.asMatrix [.weibull 1 1, .exponential (1 / 2), .exponential (1 / 2)])) 2 w = .ok (e, w) := by
  obtain ⟨w, h⟩ := bdd3_world
  obtain ⟨e, he, _⟩ := C63_as_matrix_partial (a := 2) bdd3_ok h rfl ((reachable_rel bdd3_ok h).denotes rfl)
    (bdd3_defined (by simp)) (fun _ _ => rfl) 1 (es := [.weibull 1 1, .exponential (1 / 2), .exponential (1 / 2)])
    (by decide)
  exact ⟨w, _, h, e, he⟩

/-- Construct a manager, run a program on it and compute a symbolic availability. -/
def runSymbolic (P : Setup) (ks : List Call) (state : Int) (pr : Nat → Nat → Sym) (a : Nat) : Except Err Sym :=
  match construct P.c P.pool P.order with
  | .ok m => match execAll P.c ks ⟨m, []⟩ with
    | .ok (_, w) => match symbolicAvailabilityOf P.c state pr a w with
      | .ok (e, _) => .ok e
      | .error e => .error e
    | .error e => .error e
  | .error e => .error e

/-- **C63.** After `from_expression_tree`, which leaves marks behind, the traversal skips a node: its expression is
looked up but was never stored, and the end iterator of the map is dereferenced. -/
theorem C63_violated :
    runSymbolic (bdd2 100 50) [.variableD 0, .variableD 1, .apply Op.AND 0 1,
      .fromExpr (.op min (.var 1) (.const 0))] 1 timeTable 2 = .error .nullDeref ∧
    (runSymbolic (bdd2 100 50) [.variableD 0, .variableD 1, .apply Op.AND 0 1] 1 timeTable 2).toOption.isSome := by
  decide +kernel

/-! ### C64 distributions -/

/-- After `at_time(ds, t)` every distribution converts to its value at time `t`, whatever times were set before. -/
theorem C64_at_time (ds : List Dist) (t : ℝ) : (Dist.atTime ds t).map Dist.value = ds.map (Dist.at' t) := by
  unfold Dist.atTime
  rw [List.map_map]
  refine List.map_congr_left ?_
  intro d _
  cases d <;> rfl

/-- A distribution for which no time has been set converts to its value at time 0. -/
theorem C64_new (rate scale shape v : ℝ) (dist : ℝ → ℝ) :
    (Dist.mkExponential rate).value = (Dist.mkExponential rate).at' 0 ∧
    (Dist.mkWeibull scale shape).value = (Dist.mkWeibull scale shape).at' 0 ∧
    (Dist.mkConstant v).value = v ∧ (Dist.mkCustom dist).value = dist 0 :=
  ⟨rfl, rfl, rfl, rfl⟩

/-- `at_time` of a matrix. -/
theorem C64_at_time_matrix (ds : List (List Dist)) (t : ℝ) :
    (Dist.atTimeM ds t).map (List.map Dist.value) = ds.map (List.map (Dist.at' t)) := by
  unfold Dist.atTimeM
  rw [List.map_map]
  refine List.map_congr_left ?_
  intro row _
  exact C64_at_time row t

/-- The symbolic distributions have the same values as the numeric ones made with the same arguments; for Weibull
distributions only if the two arguments are exchanged (`C64_violated_weibull`), and at times where they have a value
(`C64_violated_unbounded`). -/
theorem C64_symbolic_partial (t : ℝ) :
    (∀ rate : Rat, (Sym.exponential rate).eval t = (Dist.mkExponential rate).at' t) ∧
    (∀ p : Rat, (Sym.constant p).eval t = (Dist.mkConstant p).at' t) ∧
    (∀ shape scale : Rat, (Dist.mkWeibull scale shape).Regular t →
      (Sym.weibull shape scale).eval t = (Dist.mkWeibull scale shape).at' t) ∧
    (∀ e : Sym, (Sym.complement e).eval t = 1 - e.eval t) := by
  refine ⟨?_, ?_, ?_, ?_⟩
  · intro rate
    simp [Sym.exponential, Sym.eval, Dist.mkExponential, Dist.at']
  · intro p
    simp [Sym.constant, Sym.eval, Dist.mkConstant, Dist.at']
  · intro shape scale _
    simp [Sym.weibull, Sym.eval, Dist.mkWeibull, Dist.at', div_eq_mul_inv]
  · intro e
    simp [Sym.complement, Sym.eval]

/-- **C64.** `probs::weibull(1, 2)` and `symprobs::weibull(1, 2)` are different distributions: at time 1 the first is
2 / e, the second is less than 1 / 2. -/
theorem C64_violated_weibull :
    (Dist.mkWeibull (1 : Rat) (2 : Rat)).at' 1 = 2 * Real.exp (-1) ∧
    (Sym.weibull 1 2).eval 1 = 1 / 2 * Real.exp (-(1 / 2)) ∧
    (Sym.weibull 1 2).eval 1 < (Dist.mkWeibull (1 : Rat) (2 : Rat)).at' 1 := by
  have h1 : (Dist.mkWeibull (1 : Rat) (2 : Rat)).at' 1 = 2 * Real.exp (-1) := by
    simp [Dist.mkWeibull, Dist.at']
  have h2 : (Sym.weibull 1 2).eval 1 = 1 / 2 * Real.exp (-(1 / 2)) := by
    simp [Sym.weibull, Sym.eval]
  refine ⟨h1, h2, ?_⟩
  rw [h1, h2]
  have h3 : Real.exp (-(1 / 2)) < 1 := by
    rw [Real.exp_lt_one_iff]
    norm_num
  have h4 : (1 : ℝ) / 4 < Real.exp (-1) := by
    rw [Real.exp_neg, ← one_div]
    have := Real.exp_one_lt_d9
    exact one_div_lt_one_div_of_lt (Real.exp_pos 1) (by linarith)
  linarith

/-- **C64.** The values of `exponential` are densities, not probabilities: for rate 2 the value at time 1/4 is greater
than one, so that the "probability" of failure, its complement, is negative. -/
theorem C64_violated_density :
    1 < (Dist.mkExponential 2).at' (1 / 4) ∧ (Sym.complement (.exponential 2)).eval (1 / 4) < 0 := by
  have h : (1 : ℝ) / 2 < Real.exp (-(1 / 2)) := by
    have := Real.add_one_lt_exp (x := -(1 / 2 : ℝ)) (by norm_num)
    linarith
  have e : (-2 : ℝ) * (1 / 4) = -(1 / 2) := by norm_num
  constructor
  · simp only [Dist.mkExponential, Dist.at', e]
    linarith
  · simp only [Sym.complement, Sym.exponential, Sym.eval]
    have e' : ((-2 : Rat) : ℝ) * (1 / 4) = -(1 / 2) := by norm_num
    rw [e']
    norm_num
    norm_num at h
    linarith

/-- **C64.** A Weibull distribution with a shape below one has arbitrarily large values near time 0, and at time 0 itself, where
`std::pow` is called with zero and a negative exponent, no finite one.  `make_time_probability_vector` draws shapes
between 1/2 and 1, and `experiments/time_probs.cpp` starts at time 0. -/
theorem C64_violated_unbounded {scale shape : ℝ} (h0 : 0 < scale) (h1 : 0 < shape) (h2 : shape < 1) :
    (∀ B : ℝ, ∃ t, 0 < t ∧ B < (Dist.mkWeibull scale shape).at' t) ∧ ¬ (Dist.mkWeibull scale shape).Regular 0 := by
  constructor
  · intro B
    -- the value at `scale * u` is at least `shape / scale * u ^ (shape - 1) / e` for `u ≤ 1`
    let m : ℝ := max 1 ((|B| + 1) * scale / shape * Real.exp 1)
    have hm : 1 ≤ m := le_max_left _ _
    have hs : shape - 1 < 0 := by linarith
    let u : ℝ := m ^ (1 / (shape - 1))
    have hu : 0 < u := Real.rpow_pos_of_pos (by linarith) _
    have hu1 : u ≤ 1 := Real.rpow_le_one_of_one_le_of_nonpos hm (by
      rw [one_div]
      exact (inv_lt_zero.2 hs).le)
    have hum : u ^ (shape - 1) = m := by
      show (m ^ (1 / (shape - 1))) ^ (shape - 1) = m
      rw [← Real.rpow_mul (by linarith), one_div, inv_mul_cancel₀ hs.ne, Real.rpow_one]
    refine ⟨scale * u, by positivity, ?_⟩
    have hd : scale * u / scale = u := by field_simp
    simp only [Dist.mkWeibull, Dist.at', hd, hum]
    have he : Real.exp (-1) ≤ Real.exp (-u ^ shape) := by
      rw [Real.exp_le_exp]
      have := Real.rpow_le_one hu.le hu1 h1.le
      linarith
    have hp : 0 < shape / scale := by positivity
    calc B ≤ |B| := le_abs_self B
      _ < |B| + 1 := by linarith
      _ = shape / scale * ((|B| + 1) * scale / shape * Real.exp 1) * Real.exp (-1) := by
          rw [mul_assoc, mul_assoc, ← Real.exp_add]
          simp only [add_neg_cancel, Real.exp_zero, mul_one]
          field_simp
      _ ≤ shape / scale * m * Real.exp (-1) := by
          have : (|B| + 1) * scale / shape * Real.exp 1 ≤ m := le_max_right _ _
          gcongr
      _ ≤ shape / scale * m * Real.exp (-u ^ shape) := by
          gcongr
  · rintro (h | ⟨-, h⟩)
    · simp at h
    · linarith

/-- Shape 1/2 and scale 1. -/
example : (∃ t, 0 < t ∧ 1000 < (Dist.mkWeibull 1 (1 / 2)).at' t) ∧ ¬ (Dist.mkWeibull 1 (1 / 2)).Regular 0 :=
  have h := C64_violated_unbounded (scale := 1) (shape := 1 / 2) (by norm_num) (by norm_num) (by norm_num)
  ⟨h.1 1000, h.2⟩

/-- For rates up to one the values of `exponential` are between zero and one. -/
theorem C64_range_partial {rate t : ℝ} (h0 : 0 ≤ rate) (h1 : rate ≤ 1) (ht : 0 ≤ t) :
    0 ≤ (Dist.mkExponential rate).at' t ∧ (Dist.mkExponential rate).at' t ≤ 1 := by
  simp only [Dist.mkExponential, Dist.at']
  have h2 : Real.exp (-rate * t) ≤ 1 := by
    rw [Real.exp_le_one_iff]
    have := mul_nonneg h0 ht
    linarith
  have h3 := Real.exp_pos (-rate * t)
  exact ⟨by positivity, by nlinarith⟩

/-- The distributions of `time_reliability` at time 2, set first to time 1. -/
example : (Dist.atTime (Dist.atTime [.mkWeibull 1 1, .mkExponential (1 / 2), .mkConstant (1 / 3)] 1) 2).map
    Dist.value = [Real.exp (-2), 1 / 2 * Real.exp (-1), 1 / 3] := by
  rw [C64_at_time]
  simp [Dist.atTime, Dist.setT, Dist.mkWeibull, Dist.mkExponential, Dist.mkConstant, Dist.at']

end Properties
end Teddy
