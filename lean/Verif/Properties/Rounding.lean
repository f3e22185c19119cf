import Verif.Proofs.RoundingLevel
import Verif.Proofs.RoundingCount
import Verif.Properties.Reliability
import Verif.Properties.Dot

/-!
# Probabilities (C70) and counts (C71) in floating point
-/

namespace Teddy
namespace Properties

open SM Spec

variable {P : Setup} {w : World} {σ : SState}

theorem onSlot {α : Type} {m : Ptr → M α} {a p : Nat} {r : α} {s' : Mgr}
    (hp : w.slots[a]? = some (some p)) (h : m p w.mgr = .ok (r, s')) :
    (do let p ← rootOf a; onMgr (m p) : SM World α) w = .ok (r, { w with mgr := s' }) := by
  rw [bind_run, (rootOf_ok hp : rootOf a w = _)]
  dsimp only [onMgr]
  rw [h]

/-! ### C70 probabilities -/

/-- In `double` arithmetic, `calculate_probability`, `calculate_availability` and `calculate_unavailability` return
numbers whose distance from the sum of products they stand for is at most `roundingError`: relative to that sum,
`2 n ((D + 1) 2⁻⁵³ + 2 δ)` for `n` variables with at most `D` values and rows that sum to one up to `δ`.

Missing for the full property: no `from_expression_tree` before (`C24_violated`). -/
theorem C70_accuracy_partial (hP : P.OK) (h : Reachable P w σ) (hclean : σ.clean = true)
    {a : Nat} {f : Asg → Int} (ha : Denotes P w a f) (hf : Defined P.c f) {pr : Nat → Nat → Rat} {δ : Rat}
    (hpr : NearlySumsToOne δ P.c.n P.c.dom pr) {D : Nat} (hD : ∀ i, i < P.c.n → P.c.dom i ≤ D)
    (hsmall : P.c.n * (((D : Rat) + 1) / 2 ^ 53 + 2 * δ) ≤ 1 / 2) (s : Int) :
    (0 ≤ s → ∃ r w', calculateProbabilityOf double P.c s pr a w = .ok (r, w') ∧
      |r - probability P.c.n P.c.dom pr (fun x => decide (f x = s))| ≤
        roundingError P.c.n D δ (probability P.c.n P.c.dom pr fun x => decide (f x = s))) ∧
    (∃ r w', calculateAvailabilityOf double P.c s pr a w = .ok (r, w') ∧
      |r - probability P.c.n P.c.dom pr (fun x => decide (f x ≥ s))| ≤
        roundingError P.c.n D δ (probability P.c.n P.c.dom pr fun x => decide (f x ≥ s))) ∧
    ∃ r w', calculateUnavailabilityOf double P.c s pr a w = .ok (r, w') ∧
      |r - probability P.c.n P.c.dom pr (fun x => decide (f x < s))| ≤
        roundingError P.c.n D δ (probability P.c.n P.c.dom pr fun x => decide (f x < s)) := by
  have R := reachable_rel hP h
  obtain ⟨f', hf', e1⟩ := R.of_denotes ha
  obtain ⟨p, hp, hd⟩ := R.has a f' hf'
  have values : ∀ φ : Int → Bool, Ok (do
      let states ← terminalValues φ
      ntpsPostR double P.c states pr p) w.mgr (fun v s' =>
      |v - probability P.c.n P.c.dom pr (fun x => φ (f' x))| ≤
        roundingError P.c.n D δ (probability P.c.n P.c.dom pr fun x => φ (f' x)) ∧ DSt w.mgr s') := fun φ =>
    double_result hpr hsmall fun _ _ _ _ hpr' F =>
      ntpsValuesR_ok double_rounds F R.good (R.used hp) (R.cleanBelow hclean p) hd (e1.defined hf) hD hpr' φ
  refine ⟨fun hs => ?_, ?_, ?_⟩
  · obtain ⟨r, s', e, hr, _⟩ := double_result (φ := fun x => decide (f' x ∈ [s])) hpr hsmall
      fun _ _ _ _ hpr' F => ntpsPostR_ok double_rounds F R.good (R.used hp) (R.cleanBelow hclean p) hd
        (e1.defined hf) hD hpr' (selected := [s]) (by simpa using hs)
    have ep : probability P.c.n P.c.dom pr (fun x => decide (f' x ∈ [s])) =
        probability P.c.n P.c.dom pr fun x => decide (f x = s) := by
      rw [← e1.probability pr fun v => decide (v = s)]
      congr 1
      funext x
      simp
    rw [ep] at hr
    exact ⟨r, _, onSlot hp e, hr⟩
  · obtain ⟨r, s', e, hr, _⟩ := values fun v => decide (v ≥ s)
    rw [e1.probability pr fun v => decide (v ≥ s)] at hr
    exact ⟨r, _, onSlot (m := calculateAvailabilityR double P.c s pr) hp e, hr⟩
  · obtain ⟨r, s', e, hr, _⟩ := values fun v => decide (v < s)
    rw [e1.probability pr fun v => decide (v < s)] at hr
    exact ⟨r, _, onSlot (m := calculateUnavailabilityR double P.c s pr) hp e, hr⟩

theorem true_error {n D : Nat} {ε A B r : Rat} (ε0 : 0 ≤ ε) (hA : A ≤ 1)
    (hd : |B - A| ≤ (1 + ε) ^ n - 1) (hs : n * (((D : Rat) + 1) / 2 ^ 53 + 2 * ε) ≤ 1 / 2)
    (hr : |r - B| ≤ roundingError n D ε B) :
    |r - A| ≤ 4 * (n * ((D + 1) / 2 ^ 53 + 2 * ε)) + 4 * (D * n) / 2 ^ 1075 := by
  have u0 : 0 ≤ ((D : Rat) + 1) / 2 ^ 53 := by positivity
  have nu : 0 ≤ (n : Rat) * (((D : Rat) + 1) / 2 ^ 53) := by positivity
  have ne : 0 ≤ (n : Rat) * ε := by positivity
  have g := pow_growth (x := 0) (y := ε) (a := 0) (b := n) (le_refl _) ε0 (by push_cast; linarith)
  simp only [add_zero, one_pow, one_mul, Nat.cast_zero, mul_zero, zero_add] at g
  unfold roundingError at hr
  generalize 4 * ((D : Rat) * n) / 2 ^ 1075 = t at *
  obtain ⟨d1, d2⟩ := abs_le.1 hd
  obtain ⟨r1, r2⟩ := abs_le.1 hr
  have hB2 : B ≤ 3 / 2 := by linarith
  have e0 : 0 ≤ (n : Rat) * (((D : Rat) + 1) / 2 ^ 53 + 2 * ε) := by positivity
  have k := mul_le_mul_of_nonneg_left hB2 e0
  rw [abs_le]
  constructor <;> linarith

/-- If the entries of the matrix are not exactly the probabilities that are meant, but `ε` off in each row, the distance
from the true probability is at most `4 n ((D + 1) 2⁻⁵³ + 2 ε)`, up to underflow. -/
theorem C70_true_partial (hP : P.OK) (h : Reachable P w σ) (hclean : σ.clean = true)
    {a : Nat} {f : Asg → Int} (ha : Denotes P w a f) (hf : Defined P.c f) {pr q : Nat → Nat → Rat} {ε : Rat}
    (ε0 : 0 ≤ ε) (hpr : ∀ i, i < P.c.n → ∀ k, k < P.c.dom i → 0 ≤ pr i k ∧ 0 ≤ q i k)
    (hq : SumsToOne P.c.n P.c.dom q)
    (hoff : ∀ i, i < P.c.n → ((List.range (P.c.dom i)).map fun k => |pr i k - q i k|).sum ≤ ε) {D : Nat}
    (hD : ∀ i, i < P.c.n → P.c.dom i ≤ D)
    (hsmall : P.c.n * (((D : Rat) + 1) / 2 ^ 53 + 2 * ε) ≤ 1 / 2) (s : Int) :
    (0 ≤ s → ∃ r w', calculateProbabilityOf double P.c s pr a w = .ok (r, w') ∧
      |r - probability P.c.n P.c.dom q (fun x => decide (f x = s))| ≤
        4 * (P.c.n * ((D + 1) / 2 ^ 53 + 2 * ε)) + 4 * (D * P.c.n) / 2 ^ 1075) ∧
    (∃ r w', calculateAvailabilityOf double P.c s pr a w = .ok (r, w') ∧
      |r - probability P.c.n P.c.dom q (fun x => decide (f x ≥ s))| ≤
        4 * (P.c.n * ((D + 1) / 2 ^ 53 + 2 * ε)) + 4 * (D * P.c.n) / 2 ^ 1075) ∧
    ∃ r w', calculateUnavailabilityOf double P.c s pr a w = .ok (r, w') ∧
      |r - probability P.c.n P.c.dom q (fun x => decide (f x < s))| ≤
        4 * (P.c.n * ((D + 1) / 2 ^ 53 + 2 * ε)) + 4 * (D * P.c.n) / 2 ^ 1075 := by
  have hn := nearly_of_perturb (fun i hi k hk => (hpr i hi k hk).1) hq hoff
  have hp := fun φ => probability_perturb ε0 (fun i hi k hk => (hpr i hi k hk).1) (fun i hi k hk => (hpr i hi k hk).2)
    hq hoff φ
  obtain ⟨h1, ⟨r2, w2, e2, b2⟩, r3, w3, e3, b3⟩ := C70_accuracy_partial hP h hclean ha hf hn hD hsmall s
  refine ⟨fun hs => ?_, ⟨r2, w2, e2, ?_⟩, r3, w3, e3, ?_⟩
  · obtain ⟨r1, w1, e1, b1⟩ := h1 hs
    exact ⟨r1, w1, e1, true_error ε0 (hp _).2.1 (hp _).2.2 hsmall b1⟩
  · exact true_error ε0 (hp _).2.1 (hp _).2.2 hsmall b2
  · exact true_error ε0 (hp _).2.1 (hp _).2.2 hsmall b3

/-- The probabilities 1/2, 1/3, 1/4 as they are stored. -/
def storedPr : Nat → Nat → Rat := fun i k => double (demoPr i k)

/-- x0 ∧ x1 with probabilities 1/2 and 1/3, which is not a double: the result is 1/6 to fourteen digits. -/
example : ∃ w σ, Reachable bdd3 w σ ∧ ∃ r w', calculateProbabilityOf double bdd3.c 1 storedPr 2 w = .ok (r, w') ∧
    |r - 1 / 6| ≤ 1 / 10 ^ 14 := by
  obtain ⟨w, h⟩ := bdd3_world
  refine ⟨w, _, h, ?_⟩
  have hd := (reachable_rel bdd3_ok h).denotes (a := 2) rfl
  have := (C70_true_partial bdd3_ok h rfl hd (bdd3_defined (by simp)) (pr := storedPr) (q := demoPr)
    (ε := 1 / 2 ^ 53) (D := 2) (by norm_num) (by decide +kernel) demoPr_sums (by decide +kernel) (by decide)
    (by decide +kernel) 1).1 (by decide)
  rw [show probability bdd3.c.n bdd3.c.dom demoPr (fun x => decide (Op.AND.val (x 0) (x 1) = 1)) = 1 / 6 from by
    decide +kernel] at this
  obtain ⟨r, w', e, hr⟩ := this
  refine ⟨r, w', e, hr.trans ?_⟩
  decide +kernel

/-- `calculate_probabilities` in `double` arithmetic: what `get_probability`, `get_availability` and
`get_unavailability` return afterwards is off by at most `passingError`: relative to the exact sum,
`2 ((2 D + 2) N 2⁻⁵³ + 2 n δ)` for a diagram of `N` nodes, as `node_count` reports.

Missing for the full property: no `from_expression_tree` before (`C24_violated`). -/
theorem C70_passing_partial (hP : P.OK) (h : Reachable P w σ) (hclean : σ.clean = true)
    {a : Nat} {f : Asg → Int} (ha : Denotes P w a f) (hf : Defined P.c f) {pr : Nat → Nat → Rat} {δ : Rat}
    (hpr : NearlySumsToOne δ P.c.n P.c.dom pr) {D : Nat} (hD : ∀ i, i < P.c.n → P.c.dom i ≤ D) {N : Nat}
    (hN : exec P.c (.nodeCountOf a) w = .ok (.nat N, w))
    (hsmall : (2 * (D : Rat) + 2) * N / 2 ^ 53 + 2 * (P.c.n * δ) ≤ 1 / 2) :
    ∃ w', calculateProbabilitiesOf double P.c pr a w = .ok ((), w') ∧ ∀ s : Int,
      (0 ≤ s → s ≠ Undefined → ∃ r, onMgr (getProbability s) w' = .ok (r, w') ∧
        |r - probability P.c.n P.c.dom pr (fun x => decide (f x = s))| ≤
          passingError P.c.n D N δ (probability P.c.n P.c.dom pr fun x => decide (f x = s))) ∧
      (∃ r, onMgr (getAvailabilityR double s) w' = .ok (r, w') ∧
        |r - probability P.c.n P.c.dom pr (fun x => decide (f x ≥ s))| ≤
          passingError P.c.n D N δ (probability P.c.n P.c.dom pr fun x => decide (f x ≥ s))) ∧
      ∃ r, onMgr (getUnavailabilityR double s) w' = .ok (r, w') ∧
        |r - probability P.c.n P.c.dom pr (fun x => decide (f x < s))| ≤
          passingError P.c.n D N δ (probability P.c.n P.c.dom pr fun x => decide (f x < s)) := by
  have R := reachable_rel hP h
  obtain ⟨f', hf', e1⟩ := R.of_denotes ha
  obtain ⟨p, hp, hd⟩ := R.has a f' hf'
  obtain ⟨u, η, rd, eu0, eη0⟩ := double_rounds_some
  have u0 := rd.u0
  have u1 := rd.u1
  have η0 := rd.η0
  -- the number of nodes
  obtain ⟨k, s0, hk, rfl, vs, hvn, hvs, rfl⟩ := nodeCountOf_ok R.good.inv R.good.ord (R.used hp) (R.cleanBelow hclean p)
  have hNk : N = vs.length := by
    have : exec P.c (.nodeCountOf a) w = .ok (.nat vs.length, w) := by
      simp only [exec]
      rw [bind_ok (rootOf_ok hp), bind_ok (a := vs.length) (s' := w)]
      · rfl
      · simp only [onMgr]
        rw [show nodeCountOf P.c p w.mgr = _ from hk]
    rw [this] at hN
    cases hN
    rfl
  subst hNk
  have hlen : ∀ V : List Ptr, V.Nodup → (∀ q ∈ V, Reach w.mgr.kind p q) → V.length ≤ vs.length := fun V hV hr =>
    (hV.subperm fun q hq => (hvs q).2 (hr q hq)).length_le
  have N1 : (1 : Rat) ≤ vs.length := by
    have : 0 < vs.length := List.length_pos_of_mem ((hvs p).2 .refl)
    exact_mod_cast this
  have hDN : ((D * vs.length : Nat) : Rat) = D * vs.length := by push_cast; rfl
  have eu : (2 * (D : Rat) + 2) * vs.length / 2 ^ 53 = 2 * (D * vs.length : Nat) * u +
      2 * (vs.length * u) := by
    rw [hDN, eu0]
    ring
  have eη : 18 * ((D : Rat) * vs.length + 1) * vs.length / 2 ^ 1075 =
      18 * ((D * vs.length : Nat) + 1) * vs.length * η := by
    rw [hDN, eη0]
  have Nu : 0 ≤ (vs.length : Rat) * u := by positivity
  have DN : 0 ≤ ((D * vs.length : Nat) : Rat) := by positivity
  have DNu : 0 ≤ ((D * vs.length : Nat) : Rat) * u := by positivity
  have nδ : 0 ≤ (P.c.n : Rat) * δ := by
    by_cases hn : P.c.n = 0
    · rw [hn]; simp
    · have δ0 : 0 ≤ δ := (abs_nonneg _).trans (hpr 0 (by omega)).2
      positivity
  rw [eu] at hsmall
  obtain ⟨_, s', e, Ds, hv⟩ := levelError_ok rd R.good (R.used hp) (R.cleanBelow hclean p) hd hpr hD hlen
    (by show 2 * ((D * vs.length : Nat) : Rat) * u + 2 * (P.c.n * δ) ≤ 1 / 2; linarith)
  have hv' : ∀ q b, s'.used q = true → s'.kind q = .leaf b → b ≠ Undefined →
      ∃ v, s'.data q = some v ∧ 0 ≤ v ∧ (¬ Reach s'.kind p q → v = 0) ∧
        |v - probability P.c.n P.c.dom pr (fun x => decide (f' x = b))| ≤
          2 * (2 * (D * vs.length : Nat) * u + 2 * (P.c.n * δ)) *
            probability P.c.n P.c.dom pr (fun x => decide (f' x = b)) + 8 * (D * vs.length : Nat) * η := by
    intro q b hq hk hb
    rw [Ds.used] at hq
    rw [Ds.kind] at hk ⊢
    exact hv q b hq hk hb
  have hd' : Den P.c s' p f' := fun x hx => by rw [Ds.kind]; exact hd x hx
  have hp' : s'.used p = true := by rw [Ds.used]; exact R.used hp
  refine ⟨{ w with mgr := s' }, onSlot (m := calculateProbabilitiesR double P.c pr) hp e, fun s => ?_⟩
  have bound : ∀ φ : Int → Bool, ∃ r, onMgr (sumTerminalsR double φ) { w with mgr := s' } =
      .ok (r, { w with mgr := s' }) ∧ |r - probability P.c.n P.c.dom pr (fun x => φ (f x))| ≤
        passingError P.c.n D vs.length δ (probability P.c.n P.c.dom pr fun x => φ (f x)) := by
    intro φ
    obtain ⟨r, s2, e2, rfl, X, X0, hX, hi, lo⟩ := sumTerminalsR_ok (root := p) (P := pr) (f := f') rd
      (fun x => double_idem) double_zero (Ds.good R.good) hp' hd' hv' (by positivity) (e1.defined hf)
      (N := vs.length) (fun V hV hr => hlen V hV fun q hq => by have := hr q hq; rw [Ds.kind] at this; exact this) φ
    refine ⟨r, by simp only [onMgr]; rw [e2], ?_⟩
    have A0 := probability_nearly hpr fun x => φ (f x)
    rw [show probability (envOf P σ).c.n (envOf P σ).c.dom pr (fun x => φ (f' x)) =
      probability P.c.n P.c.dom pr (fun x => φ (f x)) from e1.probability pr φ] at hX
    have := sum_error u0 u1 η0 (by linarith) (by positivity) A0 (by linarith) X0 hX hi lo
    refine this.trans ?_
    unfold passingError
    rw [eu, eη]
    have : 0 ≤ ((D * vs.length : Nat) : Rat) * vs.length * η := by positivity
    have : 0 ≤ (vs.length : Rat) * η := by positivity
    linarith
  refine ⟨fun h0 hs => ?_, bound fun v => decide (v ≥ s), bound fun v => decide (v < s)⟩
  have A0 := probability_nearly hpr fun x => decide (f x = s)
  have slack : 2 * (2 * ((D * vs.length : Nat) : Rat) * u + 2 * (P.c.n * δ)) *
        probability P.c.n P.c.dom pr (fun x => decide (f x = s)) + 8 * (D * vs.length : Nat) * η ≤
      passingError P.c.n D vs.length δ (probability P.c.n P.c.dom pr fun x => decide (f x = s)) := by
    unfold passingError
    rw [eu, eη]
    have t1 := mul_nonneg Nu A0
    have t2 : 0 ≤ ((D * vs.length : Nat) : Rat) * η := by positivity
    have t3 := mul_le_mul_of_nonneg_left N1 t2
    have t4 : 0 ≤ (vs.length : Rat) * η := by positivity
    linarith
  obtain ⟨o, eo, h1, h2⟩ := getTerminal_ok (Ds.good R.good).inv h0
  cases o with
  | some t =>
      obtain ⟨hu, hk, _⟩ := h1 t rfl
      obtain ⟨v, hd1, _, _, hb⟩ := hv' t s hu hk hs
      refine ⟨v, ?_, ?_⟩
      · simp only [onMgr]
        rw [show getProbability s s' = .ok (v, s') from by
          unfold getProbability
          rw [bind_ok eo]
          exact getData_ok hu hd1]
      · rw [e1.probability pr fun v => decide (v = s)] at hb
        exact hb.trans slack
  | none =>
      have z : probability P.c.n P.c.dom pr (fun x => decide (f x = s)) = 0 := by
        rw [← e1.probability pr fun v => decide (v = s), ← probability_false (n := P.c.n) (dom := P.c.dom)]
        refine probability_congr R.good.inv.order R.good.cfg ?_
        intro x hx
        rw [decide_eq_false_iff_not]
        intro e
        obtain ⟨q, hr, hk⟩ := (leafVal_iff (Ds.good R.good) hp' hd').2 ⟨x, hx, e⟩
        exact hs (h2 rfl q (hr.used (Ds.good R.good).inv hp') hk)
      refine ⟨0, ?_, ?_⟩
      · simp only [onMgr]
        rw [show getProbability s s' = .ok (0, s') from by
          unfold getProbability
          rw [bind_ok eo]
          rfl]
      · rw [z] at slack ⊢
        refine le_trans ?_ slack
        have t2 : 0 ≤ ((D * vs.length : Nat) : Rat) * η := by positivity
        rw [sub_zero, abs_zero]
        linarith

theorem run_ok {α : Type} {ks : List Call} {m : SM World α} {r : α} (h : runWith P ks m = .ok r) :
    ∃ s os w w', construct P.c P.pool P.order = .ok s ∧ execAll P.c ks ⟨s, []⟩ = .ok (os, w) ∧ m w = .ok (r, w') := by
  unfold runWith at h
  cases e1 : construct P.c P.pool P.order with
  | error e => rw [e1] at h; cases h
  | ok s =>
      rw [e1] at h
      dsimp only at h
      cases e2 : execAll P.c ks ⟨s, []⟩ with
      | error e => rw [e2] at h; cases h
      | ok x =>
          rw [e2] at h
          dsimp only at h
          cases e4 : m x.2 with
          | error e => rw [e4] at h; cases h
          | ok y => rw [e4] at h; cases h; exact ⟨s, x.1, x.2, y.2, rfl, e2, e4⟩

theorem execAll_cons {c : Cfg} {k : Call} {ks : List Call} {os : List Out} {w w' : World}
    (h : execAll c (k :: ks) w = .ok (os, w')) :
    ∃ o v os', exec c k w = .ok (o, v) ∧ execAll c ks v = .ok (os', w') := by
  cases e : exec c k w with
  | error x => rw [execAll, bind_run, e] at h; cases h
  | ok x =>
      obtain ⟨o, v⟩ := x
      rw [execAll, bind_ok e] at h
      cases e2 : execAll c ks v with
      | error x => rw [bind_run, e2] at h; cases h
      | ok y =>
          obtain ⟨os', w''⟩ := y
          rw [bind_ok e2] at h
          cases h
          exact ⟨o, v, os', rfl, e2⟩

/-- x0 ∧ x1 with the stored probabilities: a diagram of four nodes. -/
example : ∃ w σ, Reachable bdd3 w σ ∧ ∃ w', calculateProbabilitiesOf double bdd3.c storedPr 2 w = .ok ((), w') ∧
    ∃ r, onMgr (getAvailabilityR double 1) w' = .ok (r, w') ∧
      |r - probability bdd3.c.n bdd3.c.dom storedPr (fun x => decide (Op.AND.val (x 0) (x 1) ≥ 1))| ≤ 1 / 10 ^ 14 := by
  have hr : runWith bdd3 [.variableD 0, .variableD 1, .apply Op.AND 0 1] (exec bdd3.c (.nodeCountOf 2)) =
      .ok (.nat 4) := by decide +kernel
  obtain ⟨s, os, w, w', e0, e, e4⟩ := run_ok hr
  obtain ⟨o1, w1, _, e1, e⟩ := execAll_cons e
  obtain ⟨o2, w2, _, e2, e⟩ := execAll_cons e
  obtain ⟨o3, w3, _, e3, e⟩ := execAll_cons e
  cases e
  have h1 : Reachable bdd3 w1 { bdd3State with slots := [some fun x => (x 0 : Int)] } :=
    .step (k := .variableD 0) (.init e0) (show 0 < 3 by decide) e1
  have h2 : Reachable bdd3 w2 { bdd3State with slots := [some fun x => (x 0 : Int), some fun x => (x 1 : Int)] } :=
    .step (k := .variableD 1) h1 (show 1 < 3 by decide) e2
  have ok : Adm bdd3 { bdd3State with slots := [some fun x => (x 0 : Int), some fun x => (x 1 : Int)] }
      (.apply Op.AND 0 1) := by
    refine ⟨rfl, rfl, fun x => (x 0 : Int), fun x => (x 1 : Int), rfl, rfl, ?_⟩
    exact opOK_AND ((bits_x (by decide) rfl).vals term1_bdd3) ((bits_x (by decide) rfl).vals term1_bdd3)
  have h3 : Reachable bdd3 w (next bdd3.c _ (.apply Op.AND 0 1) o3) := Reachable.step h2 ok e3 (fun _ => rfl)
  rw [show next bdd3.c _ (.apply Op.AND 0 1) o3 = bdd3State from rfl] at h3
  refine ⟨w, _, h3, ?_⟩
  have hw : w' = w := by
    obtain ⟨o, eo, k, rfl, _⟩ := asks (k := .nodeCountOf 2) bdd3_ok h3 ⟨rfl, _, rfl⟩ rfl
    have e5 := eo.symm.trans e4
    exact ((Prod.mk.inj (Except.ok.inj e5)).2).symm
  subst hw
  obtain ⟨w4, c1, c2⟩ := C70_passing_partial bdd3_ok h3 rfl ((reachable_rel bdd3_ok h3).denotes (a := 2) rfl)
    (bdd3_defined (by simp)) (pr := storedPr) (δ := 1 / 2 ^ 53) (D := 2)
    (nearly_of_perturb (by decide +kernel) demoPr_sums (by decide +kernel)) (by decide) e4
    (by decide +kernel)
  obtain ⟨r, c3, c4⟩ := (c2 1).2.1
  refine ⟨w4, c1, r, c3, c4.trans ?_⟩
  decide +kernel

/-! ### C71 counts -/

/-- `satisfy_count(v, d)` of a reliability manager returns the number of assignments on which the function is `v`, and
`state_frequency(d, v)` the double nearest to the fraction of these assignments, if there are no more than 2⁵³
assignments.

Missing for the full property: managers with more assignments (`C71_violated`); no overflow of the integer types used
for the numbers of assignments; no `from_expression_tree` before (`C24_violated`). -/
theorem C71_count_partial (hP : P.OK) (h : Reachable P w σ) (hclean : σ.clean = true) (hfit : CountFits P.c)
    (hsmall : (allAsg P.c.n P.c.dom).length ≤ 2 ^ 53) {a : Nat} {f : Asg → Int} (ha : Denotes P w a f) {v : Int}
    (hv : ∀ m, P.c.fixedDom = some m → P.c.asserts = true → v < m) :
    (∃ w', satisfyCountOf double P.c v a w = .ok (((countValue P.c.n P.c.dom f v : Nat) : Int), w')) ∧
    ∃ w', stateFrequencyOf double P.c v a w =
      .ok (double (countValue P.c.n P.c.dom f v / (allAsg P.c.n P.c.dom).length), w') := by
  have R := reachable_rel hP h
  obtain ⟨f', hf', e1⟩ := R.of_denotes ha
  obtain ⟨p, hp, hd⟩ := R.has a f' hf'
  obtain ⟨r1, s1, x1, rfl, _⟩ := satisfyCountDataR_ok (fun k => double_int) R.good (R.used hp)
    (R.cleanBelow hclean p) hfit hsmall hd hv
  obtain ⟨r2, s2, x2, rfl, _⟩ := stateFrequencyR_ok (fun k => double_int) R.good (R.used hp)
    (R.cleanBelow hclean p) hfit hsmall hd hv
  rw [← e1.countValue]
  exact ⟨⟨_, onSlot (m := satisfyCountDataR double P.c v) hp x1⟩,
    _, onSlot (m := stateFrequencyR double P.c v) hp x2⟩

/-- max(x0, x1) over domains 2, 3, 2 is 2 on a third of the assignments, which is not a double. -/
example : ∃ w σ, Reachable mdd3 w σ ∧ (∃ w', satisfyCountOf double mdd3.c 2 2 w = .ok (4, w')) ∧
    ∃ w', stateFrequencyOf double mdd3.c 2 2 w = .ok (6004799503160661 / 2 ^ 54, w') := by
  obtain ⟨w, h⟩ := mdd3_world
  refine ⟨w, _, h, ?_⟩
  have := C71_count_partial mdd3_ok h rfl (show (12 : Nat) ≤ 9223372036854775807 by decide) (by decide +kernel)
    ((reachable_rel mdd3_ok h).denotes (a := 2) rfl) (v := 2) (fun m hm => by cases hm)
  rw [show countValue mdd3.c.n mdd3.c.dom (fun x => Op.MAX.val (x 0) (x 1)) 2 = 4 from by decide +kernel,
    show double (((4 : Nat) : Rat) / (allAsg mdd3.c.n mdd3.c.dom).length) = 6004799503160661 / 2 ^ 54 from by
      decide +kernel] at this
  exact this

/-- The result of `state_frequency(d, v)` is a number of type `double`, and no other such number is nearer to the fraction
of the assignments on which the function is `v`.

Missing for the full property: as for `C71_count_partial`. -/
theorem C71_nearest_partial (hP : P.OK) (h : Reachable P w σ) (hclean : σ.clean = true) (hfit : CountFits P.c)
    (hsmall : (allAsg P.c.n P.c.dom).length ≤ 2 ^ 53) {a : Nat} {f : Asg → Int} (ha : Denotes P w a f) {v : Int}
    (hv : ∀ m, P.c.fixedDom = some m → P.c.asserts = true → v < m) :
    ∃ q w', stateFrequencyOf double P.c v a w = .ok (q, w') ∧ IsDouble q ∧ ∀ y, IsDouble y →
      |q - countValue P.c.n P.c.dom f v / (allAsg P.c.n P.c.dom).length| ≤
        |y - countValue P.c.n P.c.dom f v / (allAsg P.c.n P.c.dom).length| := by
  obtain ⟨w', e⟩ := (C71_count_partial hP h hclean hfit hsmall ha hv).2
  have hn := double_nearest (x := (countValue P.c.n P.c.dom f v : Rat) / (allAsg P.c.n P.c.dom).length)
    (by positivity)
  exact ⟨_, w', e, hn.1, fun y hy => (hn.2 y hy).1⟩

/-- A third of the assignments: the next double is further away. -/
example : IsDouble (6004799503160661 / 2 ^ 54) ∧ IsDouble (6004799503160662 / 2 ^ 54) ∧
    |(6004799503160661 / 2 ^ 54 : Rat) - 4 / 12| < |(6004799503160662 / 2 ^ 54 : Rat) - 4 / 12| := by
  refine ⟨⟨6004799503160661, -54, by norm_num, by norm_num, ?_⟩, ⟨6004799503160662, -54, by norm_num, by norm_num, ?_⟩,
    ?_⟩
  · rw [show (-54 : Int) = -((54 : Nat) : Int) from rfl, two_zpow_neg]
    norm_num
  · rw [show (-54 : Int) = -((54 : Nat) : Int) from rfl, two_zpow_neg]
    norm_num
  · decide +kernel

/-- An `imss_manager` of 35 variables with three values each. -/
def mdd35 : Setup where
  c := { n := 35, dom := fun _ => 3, fixedDom := none, asserts := true, extra := 50
         hash := List.sum, chash := fun a b d => a + b + d, addr := id }
  pool := 100
  order := List.range 35
  Γ := shipped 3

theorem mdd35_ok : mdd35.OK where
  cfg := ⟨fun _ _ => Nat.succ_pos 2, fun m h => by cases h⟩
  vars := by decide
  perm := by decide
  pool := by decide
  extra := by decide

/-- **C71.** For 35 variables with three values the first is 1 on 3³⁴ assignments, which is an odd number; `satisfy_count`
returns an even one, although all numbers involved fit the return type. -/
theorem C71_violated : ∃ w σ f, Reachable mdd35 w σ ∧ σ.clean = true ∧ CountFits mdd35.c ∧ Denotes mdd35 w 0 f ∧
    countValue mdd35.c.n mdd35.c.dom f 1 = 16677181699666569 ∧
    ∃ w', satisfyCountOf double mdd35.c 1 0 w = .ok (16677181699666568, w') := by
  have hr : runWith mdd35 [.variableD 0] (satisfyCountOf double mdd35.c 1 0) = .ok 16677181699666568 := by
    decide +kernel
  have hr' : runWith mdd35 [.variableD 0] (satisfyCountOf id mdd35.c 1 0) = .ok 16677181699666569 := by
    decide +kernel
  obtain ⟨s, os, w, w', e1, e2, e3⟩ := run_ok hr
  obtain ⟨s', os', v, v', e1', e2', e3'⟩ := run_ok hr'
  obtain rfl : s = s' := Except.ok.inj (e1.symm.trans e1')
  obtain rfl : w = v := (Prod.mk.inj (Except.ok.inj (e2.symm.trans e2'))).2
  obtain ⟨o, w0, _, e2, e⟩ := execAll_cons e2
  cases e
  have h : Reachable mdd35 w _ := .step (k := .variableD 0) (.init e1) (show 0 < 35 by decide) e2
  have hfit : CountFits mdd35.c := show (List.map (fun _ => 3) (List.range 35)).prod ≤ 9223372036854775807 by
    decide +kernel
  have R := reachable_rel mdd35_ok h
  refine ⟨w, _, fun x => (x 0 : Int), h, rfl, hfit, R.denotes rfl, ?_, w', e3⟩
  obtain ⟨p, hp, hd⟩ := R.has 0 (fun x => (x 0 : Int)) rfl
  obtain ⟨r, s1, x1, hr1, _⟩ := satisfyCountDataR_ok (rnd := id) (fun k _ => rfl) R.good (R.used hp)
    (R.cleanBelow rfl p) hfit (le_refl _) hd (v := 1) (fun m hm => by cases hm)
  have := onSlot (m := satisfyCountDataR id mdd35.c 1) hp x1
  have e := (Prod.mk.inj (Except.ok.inj (e3'.symm.trans this))).1
  rw [hr1] at e
  have e' : (16677181699666569 : Int) = (countValue mdd35.c.n mdd35.c.dom (fun x => (x 0 : Int)) 1 : Nat) := e
  omega

/-- For more than 2⁵³ assignments the results are nearly right: the error of `satisfy_count(v, d)` is at most
`2 n (D + 2) 2⁻⁵³` of the number of assignments on which the function is `v`, for `n` variables with at most `D` values,
and the error of `state_frequency(d, v)` at most `2 (n (D + 2) + 4) 2⁻⁵³` of the fraction of these assignments.

Missing for the full property: as for `C71_count_partial`; for more than 2⁶² assignments the sum can be rounded to 2⁶³,
which is not in the range of the return type. -/
theorem C71_error_partial (hP : P.OK) (h : Reachable P w σ) (hclean : σ.clean = true) (hfit : CountFits P.c)
    (hN : (allAsg P.c.n P.c.dom).length ≤ 2 ^ 62) {D : Nat} (hD : ∀ i, i < P.c.n → P.c.dom i ≤ D)
    (hsmall : (P.c.n : Rat) * (D + 2) / 2 ^ 53 ≤ 1 / 4) {a : Nat} {f : Asg → Int} (ha : Denotes P w a f) {v : Int}
    (hv : ∀ m, P.c.fixedDom = some m → P.c.asserts = true → v < m) :
    (∃ r w', satisfyCountOf double P.c v a w = .ok (r, w') ∧ |(r : Rat) - countValue P.c.n P.c.dom f v| ≤
      2 * (P.c.n * (D + 2) / 2 ^ 53) * countValue P.c.n P.c.dom f v) ∧
    ∃ q w', stateFrequencyOf double P.c v a w = .ok (q, w') ∧
      |q - countValue P.c.n P.c.dom f v / (allAsg P.c.n P.c.dom).length| ≤
        2 * ((P.c.n * (D + 2) + 4) / 2 ^ 53) *
          (countValue P.c.n P.c.dom f v / (allAsg P.c.n P.c.dom).length) := by
  have R := reachable_rel hP h
  obtain ⟨f', hf', e1⟩ := R.of_denotes ha
  obtain ⟨p, hp, hd⟩ := R.has a f' hf'
  have eu : ∀ x : Rat, x / 2 ^ 53 = x * unitRoundoff := fun x => by unfold unitRoundoff; rw [mul_one_div]
  have hu : unitRoundoff ≤ 1 / 16 := by unfold unitRoundoff; norm_num
  have hs : ((P.c.n * (D + 2) : Nat) : Rat) * unitRoundoff ≤ 1 / 4 := by
    rw [← eu]
    push_cast
    exact hsmall
  have rn := double_roundsNat
  obtain ⟨k, s1, x1, m, rfl, hm, _⟩ := satisfyCountDataR_near (D := D) rn R.good (R.used hp)
    (R.cleanBelow hclean p) hfit hD hs hN hd hv
  obtain ⟨q, s2, x2, hq, _⟩ := stateFrequencyR_near (D := D) rn (fun x hx => double_relative hx) double_zero R.good
    (R.used hp) (R.cleanBelow hclean p) hfit hD hs hu hN hd hv
  rw [← e1.countValue]
  refine ⟨⟨_, _, onSlot (m := satisfyCountDataR double P.c v) hp x1, ?_⟩,
    _, _, onSlot (m := stateFrequencyR double P.c v) hp x2, ?_⟩
  · have := hm.error rn (by
      have : ((P.c.n * (D + 2) : Nat) : Rat) * unitRoundoff ≤ 1 / 2 := by linarith
      exact this)
    rw [eu]
    push_cast at this ⊢
    exact this
  · rw [eu]
    push_cast at hq ⊢
    exact hq

theorem mdd35_total : (allAsg mdd35.c.n mdd35.c.dom).length ≤ 2 ^ 62 := by
  unfold allAsg
  rw [length_assignments]
  decide +kernel

/-- For 35 variables with three values `satisfy_count` is off by at most 649. -/
example : ∃ w σ, Reachable mdd35 w σ ∧ ∃ r w', satisfyCountOf double mdd35.c 1 0 w = .ok (r, w') ∧
    |(r : Rat) - 16677181699666569| ≤ 649 := by
  obtain ⟨w, σ, f, h, hc, hfit, hd, hn, _⟩ := C71_violated
  obtain ⟨⟨r, w', e, hr⟩, _⟩ := C71_error_partial mdd35_ok h hc hfit mdd35_total (D := 3) (fun _ _ => le_refl 3)
    (show ((35 : Nat) : Rat) * ((3 : Nat) + 2) / 2 ^ 53 ≤ 1 / 4 by norm_num) hd (v := 1) (fun m hm => by cases hm)
  refine ⟨w, σ, h, r, w', e, ?_⟩
  rw [hn, show mdd35.c.n = 35 from rfl] at hr
  refine le_trans ?_ (hr.trans ?_)
  · norm_num
  · norm_num


end Properties
end Teddy
