import Verif.Binary
import Verif.Properties.Reliability
import Verif.Proofs.Pivot

/-!
# Binary systems (C68) and the role of one component (C69)
-/

namespace Teddy
namespace Properties

open SM Spec

variable {P : Setup} {w : World} {σ : SState}

/-! ### C68 the overloads for binary systems -/

theorem two_states (hP : P.OK) (h2 : P.c.fixedDom = some 2) : ∀ i, i < P.c.n → P.c.dom i = 2 :=
  fun i hi => hP.cfg.fixed 2 h2 i hi

theorem bits_defined {f : Asg → Int} (hf : ∀ x, InDomain P.c.n P.c.dom x → f x = 0 ∨ f x = 1) :
    Defined P.c f := by
  intro x hx
  rw [und_val]
  rcases hf x hx with h | h <;> omega

/-- For a binary system given by the probabilities that its components work, `calculate_probability(p, d)` and
`calculate_availability(p, d)` return the probability that the system works, and `calculate_unavailability`, which
takes a matrix, its complement; these are numbers from 0 to 1 if the probabilities are.

Missing for the full property: no `from_expression_tree` before (`C24_violated`). -/
theorem C68_calculate_partial (hP : P.OK) (h : Reachable P w σ) (hclean : σ.clean = true)
    (h2 : P.c.fixedDom = some 2) {a : Nat} {f : Asg → Int} (ha : Denotes P w a f)
    (hf : ∀ x, InDomain P.c.n P.c.dom x → f x = 0 ∨ f x = 1) (p : Nat → Rat) :
    ∃ A, A = binaryReliability P.c.n p (fun x => decide (f x = 1)) ∧
      Answers P w (.bssProbability p a) (.rat A) ∧ Answers P w (.bssAvailability p a) (.rat A) ∧
      Answers P w (.bssUnavailability (fun i k => if k = 1 then p i else 1 - p i) a) (.rat (1 - A)) ∧
      ((∀ i, 0 ≤ p i ∧ p i ≤ 1) → 0 ≤ A ∧ A ≤ 1) := by
  have hd := two_states hP h2
  have hs := wrap_sums p hd
  obtain ⟨A, U, eA, eU, rfl, rfl, hsum⟩ := C31_availability_partial hP h hclean ha (bits_defined hf) hs 1
  have e : probability P.c.n P.c.dom (probVectorWrap p) (fun x => decide (1 ≤ f x)) =
      binaryReliability P.c.n p (fun x => decide (f x = 1)) := by
    rw [← binary_eq _ hd]
    refine probability_congr' fun x hx => decide_eq_decide.2 ?_
    rcases hf x hx with h | h <;> omega
  refine ⟨_, rfl, ?_, ?_, ?_, ?_⟩
  · have := C29_calculate_probability_partial hP h hclean ha (bits_defined hf) hs (s := 1) (by decide)
    rw [← binary_eq _ hd]
    exact this
  · rw [← e]; exact eA
  · rw [← e]
    have hU := eq_sub_of_add_eq' hsum
    rw [hU] at eU
    exact eU
  · intro hp
    rw [← e]
    exact probability_bounds (fun i k => by
      unfold probVectorWrap
      have := hp i
      split <;> linarith) hs _

/-- After `calculate_probabilities(p, d)`, `get_availability()` and `get_unavailability()` return the probability that
the system works and its complement. -/
theorem C68_get_partial (hP : P.OK) (h : Reachable P w σ) (hclean : σ.clean = true)
    (h2 : P.c.fixedDom = some 2) {a : Nat} {f : Asg → Int} (ha : Denotes P w a f)
    (hf : ∀ x, InDomain P.c.n P.c.dom x → f x = 0 ∨ f x = 1) (p : Nat → Rat) :
    ∃ A w', A = binaryReliability P.c.n p (fun x => decide (f x = 1)) ∧
      exec P.c (.bssProbabilities p a) w = .ok (.unit, w') ∧
      onMgr bssGetAvailability w' = .ok (A, w') ∧ onMgr bssGetUnavailability w' = .ok (1 - A, w') := by
  have hd := two_states hP h2
  have hs := wrap_sums p hd
  obtain ⟨w', e, h1, _⟩ := C30_get_probability_partial hP h hclean ha hs
  obtain ⟨w2, e2, h3⟩ := C31_get_availability_partial hP h hclean ha (bits_defined hf) hs
  obtain rfl : w' = w2 := (Prod.mk.inj (Except.ok.inj (e.symm.trans e2))).2
  refine ⟨_, w', rfl, e, ?_, ?_⟩
  · have := h1 1 (by decide) (by rw [und_val]; decide)
    rw [← binary_eq _ hd]
    exact this
  · have := (h3 1).2
    have hc := probability_compl hs fun x => decide (f x = 1)
    have hU := eq_sub_of_add_eq' hc
    rw [probability_congr' (ψ := fun x => decide (f x < 1)) fun x hx => ?_] at hU
    · rw [← binary_eq _ hd, ← hU]
      exact this
    · rw [← decide_not]
      refine decide_eq_decide.2 ?_
      rcases hf x hx with h | h <;> omega

/-- Better components never lower the availability of a monotone binary system. -/
theorem C68_monotone_partial (hP : P.OK) (h : Reachable P w σ) (hclean : σ.clean = true)
    (h2 : P.c.fixedDom = some 2) {a : Nat} {f : Asg → Int} (ha : Denotes P w a f)
    (hf : ∀ x, InDomain P.c.n P.c.dom x → f x = 0 ∨ f x = 1) (hm : Monotone P.c.n P.c.dom f) {p q : Nat → Rat}
    (hpq : ∀ i, i < P.c.n → 0 ≤ p i ∧ p i ≤ q i ∧ q i ≤ 1) :
    ∃ A B, Answers P w (.bssAvailability p a) (.rat A) ∧ Answers P w (.bssAvailability q a) (.rat B) ∧ A ≤ B := by
  obtain ⟨A, eA, _, hA, _⟩ := C68_calculate_partial hP h hclean h2 ha hf p
  obtain ⟨B, eB, _, hB, _⟩ := C68_calculate_partial hP h hclean h2 ha hf q
  refine ⟨A, B, hA, hB, ?_⟩
  have hd := two_states hP h2
  have e : ∀ r, binaryReliability P.c.n r (fun x => decide (f x = 1)) =
      binaryReliability P.c.n r (fun x => decide (1 ≤ f x)) := by
    intro r
    rw [← binary_eq _ hd, ← binary_eq _ hd]
    refine probability_congr' fun x hx => decide_eq_decide.2 ?_
    rcases hf x hx with h | h <;> omega
  rw [eA, eB, e, e]
  refine binary_monotone (fun x y hx hy => ?_) hpq 1
  exact hm x y (fun i hi => by rw [hd i hi]; exact hx i hi) (fun i hi => by rw [hd i hi]; exact hy i hi)

/-- x0 ∧ x1 works with probability p 0 · p 1. -/
example : ∃ w σ, Reachable bdd3 w σ ∧ Answers bdd3 w (.bssAvailability (fun i => 1 / (i + 2)) 2) (.rat (1 / 6)) ∧
    Answers bdd3 w (.bssUnavailability (fun i k => if k = 1 then 1 / ((i : Rat) + 2) else 1 - 1 / ((i : Rat) + 2)) 2)
      (.rat (5 / 6)) := by
  obtain ⟨w, h⟩ := bdd3_world
  refine ⟨w, _, h, ?_⟩
  obtain ⟨A, e, _, h1, h2, _⟩ := C68_calculate_partial (a := 2) bdd3_ok h rfl rfl
    ((reachable_rel bdd3_ok h).denotes rfl) (bdd3_bits _ (by simp)) fun i => 1 / ((i : Rat) + 2)
  rw [show binaryReliability bdd3.c.n (fun i => 1 / ((i : Rat) + 2))
    (fun x => decide (Op.AND.val (x 0) (x 1) = 1)) = 1 / 6 from by decide +kernel] at e
  subst e
  refine ⟨h1, ?_⟩
  rw [show (1 : Rat) - 1 / 6 = 5 / 6 from by norm_num] at h2
  exact h2

/-- x0 ∧ x1 is monotone: with components that work with probabilities 1/3 instead of 1/(i + 3) it is at least as good. -/
example : ∃ w σ, Reachable bdd3 w σ ∧ ∃ A B, Answers bdd3 w (.bssAvailability (fun i => 1 / ((i : Rat) + 3)) 2) (.rat A) ∧
    Answers bdd3 w (.bssAvailability (fun _ => 1 / 3) 2) (.rat B) ∧ A ≤ B := by
  obtain ⟨w, h⟩ := bdd3_world
  refine ⟨w, _, h, C68_monotone_partial (a := 2) bdd3_ok h rfl rfl ((reachable_rel bdd3_ok h).denotes rfl)
    (bdd3_bits _ (by simp)) ?_ ?_⟩
  · intro x y hx hy hxy
    have h0 := hxy 0 (by decide)
    have h1 := hxy 1 (by decide)
    have h2 : y 0 < 2 := hy 0 (by decide)
    have h3 : y 1 < 2 := hy 1 (by decide)
    have : ∀ c < 2, ∀ d < 2, ∀ a < c + 1, ∀ b < d + 1,
        Op.AND.val ((a : Nat) : Int) ((b : Nat) : Int) ≤ Op.AND.val ((c : Nat) : Int) ((d : Nat) : Int) := by decide
    exact this _ h2 _ h3 _ (by omega) _ (by omega)
  · have : ∀ i : Nat, i < 3 → (0 : Rat) ≤ 1 / ((i : Rat) + 3) ∧ 1 / ((i : Rat) + 3) ≤ 1 / 3 ∧ (1 : Rat) / 3 ≤ 1 := by
      decide +kernel
    exact this

/-! ### C69 the role of one component -/

/-- The availability is the mean, over the states of a component, of the availabilities with the component in that
state for certain. -/
theorem C69_pivotal_partial (hP : P.OK) (h : Reachable P w σ) (hclean : σ.clean = true)
    {a : Nat} {f : Asg → Int} (ha : Denotes P w a f) (hf : Defined P.c f) {pr : Nat → Nat → Rat}
    (hpr : SumsToOne P.c.n P.c.dom pr) (s : Int) {i : Nat} (hi : i < P.c.n) :
    ∃ (A : Rat) (B : Nat → Rat), Answers P w (.calculateAvailability s pr a) (.rat A) ∧
      (∀ k, k < P.c.dom i → Answers P w (.calculateAvailability s (setRow pr i (certain k)) a) (.rat (B k))) ∧
      A = ((List.range (P.c.dom i)).map fun k => pr i k * B k).sum := by
  obtain ⟨A, _, eA, _, rfl, _⟩ := C31_availability_partial hP h hclean ha hf hpr s
  refine ⟨_, fun k => probability P.c.n P.c.dom (setRow pr i (certain k)) fun x => decide (s ≤ f x), eA,
    fun k hk => ?_, probability_pivot hi _⟩
  obtain ⟨B, _, eB, _, rfl, _⟩ := C31_availability_partial hP h hclean ha hf (sumsToOne_setRow hpr hk) s
  exact eB

/-- Birnbaum's importance of the derivative "the system gets worse than `s` when component `i` changes from `u` to `v`"
is, for a monotone system, the difference of the availabilities with the component in state `u` and in state `v` for
certain. -/
theorem C69_birnbaum_partial (hP : P.OK) (h : Reachable P w σ) (hauto : σ.auto = false) (hclean : σ.clean = true)
    (h1 : TermOK P.c 1) {a : Nat} {f : Asg → Int} (ha : Denotes P w a f) (hf : Defined P.c f)
    (hm : Monotone P.c.n P.c.dom f) {pr : Nat → Nat → Rat} (hpr : SumsToOne P.c.n P.c.dom pr) (s : Int)
    {i u v : Nat} (hi : i < P.c.n) (hu : u < P.c.dom i) (hv : v ≤ u) :
    ∃ A B w', Answers P w (.calculateAvailability s (setRow pr i (certain u)) a) (.rat A) ∧
      Answers P w (.calculateAvailability s (setRow pr i (certain v)) a) (.rat B) ∧
      exec P.c (.dpld ⟨i, u, v⟩ (Dpld.type3Decrease s) a) w = .ok (.slot w.slots.length, w') ∧
      Answers P w' (.birnbaumImportance pr w.slots.length) (.rat (A - B)) := by
  have hv' := Nat.lt_of_le_of_lt hv hu
  obtain ⟨A, _, eA, _, rfl, _⟩ := C31_availability_partial hP h hclean ha hf (sumsToOne_setRow hpr hu) s
  obtain ⟨B, _, eB, _, rfl, _⟩ := C31_availability_partial hP h hclean ha hf (sumsToOne_setRow hpr hv') s
  obtain ⟨f', hf', _⟩ := (reachable_rel hP h).of_denotes ha
  obtain ⟨w', e, hd, _⟩ := C32_type3Decrease hP h hauto ha h1 (vc := ⟨i, u, v⟩) hu hv' s
  have hr' := Reachable.step (k := .dpld ⟨i, u, v⟩ (Dpld.type3Decrease s) a) h
    ⟨⟨f', hf'⟩, h1, fun _ => ⟨hu, hv'⟩⟩ e (fun _ => hauto)
  refine ⟨_, _, w', eA, eB, e, ?_⟩
  have := C36_birnbaum_importance_partial hP hr' hclean hd (fun x _ => by
    dsimp only; rw [und_val]; split <;> decide) hpr
  rw [← birnbaum_difference hm hpr hi hu hv s]
  rw [probability_congr' (ψ := fun x => decide (s ≤ f (upd x i u) ∧ f (upd x i v) < s)) fun x _ => ?_] at this
  · exact this
  · refine decide_eq_decide.2 ?_
    dsimp only
    split
    · exact ⟨fun _ => by assumption, fun _ => rfl⟩
    · exact ⟨fun h => by simp at h, fun h => by contradiction⟩

/-- Structural importance is Birnbaum's importance, and `state_frequency` the probability, when all states of a component
are equally likely. -/
theorem C69_uniform_partial (hP : P.OK) (h : Reachable P w σ) (hclean : σ.clean = true) (hfit : CountFits P.c)
    (h1 : TermOK P.c 1) {a : Nat} {f : Asg → Int} (ha : Denotes P w a f) (hf : Defined P.c f) :
    (∃ q, Answers P w (.structuralImportance a) (.rat q) ∧
      Answers P w (.birnbaumImportance (fun i _ => 1 / (P.c.dom i : Rat)) a) (.rat q)) ∧
    ∀ s : Int, 0 ≤ s → (∀ m, P.c.fixedDom = some m → P.c.asserts = true → s < m) →
      ∃ q, Answers P w (.stateFrequency s a) (.rat q) ∧
        Answers P w (.calculateProbability s (fun i _ => 1 / (P.c.dom i : Rat)) a) (.rat q) := by
  have hs := uniform_sums (n := P.c.n) (dom := P.c.dom) fun i hi => hP.cfg.dom_pos i hi
  refine ⟨⟨_, C36_structural_importance_partial hP h hclean hfit ha h1, ?_⟩, fun s h0 hs' =>
    ⟨_, C36_state_frequency_partial hP h hclean hfit ha hs', ?_⟩⟩
  · rw [← probability_uniform]
    exact C36_birnbaum_importance_partial hP h hclean ha hf hs
  · rw [← probability_uniform]
    exact C29_calculate_probability_partial hP h hclean ha hf hs h0

private theorem max_monotone : Monotone mdd3.c.n mdd3.c.dom fun x => Op.MAX.val (x 0) (x 1) := by
  intro x y hx hy hxy
  have h0 := hxy 0 (by decide)
  have h1 := hxy 1 (by decide)
  have h2 := hy 0 (by decide)
  have h3 := hy 1 (by decide)
  simp only [mdd3] at h2 h3
  dsimp only
  generalize x 0 = a at *
  generalize x 1 = b at *
  generalize y 0 = c at *
  generalize y 1 = d at *
  have h2 : c < 2 := by simpa using h2
  have h3 : d < 3 := by simpa using h3
  have : ∀ c < 2, ∀ d < 3, ∀ a < c + 1, ∀ b < d + 1,
      Op.MAX.val ((a : Nat) : Int) ((b : Nat) : Int) ≤ Op.MAX.val ((c : Nat) : Int) ((d : Nat) : Int) := by decide
  exact this c h2 d h3 a (by omega) b (by omega)

/-- Component 1 of max(x0, x1) when it gets worse than 1. -/
example : ∃ w σ, Reachable mdd3 w σ ∧ ∃ A B w',
    Answers mdd3 w (.calculateAvailability 1 (setRow (fun i _ => 1 / (mdd3.c.dom i : Rat)) 1 (certain 2)) 2) (.rat A) ∧
    Answers mdd3 w (.calculateAvailability 1 (setRow (fun i _ => 1 / (mdd3.c.dom i : Rat)) 1 (certain 0)) 2) (.rat B) ∧
    exec mdd3.c (.dpld ⟨1, 2, 0⟩ (Dpld.type3Decrease 1) 2) w = .ok (.slot w.slots.length, w') ∧
    Answers mdd3 w' (.birnbaumImportance (fun i _ => 1 / (mdd3.c.dom i : Rat)) w.slots.length) (.rat (A - B)) := by
  obtain ⟨w, h⟩ := mdd3_world
  refine ⟨w, _, h, ?_⟩
  refine C69_birnbaum_partial (a := 2) mdd3_ok h rfl rfl ⟨by decide, fun h => by cases h⟩
    ((reachable_rel mdd3_ok h).denotes rfl) ?_ max_monotone (uniform_sums fun i hi => mdd3_ok.cfg.dom_pos i hi) 1
    (by decide) (by decide) (by decide)
  intro x hx
  have h0 : x 0 < 2 := hx 0 (by decide)
  have h1 : x 1 < 3 := hx 1 (by decide)
  have : ∀ a < 2, ∀ b < 3, Op.MAX.val ((a : Nat) : Int) ((b : Nat) : Int) ≠ Undefined := by decide
  exact this _ h0 _ h1

/-- The other two theorems, for x0 ∧ x1: structural importance is a quarter. -/
example : ∃ w σ, Reachable bdd3 w σ ∧
    (∃ (A : Rat) (B : Nat → Rat), Answers bdd3 w (.calculateAvailability 1 demoPr 2) (.rat A) ∧
      (∀ k, k < 2 → Answers bdd3 w (.calculateAvailability 1 (setRow demoPr 0 (certain k)) 2) (.rat (B k))) ∧
      A = ((List.range 2).map fun k => demoPr 0 k * B k).sum) ∧
    ∃ q, Answers bdd3 w (.structuralImportance 2) (.rat q) ∧
      Answers bdd3 w (.birnbaumImportance (fun i _ => 1 / (bdd3.c.dom i : Rat)) 2) (.rat q) := by
  obtain ⟨w, h⟩ := bdd3_world
  have hd := (reachable_rel bdd3_ok h).denotes (a := 2) rfl
  refine ⟨w, _, h, ?_, ?_⟩
  · exact C69_pivotal_partial bdd3_ok h rfl hd (bdd3_defined (by simp)) demoPr_sums 1 (by decide)
  · exact (C69_uniform_partial bdd3_ok h rfl (show 3 < 63 by decide) term1_bdd3 hd (bdd3_defined (by simp))).1

end Properties
end Teddy
