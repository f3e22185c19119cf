import Verif.BinarySpec
import Verif.Proofs.Probability
import Mathlib.Tactic.Linarith

/-!
# Probabilities and one component
-/

namespace Teddy

open Spec

variable {n : Nat} {dom : Nat → Nat} {pr : Nat → Nat → Rat}

theorem wsum_rows {pr' : Nat → Nat → Rat} : ∀ {vars : List Nat} (_ : ∀ i ∈ vars, ∀ k, k < dom i → pr i k = pr' i k)
    (g : Asg → Rat), wsum dom pr vars g = wsum dom pr' vars g
  | [], _, _ => rfl
  | i :: is, h, g => by
      simp only [wsum]
      congr 1
      refine List.map_congr_left fun k hk => ?_
      rw [h i (by simp) k (List.mem_range.1 hk), wsum_rows fun j hj => h j (by simp [hj])]

/-- The other variables. -/
def others (n i : Nat) : List Nat := (List.range n).erase i

theorem others_perm {i : Nat} (hi : i < n) : (i :: others n i).Perm (List.range n) :=
  (List.perm_cons_erase (List.mem_range.2 hi)).symm

theorem not_mem_others {i : Nat} : i ∉ others n i := List.nodup_range.not_mem_erase

theorem wsum_others (i : Nat) (row : Nat → Rat) (g : Asg → Rat) :
    wsum dom (setRow pr i row) (others n i) g = wsum dom pr (others n i) g := by
  refine wsum_rows (fun j hj k _ => ?_) g
  have : j ≠ i := by rintro rfl; exact not_mem_others hj
  simp [setRow, this]

theorem sum_certain (g : Nat → Rat) {u : Nat} : ∀ {m : Nat}, u < m →
    ((List.range m).map fun k => certain u k * g k).sum = g u := by
  intro m
  induction m with
  | zero => intro h; omega
  | succ m ih =>
      intro h
      rw [List.range_succ, List.map_append, List.sum_append]
      by_cases e : u = m
      · subst e
        have : ((List.range u).map fun k => certain u k * g k).sum = 0 := by
          refine List.sum_eq_zero fun x hx => ?_
          obtain ⟨k, hk, rfl⟩ := List.mem_map.1 hx
          have := List.mem_range.1 hk
          rw [certain, if_neg (by omega), zero_mul]
        rw [this]
        simp [certain]
      · rw [ih (by omega)]
        have : m ≠ u := fun h => e h.symm
        simp [certain, this]

theorem probability_certain {i u : Nat} (hi : i < n) (hu : u < dom i) (φ : Asg → Bool) :
    probability n dom (setRow pr i (certain u)) φ =
      wsum dom pr (others n i) fun x => if φ (upd x i u) then 1 else 0 := by
  rw [probability_eq (others_perm hi)]
  simp only [wsum]
  have : ∀ k, setRow pr i (certain u) i k = certain u k := fun k => by simp [setRow]
  simp only [this]
  rw [sum_certain (fun k => wsum dom (setRow pr i (certain u)) (others n i)
    fun x => if φ (upd x i k) then 1 else 0) hu, wsum_others]

/-- The probability is the mean over the states of a component. -/
theorem probability_pivot {i : Nat} (hi : i < n) (φ : Asg → Bool) :
    probability n dom pr φ =
      ((List.range (dom i)).map fun k => pr i k * probability n dom (setRow pr i (certain k)) φ).sum := by
  rw [probability_eq (others_perm hi)]
  simp only [wsum]
  congr 1
  refine List.map_congr_left fun k hk => ?_
  rw [probability_certain hi (List.mem_range.1 hk)]

/-- Fixing a component in the event or in the probabilities is the same. -/
theorem probability_fixed (h : SumsToOne n dom pr) {i u : Nat} (hi : i < n) (hu : u < dom i) (φ : Asg → Bool) :
    probability n dom pr (fun x => φ (upd x i u)) = probability n dom (setRow pr i (certain u)) φ := by
  rw [probability_certain hi hu, probability_eq (others_perm hi)]
  simp only [wsum, upd_upd]
  rw [List.sum_map_mul_right, h i hi, one_mul]

theorem sumsToOne_setRow (h : SumsToOne n dom pr) {i u : Nat} (hu : u < dom i) :
    SumsToOne n dom (setRow pr i (certain u)) := by
  intro j hj
  by_cases e : j = i
  · subst e
    have : setRow pr j (certain u) j = fun k => certain u k * 1 := by funext k; simp [setRow]
    rw [this]
    exact sum_certain (fun _ => 1) hu
  · have : setRow pr i (certain u) j = pr j := by funext k; simp [setRow, e]
    rw [this]
    exact h j hj

theorem probability_congr' {φ ψ : Asg → Bool} (h : ∀ x, InDomain n dom x → φ x = ψ x) :
    probability n dom pr φ = probability n dom pr ψ := by
  rw [probability_eq (List.Perm.refl _), probability_eq (List.Perm.refl _)]
  refine wsum_congr List.nodup_range fun x h1 _ => ?_
  rw [h x fun i hi => h1 i (List.mem_range.2 hi)]

theorem birnbaum_difference {f : Asg → Int} (hm : Monotone n dom f) (h : SumsToOne n dom pr) {i u v : Nat}
    (hi : i < n) (hu : u < dom i) (hv : v ≤ u) (s : Int) :
    probability n dom pr (fun x => decide (s ≤ f (upd x i u) ∧ f (upd x i v) < s)) =
      probability n dom (setRow pr i (certain u)) (fun x => decide (s ≤ f x)) -
        probability n dom (setRow pr i (certain v)) (fun x => decide (s ≤ f x)) := by
  rw [← probability_fixed h hi hu, ← probability_fixed h hi (Nat.lt_of_le_of_lt hv hu), eq_sub_iff_add_eq,
    ← probability_or (by intro x; simp only [decide_eq_true_eq]; omega)]
  refine probability_congr' fun x hx => ?_
  have hd : ∀ k, k < dom i → InDomain n dom (upd x i k) := by
    intro k hk j hj
    simp only [upd_apply]
    split
    · subst_vars; exact hk
    · exact hx j hj
  have := hm _ _ (hd v (by omega)) (hd u hu) (by
    intro j _
    simp only [upd_apply]
    split
    · exact hv
    · exact Nat.le_refl _)
  rw [← Bool.decide_or]
  exact decide_eq_decide.2 (by omega)

/-! ### Bounds -/

theorem wsum_le (hp : ∀ i k, 0 ≤ pr i k) : ∀ {vars : List Nat} {g h : Asg → Rat}, (∀ x, g x ≤ h x) →
    wsum dom pr vars g ≤ wsum dom pr vars h
  | [], _, _, he => he _
  | i :: is, g, h, he => by
      simp only [wsum]
      refine List.sum_le_sum fun k _ => ?_
      exact mul_le_mul_of_nonneg_left (wsum_le hp fun x => he _) (hp i k)

theorem probability_bounds (hp : ∀ i k, 0 ≤ pr i k) (h : SumsToOne n dom pr) (φ : Asg → Bool) :
    0 ≤ probability n dom pr φ ∧ probability n dom pr φ ≤ 1 := by
  have h1 := probability_compl h φ
  have h0 : ∀ φ, 0 ≤ probability n dom pr φ := by
    intro φ
    rw [probability_eq (List.Perm.refl _)]
    have := wsum_le (dom := dom) hp (vars := List.range n) (g := fun _ => 0)
      (h := fun x => if φ x then 1 else 0) (fun x => by split <;> norm_num)
    refine le_trans (le_of_eq ?_) this
    clear this
    induction List.range n with
    | nil => rfl
    | cons i is ih => simp only [wsum]; rw [← ih]; simp
  have := h0 φ
  have := h0 fun x => !φ x
  constructor <;> linarith

/-! ### Binary systems -/

theorem binary_eq {p : Nat → Rat} (works : Asg → Bool) (h : ∀ i, i < n → dom i = 2) :
    probability n dom (probVectorWrap p) works = binaryReliability n p works := by
  unfold probability binaryReliability allAsg
  have : ∀ {vars : List Nat}, (∀ i ∈ vars, i < n) → assignments dom vars = assignments (fun _ => 2) vars := by
    intro vars hv
    induction vars with
    | nil => rfl
    | cons i is ih =>
        simp only [assignments]
        rw [ih fun j hj => hv j (by simp [hj]), h i (hv i (by simp))]
  rw [this fun i hi => List.mem_range.1 hi]
  rfl

theorem wrap_sums (p : Nat → Rat) (h : ∀ i, i < n → dom i = 2) : SumsToOne n dom (probVectorWrap p) := by
  intro i hi
  rw [h i hi]
  simp [probVectorWrap, List.range_succ]

theorem wsum_wrap_le {p q : Nat → Rat} (h2 : ∀ i, dom i = 2) (h0 : ∀ i, 0 ≤ p i) (hpq : ∀ i, p i ≤ q i)
    (h1 : ∀ i, q i ≤ 1) : ∀ {vars : List Nat} {g : Asg → Rat}, (∀ x i, g (upd x i 0) ≤ g (upd x i 1)) →
    wsum dom (probVectorWrap p) vars g ≤ wsum dom (probVectorWrap q) vars g
  | [], _, _ => le_refl _
  | i :: is, g, hg => by
      have hq0 : ∀ i k, 0 ≤ probVectorWrap q i k := by
        intro i k
        unfold probVectorWrap
        have := h0 i; have := hpq i; have := h1 i
        split <;> linarith
      have e : ∀ r, wsum dom (probVectorWrap r) (i :: is) g =
          (1 - r i) * wsum dom (probVectorWrap r) is (fun x => g (upd x i 0)) +
            r i * wsum dom (probVectorWrap r) is (fun x => g (upd x i 1)) := by
        intro r
        simp [wsum, h2 i, List.range_succ, probVectorWrap]
      have comm : ∀ (x : Asg) (j k l : Nat), upd (upd x j k) i l = if j = i then upd x i l else upd (upd x i l) j k := by
        intro x j k l
        split
        · subst_vars; exact upd_upd x j k l
        · funext m
          simp only [upd_apply]
          by_cases a : m = i <;> by_cases b : m = j <;> simp [a, b] <;> omega
      have hl : ∀ l x j, g (upd (upd x j 0) i l) ≤ g (upd (upd x j 1) i l) := by
        intro l x j
        rw [comm, comm]
        split
        · exact le_refl _
        · exact hg _ _
      have a0 := wsum_wrap_le h2 h0 hpq h1 (vars := is) (g := fun x => g (upd x i 0)) (hl 0)
      have a1 := wsum_wrap_le h2 h0 hpq h1 (vars := is) (g := fun x => g (upd x i 1)) (hl 1)
      have a2 := wsum_le (dom := dom) hq0 (vars := is) (g := fun x => g (upd x i 0))
        (h := fun x => g (upd x i 1)) (fun x => hg x i)
      rw [e, e]
      have b0 := h0 i; have b1 := hpq i; have b2 := h1 i
      generalize wsum dom (probVectorWrap q) is (fun x => g (upd x i 0)) = Q0 at *
      generalize wsum dom (probVectorWrap q) is (fun x => g (upd x i 1)) = Q1 at *
      generalize wsum dom (probVectorWrap p) is (fun x => g (upd x i 0)) = P0 at *
      generalize wsum dom (probVectorWrap p) is (fun x => g (upd x i 1)) = P1 at *
      have c0 : (1 - p i) * P0 ≤ (1 - p i) * Q0 := mul_le_mul_of_nonneg_left a0 (by linarith)
      have c1 : p i * P1 ≤ p i * Q1 := mul_le_mul_of_nonneg_left a1 b0
      have c2 : 0 ≤ (q i - p i) * (Q1 - Q0) := mul_nonneg (by linarith) (by linarith)
      nlinarith

/-- Better components make a monotone system better. -/
theorem binary_monotone {f : Asg → Int} (hm : Monotone n (fun _ => 2) f) {p q : Nat → Rat}
    (h : ∀ i, i < n → 0 ≤ p i ∧ p i ≤ q i ∧ q i ≤ 1) (s : Int) :
    binaryReliability n p (fun x => decide (s ≤ f x)) ≤ binaryReliability n q (fun x => decide (s ≤ f x)) := by
  have e : ∀ r : Nat → Rat, binaryReliability n r (fun x => decide (s ≤ f x)) =
      wsum (fun _ => 2) (probVectorWrap fun i => if i < n then r i else 0) (List.range n)
        (fun x => if s ≤ f (fun i => min (x i) 1) then 1 else 0) := by
    intro r
    rw [← binary_eq (dom := fun _ => 2) _ fun _ _ => rfl, probability_eq (List.Perm.refl _)]
    rw [wsum_rows (pr' := probVectorWrap fun i => if i < n then r i else 0)
      (fun i hi k _ => by simp [probVectorWrap, List.mem_range.1 hi])]
    refine wsum_congr List.nodup_range fun x h1 h2 => ?_
    have : (fun i => min (x i) 1) = x := by
      funext i
      by_cases hi : i < n
      · have := h1 i (List.mem_range.2 hi)
        omega
      · rw [h2 i (by simpa using hi)]; rfl
    simp only [this, decide_eq_true_eq]
  rw [e, e]
  refine wsum_wrap_le (fun _ => rfl) ?_ ?_ ?_ ?_
  · intro i; split
    · exact (h i ‹_›).1
    · exact le_refl _
  · intro i; split
    · exact (h i ‹_›).2.1
    · exact le_refl _
  · intro i; split
    · exact (h i ‹_›).2.2
    · exact zero_le_one
  · intro x i
    have := hm (fun j => min (upd x i 0 j) 1) (fun j => min (upd x i 1 j) 1)
      (fun j _ => by dsimp only; omega) (fun j _ => by dsimp only; omega)
      (fun j _ => by simp only [upd_apply]; split <;> omega)
    split
    · rw [if_pos (by omega)]
    · split <;> norm_num

/-! ### Equally likely states -/

/-- Every state of a component is as likely as any other. -/
theorem probability_uniform (f : Asg → Int) (v : Int) :
    probability n dom (fun i _ => 1 / (dom i : Rat)) (fun x => decide (f x = v)) =
      (countValue n dom f v : Rat) / ((allAsg n dom).length : Rat) := by
  have hl : ((allAsg n dom).length : Rat) = ((List.range n).map fun i => (dom i : Rat)).prod := by
    unfold allAsg
    induction List.range n with
    | nil => rfl
    | cons i is ih =>
        simp only [assignments, List.map_cons, List.prod_cons, ← ih, List.length_flatMap, List.length_map]
        simp
  have hw : ∀ x, weight (fun i _ => 1 / (dom i : Rat)) (List.range n) x = 1 / ((allAsg n dom).length : Rat) := by
    intro x
    rw [hl]
    unfold weight
    induction List.range n with
    | nil => simp
    | cons i is ih => simp only [List.map_cons, List.prod_cons, ih]; ring
  unfold probability countValue
  have : ∀ L : List Asg, ((L.map (weight (fun i _ => 1 / (dom i : Rat)) (List.range n))).sum) =
      (L.length : Rat) / ((allAsg n dom).length : Rat) := by
    intro L
    induction L with
    | nil => simp
    | cons x L ih => rw [List.map_cons, List.sum_cons, ih, hw]; push_cast [List.length_cons]; ring
  exact this _

theorem uniform_sums (hd : ∀ i, i < n → 0 < dom i) : SumsToOne n dom fun i _ => 1 / (dom i : Rat) := by
  intro i hi
  have := hd i hi
  have h0 : (dom i : Rat) ≠ 0 := by exact_mod_cast this.ne'
  simp [h0]

end Teddy
