import Verif.Rounding
import Verif.Proofs.Probability
import Mathlib.Tactic.Linarith
import Mathlib.Tactic.Ring
import Mathlib.Tactic.Positivity
import Mathlib.Tactic.NormNum
import Mathlib.Algebra.Order.Ring.Pow

/-!
# Lemmas on rounding
-/

namespace Teddy

open SM Spec

/-! ### The function `double` -/

theorem roundEven_near (y : Rat) : |(roundEven y : Rat) - y| ≤ 1 / 2 := by
  have h1 := Int.floor_le y
  have h2 := Int.lt_floor_add_one y
  unfold roundEven
  rw [abs_le]
  split_ifs <;> push_cast <;> constructor <;> linarith

theorem roundEven_int (k : Int) : roundEven k = k := by
  unfold roundEven
  simp

theorem roundEven_nonneg {y : Rat} (h : 0 ≤ y) : 0 ≤ roundEven y := by
  have : 0 ≤ ⌊y⌋ := Int.floor_nonneg.2 h
  unfold roundEven
  split_ifs <;> omega

theorem two_zpow_pos (e : Int) : (0 : Rat) < 2 ^ e := zpow_pos (by norm_num) e

theorem double_nonneg {x : Rat} (h : 0 ≤ x) : 0 ≤ double x := by
  have h1 := two_zpow_pos (lastPlace x)
  have h2 : (0 : Rat) ≤ roundEven (x / 2 ^ lastPlace x) := by
    exact_mod_cast roundEven_nonneg (div_nonneg h h1.le)
  exact mul_nonneg h2 h1.le

theorem double_near (x : Rat) : |double x - x| ≤ 2 ^ lastPlace x / 2 := by
  have h1 := two_zpow_pos (lastPlace x)
  have h2 := roundEven_near (x / 2 ^ lastPlace x)
  have e : double x - x = (roundEven (x / 2 ^ lastPlace x) - x / 2 ^ lastPlace x) * 2 ^ lastPlace x := by
    unfold double
    field_simp
  rw [e, abs_mul, abs_of_pos h1]
  nlinarith

/-- The unit roundoff. -/
def unitRoundoff : Rat := 1 / 2 ^ 53

/-- Half of the least positive double. -/
def halfTiny : Rat := 1 / 2 ^ 1075

theorem two_zpow_le {a b : Int} (h : a ≤ b) : (2 : Rat) ^ a ≤ 2 ^ b := zpow_le_zpow_right₀ (by norm_num) h

theorem two_zpow_mul (a b : Int) : (2 : Rat) ^ (a + b) = 2 ^ a * 2 ^ b := zpow_add₀ (by norm_num) a b

theorem two_zpow_nat (k : Nat) : (2 : Rat) ^ (k : Int) = 2 ^ k := zpow_natCast 2 k

theorem two_zpow_neg (k : Nat) : (2 : Rat) ^ (-(k : Int)) = 1 / 2 ^ k := by
  rw [one_div, ← zpow_natCast (2 : Rat) k]
  exact zpow_neg 2 (k : Int)

theorem log_le {x : Rat} (h : 0 < x) : (2 : Rat) ^ Int.log 2 |x| ≤ x := by
  have := Int.zpow_log_le_self (b := 2) (by norm_num) (abs_pos.2 h.ne')
  rw [abs_of_pos h] at this ⊢
  exact this

theorem double_error {x : Rat} (h : 0 ≤ x) : |double x - x| ≤ unitRoundoff * x + halfTiny := by
  have hu : (0 : Rat) ≤ unitRoundoff := by unfold unitRoundoff; positivity
  have ht : (0 : Rat) ≤ halfTiny := by unfold halfTiny; positivity
  have tiny : (2 : Rat) ^ (-1074 : Int) / 2 = halfTiny := by
    have := two_zpow_neg 1074
    rw [show (-1074 : Int) = -((1074 : Nat) : Int) from rfl, this]
    unfold halfTiny
    rw [div_div, ← pow_succ]
  rcases h.eq_or_lt with rfl | hx
  · have : double 0 = 0 := by
      unfold double
      rw [zero_div, show ((0 : Rat)) = ((0 : Int) : Rat) from rfl, roundEven_int]
      simp
    rw [this]
    simpa using ht
  · refine (double_near x).trans ?_
    unfold lastPlace
    rcases le_total (Int.log 2 |x| - 52) (-1074) with hl | hl
    · rw [max_eq_right hl, tiny]
      have := mul_nonneg hu hx.le
      linarith
    · rw [max_eq_left hl, sub_eq_add_neg, two_zpow_mul, show (-52 : Int) = -((52 : Nat) : Int) from rfl,
        two_zpow_neg]
      have := log_le hx
      have e : (2 : Rat) ^ Int.log 2 |x| * (1 / 2 ^ 52) / 2 = unitRoundoff * 2 ^ Int.log 2 |x| := by
        unfold unitRoundoff
        ring
      rw [e]
      have := mul_le_mul_of_nonneg_left this hu
      linarith

theorem double_grid {x : Rat} {k : Int} (h : x = k * 2 ^ lastPlace x) : double x = x := by
  unfold double
  have hp := (two_zpow_pos (lastPlace x)).ne'
  rw [show x / 2 ^ lastPlace x = (k : Rat) from by rw [div_eq_iff hp]; exact h, roundEven_int]
  exact h.symm

theorem double_multiple {x : Rat} {k e : Int} (he : lastPlace x ≤ e) (h : x = k * 2 ^ e) : double x = x := by
  obtain ⟨m, hm⟩ := Int.eq_ofNat_of_zero_le (show 0 ≤ e - lastPlace x by omega)
  refine double_grid (k := k * 2 ^ m) ?_
  rw [show e = m + lastPlace x by omega, two_zpow_mul, two_zpow_nat] at h
  push_cast
  rw [mul_assoc]
  exact h

theorem double_zero : double 0 = 0 := double_grid (k := 0) (by simp)

/-- What has been rounded is not changed by rounding again. -/
theorem double_idem {x : Rat} (h : 0 ≤ x) : double (double x) = double x := by
  rcases h.eq_or_lt with rfl | hx
  · rw [double_zero, double_zero]
  have hp := two_zpow_pos (lastPlace x)
  have hl : Int.log 2 |x| - 52 ≤ lastPlace x := le_max_left _ _
  have ht : -1074 ≤ lastPlace x := le_max_right _ _
  have hk0 := roundEven_nonneg (div_nonneg h hp.le)
  have hk1 : roundEven (x / 2 ^ lastPlace x) ≤ 2 ^ 53 := by
    have h1 : x < 2 ^ (lastPlace x + (53 : Nat)) := by
      have := Int.lt_zpow_succ_log_self (b := 2) (by norm_num) |x|
      rw [abs_of_pos hx] at this
      refine lt_of_lt_of_le this (two_zpow_le ?_)
      rw [abs_of_pos hx] at hl
      omega
    rw [two_zpow_mul, two_zpow_nat] at h1
    have h2 : x / 2 ^ lastPlace x < 2 ^ 53 := by rw [div_lt_iff₀ hp]; linarith
    have h3 := (abs_le.1 (roundEven_near (x / 2 ^ lastPlace x))).2
    have h4 : (roundEven (x / 2 ^ lastPlace x) : Rat) < ((2 ^ 53 + 1 : Int) : Rat) := by push_cast; linarith
    have := Int.cast_lt.1 h4
    omega
  have hy : double x = roundEven (x / 2 ^ lastPlace x) * 2 ^ lastPlace x := rfl
  generalize roundEven (x / 2 ^ lastPlace x) = k at *
  generalize lastPlace x = e at *
  rcases hk0.eq_or_lt with rfl | hkp
  · rw [hy]
    simp [double_zero]
  have hyp : 0 < double x := by
    rw [hy]
    exact mul_pos (by exact_mod_cast hkp) hp
  have place : ∀ m : Nat, double x < 2 ^ (e + m) → lastPlace (double x) ≤ max (e + m - 53) (-1074) := by
    intro m hm
    unfold lastPlace
    rw [abs_of_pos hyp]
    have := (Int.lt_zpow_iff_log_lt (b := 2) (by norm_num) hyp).1 hm
    omega
  rcases hk1.eq_or_lt with rfl | hk
  · refine double_multiple (k := 2 ^ 52) (e := e + 1) ?_ ?_
    · have := place 54 (by
        rw [hy, two_zpow_mul, two_zpow_nat]
        push_cast
        linarith)
      omega
    · rw [hy, two_zpow_mul, show ((2 : Rat) ^ (1 : Int)) = 2 from by norm_num]
      push_cast
      ring
  · refine double_multiple (k := k) (e := e) ?_ hy
    have := place 53 (by
      rw [hy, two_zpow_mul, two_zpow_nat]
      have : (k : Rat) < 2 ^ 53 := by exact_mod_cast hk
      nlinarith)
    omega

/-- Small integers are doubles. -/
theorem double_int {k : Nat} (h : k ≤ 2 ^ 53) : double k = k := by
  rcases Nat.eq_zero_or_pos k with rfl | h0
  · refine double_grid (k := 0) ?_
    simp
  have hk : (0 : Rat) < k := by exact_mod_cast h0
  have hlog : Int.log 2 |(k : Rat)| = (Nat.log 2 k : Nat) := by
    rw [abs_of_pos hk]
    exact Int.log_natCast 2 k
  rcases h.eq_or_lt with rfl | h
  · refine double_grid (k := 2 ^ 52) ?_
    have : lastPlace ((2 ^ 53 : Nat) : Rat) = 1 := by
      unfold lastPlace
      rw [hlog, Nat.log_pow (by norm_num)]
      decide
    rw [this]
    norm_num
  · have hl : Nat.log 2 k ≤ 52 := by
      have := Nat.log_lt_of_lt_pow (b := 2) (x := 53) (by omega) h
      omega
    have e : ∃ m : Nat, lastPlace (k : Rat) = -(m : Int) := by
      refine ⟨52 - Nat.log 2 k, ?_⟩
      unfold lastPlace
      rw [hlog, max_eq_left (by omega)]
      omega
    obtain ⟨m, e⟩ := e
    refine double_grid (k := k * 2 ^ m) ?_
    rw [e, two_zpow_neg]
    push_cast
    field_simp

/-- Doubles from 2^53 on are even. -/
theorem double_even {k : Nat} (h : 2 ^ 53 ≤ k) : ∃ m : Int, double k = 2 * m := by
  have h0 : 0 < k := lt_of_lt_of_le (by norm_num) h
  have hk : (0 : Rat) < k := by exact_mod_cast h0
  have hlog : Int.log 2 |(k : Rat)| = (Nat.log 2 k : Nat) := by
    rw [abs_of_pos hk]
    exact Int.log_natCast 2 k
  have hl : 53 ≤ Nat.log 2 k := Nat.le_log_of_pow_le (by norm_num) h
  obtain ⟨m, e⟩ : ∃ m : Nat, lastPlace (k : Rat) = ((m + 1 : Nat) : Int) := by
    refine ⟨Nat.log 2 k - 53, ?_⟩
    unfold lastPlace
    rw [hlog, max_eq_left (by omega)]
    omega
  refine ⟨roundEven (k / 2 ^ lastPlace k) * 2 ^ m, ?_⟩
  unfold double
  rw [e, two_zpow_nat]
  push_cast
  ring

/-! ### Accumulated errors -/

/-- An operation that rounds with relative error `u` and absolute error `η`. -/
structure Rounds (u η : Rat) (rnd : Rat → Rat) : Prop where
  u0 : 0 ≤ u
  u1 : u ≤ 1
  η0 : 0 ≤ η
  nonneg : ∀ x, 0 ≤ x → 0 ≤ rnd x
  error : ∀ x, 0 ≤ x → |rnd x - x| ≤ u * x + η

theorem double_rounds : Rounds unitRoundoff halfTiny double where
  u0 := by unfold unitRoundoff; norm_num
  u1 := by unfold unitRoundoff; norm_num
  η0 := by unfold halfTiny; positivity
  nonneg _ := double_nonneg
  error _ := double_error

theorem double_rounds_some : ∃ u η, Rounds u η double ∧ (∀ x : Rat, x / 2 ^ 53 = x * u) ∧
    ∀ x : Rat, x / 2 ^ 1075 = x * η :=
  ⟨_, _, double_rounds, fun _ => by unfold unitRoundoff; rw [mul_one_div], fun _ => by
    unfold halfTiny; rw [mul_one_div]⟩

theorem Rounds.le {u η : Rat} {rnd : Rat → Rat} (r : Rounds u η rnd) {x : Rat} (h : 0 ≤ x) :
    rnd x ≤ (1 + u) * x + η := by
  have := (abs_le.1 (r.error x h)).2
  linarith

theorem Rounds.ge {u η : Rat} {rnd : Rat → Rat} (r : Rounds u η rnd) {x : Rat} (h : 0 ≤ x) :
    (1 - u) * x - η ≤ rnd x := by
  have := (abs_le.1 (r.error x h)).1
  linarith

/-- The sum of products as it is computed. -/
def accR (rnd : Rat → Rat) (l : List (Rat × Rat)) : Rat := l.foldl (fun x e => rnd (x + rnd (e.1 * e.2))) 0

theorem accR_snoc (rnd : Rat → Rat) (l : List (Rat × Rat)) (e : Rat × Rat) :
    accR rnd (l ++ [e]) = rnd (accR rnd l + rnd (e.1 * e.2)) := by
  simp [accR]

/-- The sum of products. -/
def accE (l : List (Rat × Rat)) : Rat := (l.map fun e => e.1 * e.2).sum

theorem accE_snoc (l : List (Rat × Rat)) (e : Rat × Rat) : accE (l ++ [e]) = accE l + e.1 * e.2 := by
  simp [accE]

section
variable {u η : Rat} {rnd : Rat → Rat}

theorem accE_nonneg {l : List (Rat × Rat)} (h : ∀ e ∈ l, 0 ≤ e.1 ∧ 0 ≤ e.2) : 0 ≤ accE l :=
  List.sum_nonneg (by
    intro x hx
    obtain ⟨e, he, rfl⟩ := List.mem_map.1 hx
    exact mul_nonneg (h e he).1 (h e he).2)

theorem accR_bounds (r : Rounds u η rnd) {l : List (Rat × Rat)} (h : ∀ e ∈ l, 0 ≤ e.1 ∧ 0 ≤ e.2) :
    0 ≤ accR rnd l ∧ accR rnd l ≤ (1 + u) ^ (l.length + 1) * (accE l + 2 * l.length * η) ∧
      (1 - u) ^ (l.length + 1) * accE l - 2 * l.length * η ≤ accR rnd l := by
  have u0 := r.u0
  have u1 := r.u1
  have η0 := r.η0
  induction l using List.reverseRecOn with
  | nil => simp [accR, accE]
  | append_singleton l e ih =>
      obtain ⟨i0, i1, i2⟩ := ih fun e he => h e (by simp [he])
      have hE := accE_nonneg (l := l) fun e he => h e (by simp [he])
      have hx : 0 ≤ e.1 * e.2 := mul_nonneg (h e (by simp)).1 (h e (by simp)).2
      rw [accR_snoc, accE_snoc]
      simp only [List.length_append, List.length_singleton]
      generalize accR rnd l = a at *
      generalize accE l = E at *
      generalize e.1 * e.2 = x at *
      have m0 := r.nonneg x hx
      have m1 := r.le hx
      have m2 := r.ge hx
      generalize rnd x = y at *
      have s0 : 0 ≤ a + y := by linarith
      refine ⟨r.nonneg _ s0, (r.le s0).trans ?_, le_trans ?_ (r.ge s0)⟩
      · have g1 : (1 : Rat) ≤ (1 + u) ^ (l.length + 1) := one_le_pow₀ (by linarith)
        have g2 : 1 + u ≤ (1 + u) ^ (l.length + 1) := by
          have := pow_le_pow_right₀ (a := 1 + u) (by linarith) (show 1 ≤ l.length + 1 by omega)
          simpa using this
        have g3 : 1 + u ≤ (1 + u) ^ (l.length + 1 + 1) := by
          have := pow_le_pow_right₀ (a := 1 + u) (by linarith) (show 1 ≤ l.length + 1 + 1 by omega)
          simpa using this
        have g4 : (1 : Rat) ≤ (1 + u) ^ (l.length + 1 + 1) := one_le_pow₀ (by linarith)
        push_cast
        have p1 : (1 + u) * a ≤ (1 + u) ^ (l.length + 1 + 1) * (E + 2 * l.length * η) := by
          rw [pow_succ']
          have := mul_le_mul_of_nonneg_left i1 (show 0 ≤ 1 + u by linarith)
          rw [mul_assoc]
          exact this
        have p2 : (1 + u) * y ≤ (1 + u) ^ (l.length + 1 + 1) * (x + η) := by
          have a1 := mul_le_mul_of_nonneg_right g2 hx
          have a2 : y ≤ (1 + u) ^ (l.length + 1) * (x + η) := by
            have := mul_le_mul_of_nonneg_right g1 η0
            nlinarith
          rw [pow_succ', mul_assoc]
          exact mul_le_mul_of_nonneg_left a2 (by linarith)
        have p3 : η ≤ (1 + u) ^ (l.length + 1 + 1) * η := by
          have := mul_le_mul_of_nonneg_right g4 η0
          linarith
        have e1 : (1 + u) ^ (l.length + 1 + 1) * (E + x + 2 * ((l.length : Rat) + 1) * η) =
            (1 + u) ^ (l.length + 1 + 1) * (E + 2 * l.length * η) + (1 + u) ^ (l.length + 1 + 1) * (x + η) +
              (1 + u) ^ (l.length + 1 + 1) * η := by ring
        rw [e1]
        linarith
      · have g1 : (1 - u) ^ (l.length + 1) ≤ 1 - u := by
          have := pow_le_pow_of_le_one (a := 1 - u) (by linarith) (by linarith) (show 1 ≤ l.length + 1 by omega)
          simpa using this
        push_cast
        have v0 : 0 ≤ 1 - u := by linarith
        have l0 : (0 : Rat) ≤ l.length := by positivity
        have p1 := mul_le_mul_of_nonneg_left i2 v0
        have p2 := mul_le_mul_of_nonneg_left m2 v0
        have p3 : (1 - u) ^ (l.length + 1) * x ≤ (1 - u) * x := mul_le_mul_of_nonneg_right g1 hx
        have p4 := mul_le_mul_of_nonneg_left p3 v0
        have p5 : (1 - u) * (2 * l.length * η) ≤ 2 * l.length * η := by
          have : 0 ≤ u * (2 * l.length * η) := by positivity
          linarith
        have p6 : (1 - u) * η ≤ η := by
          have : 0 ≤ u * η := by positivity
          linarith
        have e1 : (1 - u) ^ (l.length + 1 + 1) * (E + x) =
          (1 - u) * ((1 - u) ^ (l.length + 1) * E) + (1 - u) * ((1 - u) ^ (l.length + 1) * x) := by ring
        rw [e1]
        linarith [p1, p2, p4, p5, p6]

/-- Rounding errors of `h` levels: `v` is computed instead of `V`. -/
def Within (α β T : Rat) (h : Nat) (V v : Rat) : Prop :=
  0 ≤ v ∧ v ≤ α ^ h * (V + T * h) ∧ β ^ h * V - T * h * α ^ h ≤ v

/-- What the two growth factors have to satisfy. -/
structure Factors (u η δ : Rat) (D : Nat) (α β T : Rat) : Prop where
  δ0 : 0 ≤ δ
  α1 : 1 ≤ α
  αg : (1 + u) ^ (D + 1) * (1 + δ) ≤ α
  αd : 1 ≤ α * (1 - δ)
  β0 : 0 ≤ β
  βg : β ≤ (1 - u) ^ (D + 1)
  βd : β * (1 + δ) ≤ 1
  T : T = 2 * D * η

variable {δ α β T : Rat} {D : Nat}

theorem Factors.αδ (F : Factors u η δ D α β T) (hu : 0 ≤ u) : 1 + δ ≤ α := by
  have : (1 : Rat) ≤ (1 + u) ^ (D + 1) := one_le_pow₀ (by linarith)
  have := mul_le_mul_of_nonneg_right this (show 0 ≤ 1 + δ by have := F.δ0; linarith)
  have := F.αg
  linarith

theorem within_skip (F : Factors u η δ D α β T) (T0 : 0 ≤ T) {h : Nat} {V v : Rat} (hV : 0 ≤ V)
    (w : Within α β T h V v) {r : Rat} (hr : |r - 1| ≤ δ) : Within α β T (h + 1) (r * V) v := by
  obtain ⟨w0, w1, w2⟩ := w
  have α1 := F.α1
  have α0 : 0 ≤ α := by linarith
  obtain ⟨r1, r2⟩ := abs_le.1 hr
  have ph : (0 : Rat) ≤ α ^ h := by positivity
  have pb : (0 : Rat) ≤ β ^ h := pow_nonneg F.β0 h
  have hh : (0 : Rat) ≤ h := by positivity
  refine ⟨w0, w1.trans ?_, le_trans ?_ w2⟩
  · have a1 : V ≤ α * (r * V) := by
      have := mul_le_mul_of_nonneg_right F.αd hV
      have := mul_le_mul_of_nonneg_left (mul_le_mul_of_nonneg_right (show 1 - δ ≤ r by linarith) hV) α0
      linarith
    have a2 : T * h ≤ α * (T * (h + 1 : Nat)) := by
      push_cast
      have : 0 ≤ T * h := by positivity
      nlinarith
    rw [pow_succ, mul_assoc]
    refine mul_le_mul_of_nonneg_left ?_ ph
    linarith
  · have a1 : β * (r * V) ≤ V := by
      have := mul_le_mul_of_nonneg_left (mul_le_mul_of_nonneg_right (show r ≤ 1 + δ by linarith) hV) F.β0
      have := mul_le_mul_of_nonneg_right F.βd hV
      linarith
    have a2 : T * h * α ^ h ≤ T * (h + 1 : Nat) * α ^ (h + 1) := by
      push_cast
      rw [pow_succ]
      have x1 : 0 ≤ T * h * α ^ h := by positivity
      have x2 : T * h * α ^ h ≤ T * (h + 1) * α ^ h := by
        have : 0 ≤ T * α ^ h := by positivity
        linarith
      have x3 : 0 ≤ T * (h + 1) * α ^ h := by positivity
      nlinarith
    have a3 := mul_le_mul_of_nonneg_left a1 pb
    rw [pow_succ]
    linarith

theorem sum_hi {l : List (Rat × Rat × Rat)} {A B : Rat} (hp : ∀ e ∈ l, 0 ≤ e.2.2)
    (hw : ∀ e ∈ l, e.1 ≤ A * (e.2.1 + B)) : accE (l.map fun e => (e.1, e.2.2)) ≤
      A * ((l.map fun e => e.2.1 * e.2.2).sum + B * (l.map fun e => e.2.2).sum) := by
  induction l with
  | nil => simp [accE]
  | cons e l ih =>
      have i := ih (fun e he => hp e (by simp [he])) (fun e he => hw e (by simp [he]))
      have h1 := mul_le_mul_of_nonneg_right (hw e (by simp)) (hp e (by simp))
      unfold accE at i ⊢
      simp only [List.map_cons, List.sum_cons]
      linarith

theorem sum_lo {l : List (Rat × Rat × Rat)} {b C : Rat} (hp : ∀ e ∈ l, 0 ≤ e.2.2)
    (hw : ∀ e ∈ l, b * e.2.1 - C ≤ e.1) : b * (l.map fun e => e.2.1 * e.2.2).sum -
      C * (l.map fun e => e.2.2).sum ≤ accE (l.map fun e => (e.1, e.2.2)) := by
  induction l with
  | nil => simp [accE]
  | cons e l ih =>
      have i := ih (fun e he => hp e (by simp [he])) (fun e he => hw e (by simp [he]))
      have h1 := mul_le_mul_of_nonneg_right (hw e (by simp)) (hp e (by simp))
      unfold accE at i ⊢
      simp only [List.map_cons, List.sum_cons]
      linarith

theorem within_node (r : Rounds u η rnd) (F : Factors u η δ D α β T) {h : Nat} {l : List (Rat × Rat × Rat)}
    (hl : l.length ≤ D) (hp : ∀ e ∈ l, 0 ≤ e.2.2) (hs : (l.map fun e => e.2.2).sum ≤ 1 + δ)
    (hw : ∀ e ∈ l, Within α β T h e.2.1 e.1) (hV : ∀ e ∈ l, 0 ≤ e.2.1) :
    Within α β T (h + 1) (l.map fun e => e.2.1 * e.2.2).sum (accR rnd (l.map fun e => (e.1, e.2.2))) := by
  have u0 := r.u0
  have u1 := r.u1
  have η0 := r.η0
  have α1 := F.α1
  have α0 : 0 ≤ α := by linarith
  have δ0 := F.δ0
  have T0 : 0 ≤ T := by rw [F.T]; positivity
  have hn : ∀ e ∈ l.map fun e => (e.1, e.2.2), 0 ≤ e.1 ∧ 0 ≤ e.2 := by
    intro e he
    obtain ⟨e', he', rfl⟩ := List.mem_map.1 he
    exact ⟨(hw e' he').1, hp e' he'⟩
  obtain ⟨b0, b1, b2⟩ := accR_bounds r hn
  have hE := accE_nonneg hn
  have hi := sum_hi hp fun e he => (hw e he).2.1
  have lo := sum_lo hp fun e he => (hw e he).2.2
  have hW : 0 ≤ (l.map fun e => e.2.1 * e.2.2).sum := List.sum_nonneg (by
    intro x hx
    obtain ⟨e, he, rfl⟩ := List.mem_map.1 hx
    exact mul_nonneg (hV e he) (hp e he))
  rw [List.length_map] at b1 b2
  generalize accR rnd (l.map fun e => (e.1, e.2.2)) = a at *
  generalize accE (l.map fun e => (e.1, e.2.2)) = E at *
  generalize (l.map fun e => e.2.1 * e.2.2).sum = W at *
  generalize (l.map fun e => e.2.2).sum = p at *
  have hlD : (l.length : Rat) ≤ D := by exact_mod_cast hl
  have hlT : 2 * l.length * η ≤ T := by
    rw [F.T]
    have := mul_le_mul_of_nonneg_right hlD η0
    linarith
  have hh : (0 : Rat) ≤ h := by positivity
  have ph : (1 : Rat) ≤ α ^ h := one_le_pow₀ α1
  have Th : 0 ≤ T * h := by positivity
  refine ⟨b0, b1.trans ?_, le_trans ?_ b2⟩
  · have g1 : (1 + u) ^ (l.length + 1) ≤ (1 + u) ^ (D + 1) := pow_le_pow_right₀ (by linarith) (by omega)
    have s1 : E ≤ α ^ h * (W + T * h * (1 + δ)) :=
      hi.trans (mul_le_mul_of_nonneg_left (by
        have := mul_le_mul_of_nonneg_left hs Th
        linarith) (by linarith))
    have s2 : E + 2 * l.length * η ≤ α ^ h * ((1 + δ) * (W + T * (h + 1))) := by
      have a1 : T ≤ α ^ h * T := by
        have := mul_le_mul_of_nonneg_right ph T0
        linarith
      have a2 : α ^ h * (W + T * h * (1 + δ)) + α ^ h * T ≤ α ^ h * ((1 + δ) * (W + T * (h + 1))) := by
        rw [← mul_add]
        refine mul_le_mul_of_nonneg_left ?_ (by linarith)
        have x1 : 0 ≤ δ * W := by positivity
        have x2 : 0 ≤ δ * T := by positivity
        linarith
      linarith
    have s3 : (1 + u) ^ (l.length + 1) * (E + 2 * l.length * η) ≤
        (1 + u) ^ (D + 1) * (α ^ h * ((1 + δ) * (W + T * (h + 1)))) :=
      mul_le_mul g1 s2 (by positivity) (by positivity)
    refine s3.trans ?_
    rw [pow_succ α h]
    push_cast
    have := mul_le_mul_of_nonneg_right F.αg (show 0 ≤ α ^ h * (W + T * (h + 1)) by positivity)
    linarith
  · have v0 : 0 ≤ 1 - u := by linarith
    have g1 : (1 - u) ^ (D + 1) ≤ (1 - u) ^ (l.length + 1) := pow_le_pow_of_le_one v0 (by linarith) (by omega)
    have g2 : (1 - u) ^ (D + 1) ≤ 1 := pow_le_one₀ v0 (by linarith)
    have g0 : 0 ≤ (1 - u) ^ (D + 1) := pow_nonneg v0 _
    have C0 : 0 ≤ T * h * α ^ h := by positivity
    have s1 : β ^ h * W - T * h * α ^ h * (1 + δ) ≤ E := by
      have := mul_le_mul_of_nonneg_left hs C0
      linarith
    have s2 : (1 - u) ^ (D + 1) * (β ^ h * W - T * h * α ^ h * (1 + δ)) ≤ (1 - u) ^ (l.length + 1) * E :=
      (mul_le_mul_of_nonneg_left s1 g0).trans (mul_le_mul_of_nonneg_right g1 hE)
    have s3 : β ^ (h + 1) * W ≤ (1 - u) ^ (D + 1) * (β ^ h * W) := by
      rw [pow_succ β h]
      have := mul_le_mul_of_nonneg_right F.βg (show 0 ≤ β ^ h * W from mul_nonneg (pow_nonneg F.β0 h) hW)
      linarith
    have s4 : (1 - u) ^ (D + 1) * (T * h * α ^ h * (1 + δ)) ≤ T * h * α ^ (h + 1) := by
      have x1 := mul_le_mul_of_nonneg_right g2 (show 0 ≤ T * h * α ^ h * (1 + δ) by positivity)
      have x2 := mul_le_mul_of_nonneg_left (F.αδ u0) C0
      rw [pow_succ α h]
      linarith
    have s5 : T ≤ T * α ^ (h + 1) := by
      have := mul_le_mul_of_nonneg_left (one_le_pow₀ α1 (n := h + 1)) T0
      linarith
    push_cast
    linarith

end

/-! ### The post-order computation -/

variable {c : Cfg} {ext : Ptr → Nat} {tmp : List Ptr} {S s : Mgr} {E : Env} {root : Ptr}

/-- What holds of the terminals and is handed on by the visits holds of the result. -/
theorem ntpsPostR_any {rnd : Rat → Rat} {P : Nat → Nat → Rat} (g : Good E ext S) (hp : S.used root = true)
    (hcl : CleanBelow S root) {f : Asg → Int} (hd : Den E.c S root f)
    (hU : ∀ x, Valid E.c x → f x ≠ Undefined) {selected : List Int} (hs : ∀ v ∈ selected, 0 ≤ v)
    (K : Ptr → Rat → Prop) (hleaf : ∀ q a, S.kind q = .leaf a → K q (if a ∈ selected then 1 else 0))
    (hinner : ∀ p i ss, S.used p = true → S.kind p = .inner i ss → ∀ v : Ptr → Rat, (∀ q ∈ ss, K q (v q)) →
      K p (accR rnd ((ss.zip (List.range ss.length)).map fun e => (v e.1, P i e.2)))) :
    Ok (ntpsPostR rnd E.c selected P root) S (fun r s' => K root r ∧ DSt S s') := by
  have h := g.inv
  unfold ntpsPostR
  refine Ok.bind (resetTerminals_ok h) ?_
  rintro _ s1 ⟨D1, hd1⟩
  have h1 := (D1.good g).inv
  have t1 : TermData s1 (fun _ => 0) s1.data := by
    intro q a hu hk ha
    rw [D1.used] at hu
    rw [D1.kind] at hk
    obtain ⟨v, _, hv⟩ := leaf_place h hu hk ha
    rw [hd1, if_pos (List.mem_of_getElem? hv)]
  refine Ok.bind (selectTerminals_ok h1 selected hs t1) ?_
  rintro _ s2 ⟨D2, t2⟩
  have D := D1.trans D2
  have g2 := D.good g
  have h2 := g2.inv
  have ho2 := g2.ord
  have hp2 : s2.used root = true := by rw [D.used]; exact hp
  have B : Below E.c s2 root := Below.of h2 ho2 hp2
  have hd2 : Den E.c s2 root f := by
    intro x hx
    rw [D.kind]
    exact hd x hx
  refine Ok.bind (traversePost_ok (I := fun ds (_ : Unit) d => ∀ q,
    (q ∈ ds ∨ ∃ a, s2.kind q = .leaf a ∧ Reach s2.kind root q) →
      ∃ v, d q = some v ∧ K q v) B ?_ ?_ ?_) ?_
  · intro q hq
    rw [D.kind] at hq
    rw [D.mark]
    exact hcl q hq
  · rintro q (hq | ⟨a, hk, hr⟩)
    · simp at hq
    · have := t2 q a (by rw [← D2.used]; exact B.used q hr) (by rw [← D2.kind]; exact hk)
        (leaf_defined g2 hp2 hd2 hU hr hk)
      exact ⟨_, this, hleaf q a (by rw [← D.kind]; exact hk)⟩
  · rintro vs ds p _ s hT hI hr hpd hsons
    have hup := B.used p hr
    have hus : s.used p = true := by rw [hT.used]; exact hup
    unfold ntpsPostVisitR
    refine Ok.bindEq (getKind_ok hus) ?_
    rw [hT.kind]
    cases hk : s2.kind p with
    | leaf a =>
        refine Ok.pure ⟨hT, ?_⟩
        rintro q (hq | hq)
        · rcases List.mem_append.1 hq with hq | hq
          · exact hI q (Or.inl hq)
          · simp at hq
            subst hq
            exact hI q (Or.inr ⟨a, hk, hr⟩)
        · exact hI q (Or.inr hq)
    | inner i ss =>
        dsimp only
        obtain ⟨hi, hlen, hu⟩ := h2.sons p i ss hup hk
        let v : Ptr → Rat := fun q => (s.data q).getD 0
        have hv : ∀ q ∈ ss, s.data q = some (v q) ∧ K q (v q) := by
          intro q hq
          obtain ⟨x, hx, hK⟩ := hI q (Or.inl (hsons q (by rw [sonsOf_inner hk]; exact hq)))
          have e : v q = x := by simp [v, hx]
          rw [e]
          exact ⟨hx, hK⟩
        refine Ok.bindEq (setData_ok hus 0) ?_
        refine (forL_rule (I := fun rest s' => TSt s2 s2.mark true vs s' ∧
          (∀ q, q ≠ p → s'.data q = s.data q) ∧ ∃ done, ss.zip (List.range ss.length) = done ++ rest ∧
          s'.data p = some (accR rnd (done.map fun e => (v e.1, P i e.2)))) ?_ _ _
          ⟨?_, ?_, [], by simp, by simp [accR]⟩).mono ?_
        · rintro ⟨q, k⟩ rest s' ⟨hT', hoth, done, hz, hpv⟩
          have hq : q ∈ ss := by
            have : (q, k) ∈ ss.zip (List.range ss.length) := by rw [hz]; simp
            exact (List.of_mem_zip this).1
          have hlt := ho2 p i ss q hup hk hq
          have hqp : q ≠ p := by rintro rfl; omega
          have hqu : s'.used q = true := by rw [hT'.used]; exact hu q hq
          have hpu : s'.used p = true := by rw [hT'.used]; exact hup
          refine Ok.bindEq (getData_ok hqu (by rw [hoth q hqp]; exact (hv q hq).1)) ?_
          refine Ok.bindEq (getData_ok hpu hpv) ?_
          refine Ok.of_eq (setData_ok hpu _) ⟨hT'.setData _, ?_, done ++ [(q, k)], by simp [hz], ?_⟩
          · intro q' hq'
            simp [upd_apply, hq', hoth q' hq']
          · dsimp only
            rw [upd_same, List.map_append, List.map_cons, List.map_nil, accR_snoc]
        · exact hT.setData _
        · intro q' hq'
          simp [upd_apply, hq']
        · rintro _ s' ⟨hT', hoth, done, hz, hpv⟩
          simp only [List.append_nil] at hz
          refine ⟨hT', ?_⟩
          intro q hq
          by_cases e : q = p
          · rw [e]
            refine ⟨_, hpv, ?_⟩
            rw [← hz]
            exact hinner p i ss (by rw [← D.used]; exact hup) (by rw [← D.kind]; exact hk) v fun q hq => (hv q hq).2
          · rw [hoth q e]
            refine hI q ?_
            rcases hq with hq | hq
            · rcases List.mem_append.1 hq with hq | hq
              · exact Or.inl hq
              · simp at hq; exact absurd hq e
            · exact Or.inr hq
  · rintro _ s3 ⟨vs, _, hvs, e, hI⟩
    have D3 : DSt s2 s3 := e
    obtain ⟨v, hv, hK⟩ := hI root (Or.inl ((hvs root).2 .refl))
    exact Ok.of_eq (getData_ok (by rw [D3.used]; exact hp2) hv) ⟨hK, D.trans D3⟩

section
variable {u η δ α β T : Rat} {rnd : Rat → Rat} {D : Nat} {P : Nat → Nat → Rat} {G : Int → Rat}

theorem wsum_nonneg {dom : Nat → Nat} {vars : List Nat} (hP : ∀ i ∈ vars, ∀ k, k < dom i → 0 ≤ P i k)
    {φ : Asg → Rat} (hφ : ∀ x, 0 ≤ φ x) : 0 ≤ wsum dom P vars φ := by
  induction vars generalizing φ with
  | nil => exact hφ _
  | cons i is ih =>
      simp only [wsum]
      refine List.sum_nonneg ?_
      intro x hx
      obtain ⟨k, hk, rfl⟩ := List.mem_map.1 hx
      exact mul_nonneg (hP i (by simp) k (List.mem_range.1 hk))
        (ih (fun j hj => hP j (by simp [hj])) fun _ => hφ _)

theorem nodeSum_nonneg (h : OrderOK c S) (hP : NearlySumsToOne δ c.n c.dom P) (hG : ∀ a, 0 ≤ G a) {l : Nat}
    {p : Ptr} : 0 ≤ nodeSum c S P G l p :=
  wsum_nonneg (fun i hi k hk => (hP i ((mem_varsFrom h).1 hi).1).1 k hk) fun _ => hG _

theorem within_level (h : Inv c ext tmp S) (ho : Ordered c S) (hc : CfgOK c) (F : Factors u η δ D α β T)
    (T0 : 0 ≤ T) (hP : NearlySumsToOne δ c.n c.dom P) (hG : ∀ a, 0 ≤ G a) {p : Ptr} (hp : S.used p = true)
    {v : Rat} (w : Within α β T (c.n - S.levelOf c p) (prOf c S P G p) v) {l : Nat} (hl : l ≤ S.levelOf c p) :
    Within α β T (c.n - l) (nodeSum c S P G l p) v := by
  have hle := levelOf_le h hp
  generalize hd : S.levelOf c p - l = d
  induction d generalizing l with
  | zero =>
      rw [show l = S.levelOf c p by omega]
      exact w
  | succ d ih =>
      have hlt : l < S.levelOf c p := by omega
      rw [nodeSum_skip h ho hc hp hlt, show c.n - l = c.n - (l + 1) + 1 by omega]
      exact within_skip F T0 (nodeSum_nonneg h.order hP hG) (ih (by omega) (by omega))
        (hP _ (h.order.l2i_lt l (by omega))).2

theorem within_inner (r : Rounds u η rnd) (F : Factors u η δ D α β T) (h : Inv c ext tmp S) (ho : Ordered c S)
    (hc : CfgOK c) (hD : ∀ i, i < c.n → c.dom i ≤ D) (hP : NearlySumsToOne δ c.n c.dom P) (hG : ∀ a, 0 ≤ G a)
    {p : Ptr} {i : Nat} {ss : List Ptr} (hu : S.used p = true) (hk : S.kind p = .inner i ss) {v : Ptr → Rat}
    (hv : ∀ q ∈ ss, Within α β T (c.n - S.levelOf c q) (prOf c S P G q) (v q)) :
    Within α β T (c.n - S.levelOf c p) (prOf c S P G p)
      (accR rnd ((ss.zip (List.range ss.length)).map fun e => (v e.1, P i e.2))) := by
  have η0 := r.η0
  have T0 : 0 ≤ T := by rw [F.T]; positivity
  obtain ⟨hi, hlen, hus⟩ := h.sons p i ss hu hk
  have hlev : S.levelOf c p = S.idx2lvl i := by simp [Mgr.levelOf, hk]
  have hlt := h.order.i2l_lt i hi
  let l : List (Rat × Rat × Rat) := (ss.zip (List.range ss.length)).map fun e =>
    (v e.1, nodeSum c S P G (S.idx2lvl i + 1) e.1, P i e.2)
  have hl : l.length = c.dom i := by simp [l, hlen]
  have hmem : ∀ e ∈ ss.zip (List.range ss.length), e.1 ∈ ss ∧ e.2 < c.dom i := by
    rintro ⟨q, k⟩ he
    obtain ⟨h1, h2⟩ := List.of_mem_zip he
    exact ⟨h1, by rw [← hlen]; exact List.mem_range.1 h2⟩
  have key := within_node (rnd := rnd) r F (h := c.n - (S.idx2lvl i + 1)) (l := l)
    (by rw [hl]; exact hD i hi) ?_ ?_ ?_ ?_
  · rw [hlev, show c.n - S.idx2lvl i = c.n - (S.idx2lvl i + 1) + 1 by omega]
    have e1 : (l.map fun e => (e.1, e.2.2)) = (ss.zip (List.range ss.length)).map fun e => (v e.1, P i e.2) := by
      simp [l]
    have e2 : (l.map fun e => e.2.1 * e.2.2).sum = prOf c S P G p := by
      unfold prOf
      rw [hlev, nodeSum_inner h ho hc hu hk]
      congr 1
      refine List.ext_getElem (by simp [l]) ?_
      intro k h1 h2
      have hkl : k < ss.length := by simpa using h2
      simp [l, List.getD, hkl, mul_comm]
    rw [e1, e2] at key
    exact key
  · intro e he
    obtain ⟨⟨q, k⟩, hz, rfl⟩ := List.mem_map.1 he
    exact (hP i hi).1 k (hmem _ hz).2
  · have e : (l.map fun e => e.2.2) = (List.range (c.dom i)).map (P i) := by
      refine List.ext_getElem (by simp [l, hlen]) ?_
      intro k h1 h2
      simp [l]
    rw [e]
    have := (abs_le.1 (hP i hi).2).2
    linarith
  · intro e he
    obtain ⟨⟨q, k⟩, hz, rfl⟩ := List.mem_map.1 he
    have hq := (hmem _ hz).1
    have := ho p i ss q hu hk hq
    exact within_level h ho hc F T0 hP hG (hus q hq) (hv q hq) (by omega)
  · intro e he
    obtain ⟨⟨q, k⟩, hz, rfl⟩ := List.mem_map.1 he
    exact nodeSum_nonneg h.order hP hG

theorem ntpsPostR_ok (r : Rounds u η rnd) (F : Factors u η δ D α β T) (g : Good E ext S) (hp : S.used root = true)
    (hcl : CleanBelow S root) {f : Asg → Int} (hd : Den E.c S root f)
    (hU : ∀ x, Valid E.c x → f x ≠ Undefined) (hD : ∀ i, i < E.c.n → E.c.dom i ≤ D)
    (hP : NearlySumsToOne δ E.c.n E.c.dom P) {selected : List Int} (hs : ∀ v ∈ selected, 0 ≤ v) :
    Ok (ntpsPostR rnd E.c selected P root) S (fun v s' =>
      Within α β T E.c.n (probability E.c.n E.c.dom P (fun x => decide (f x ∈ selected))) v ∧ DSt S s') := by
  have h := g.inv
  have ho := g.ord
  have hc := g.cfg
  have η0 := r.η0
  have T0 : 0 ≤ T := by rw [F.T]; positivity
  let G : Int → Rat := fun a => if decide (a ∈ selected) then 1 else 0
  have hG : ∀ a, 0 ≤ G a := fun a => by
    simp only [G]
    split <;> norm_num
  refine (ntpsPostR_any g hp hcl hd hU hs
    (fun q v => S.used q = true → Within α β T (E.c.n - S.levelOf E.c q) (prOf E.c S P G q) v) ?_ ?_).mono ?_
  · intro q a hk _
    rw [prOf_leaf hk]
    have e : S.levelOf E.c q = E.c.n := by simp [Mgr.levelOf, hk]
    rw [e]
    have := hG a
    simp only [G, decide_eq_true_eq] at this ⊢
    refine ⟨this, ?_, ?_⟩ <;> simp
  · intro p i ss hu hk v hv _
    exact within_inner r F h ho hc hD hP hG hu hk fun q hq => hv q hq ((h.sons p i ss hu hk).2.2 q hq)
  · rintro v s' ⟨hK, Ds⟩
    refine ⟨?_, Ds⟩
    have := within_level h ho hc F T0 hP hG hp (hK hp) (Nat.zero_le _)
    rw [Nat.sub_zero] at this
    convert this using 1
    rw [probability_eq (varsFrom_zero_perm h.order)]
    unfold nodeSum
    refine wsum_congr (nodup_varsFrom h.order) ?_
    intro x h1 h2
    rw [valOf_eq (hd x (valid_of_vars hc h1 h2))]

theorem ntpsValuesR_ok (r : Rounds u η rnd) (F : Factors u η δ D α β T) (g : Good E ext S)
    (hp : S.used root = true) (hcl : CleanBelow S root) {f : Asg → Int} (hd : Den E.c S root f)
    (hU : ∀ x, Valid E.c x → f x ≠ Undefined) (hD : ∀ i, i < E.c.n → E.c.dom i ≤ D)
    (hP : NearlySumsToOne δ E.c.n E.c.dom P) (φ : Int → Bool) :
    Ok (do
      let states ← terminalValues φ
      ntpsPostR rnd E.c states P root) S (fun v s' =>
      Within α β T E.c.n (probability E.c.n E.c.dom P (fun x => φ (f x))) v ∧ DSt S s') := by
  have h := g.inv
  refine Ok.bind (terminalValues_ok h φ) ?_
  rintro l s' ⟨rfl, hl⟩
  refine (ntpsPostR_ok r F g hp hcl hd hU hD hP ?_).mono ?_
  · intro v hv
    obtain ⟨_, h1, p, hu, hk⟩ := (hl v).1 hv
    obtain ⟨k, rfl, _⟩ := leaf_place h hu hk h1
    omega
  · rintro v s2 ⟨hw, D⟩
    refine ⟨?_, D⟩
    have e : probability E.c.n E.c.dom P (fun x => φ (f x)) =
        probability E.c.n E.c.dom P (fun x => decide (f x ∈ l)) := by
      refine probability_congr h.order g.cfg ?_
      intro x hx
      have : f x ∈ l ↔ φ (f x) = true := by
        rw [hl]
        refine ⟨fun h => h.1, fun hφ => ⟨hφ, hU x hx, ?_⟩⟩
        obtain ⟨q, hr, hk⟩ := (leafVal_iff g hp hd).2 ⟨x, hx, rfl⟩
        exact ⟨q, hr.used h hp, hk⟩
      by_cases hφ : φ (f x) = true
      · simp [this.2 hφ, hφ]
      · have hn : f x ∉ l := fun h => hφ (this.1 h)
        simp [hn, hφ]
    rw [e]
    exact hw

end

/-! ### Counting -/

/-- `satisfy_count` is exact as long as the number of assignments is exactly representable. -/
theorem satisfyCountDataR_ok {rnd : Rat → Rat} {N : Nat} (hrnd : ∀ k : Nat, k ≤ N → rnd k = k) (g : Good E ext S)
    (hp : S.used root = true) (hcl : CleanBelow S root) (hf : CountFits E.c)
    (hN : (allAsg E.c.n E.c.dom).length ≤ N) {f : Asg → Int} (hd : Den E.c S root f) {v : Int}
    (hv : ∀ m, E.c.fixedDom = some m → E.c.asserts = true → v < m) :
    Ok (satisfyCountDataR rnd E.c v root) S (fun r s' =>
      r = (countValue E.c.n E.c.dom f v : Nat) ∧ DSt S s') := by
  have h := g.inv
  have ho := g.ord
  have hc := g.cfg
  have B : Below E.c S root := Below.of h ho hp
  have tot := total_fits h.order hc hf
  rw [total_eq h.order] at hN
  have below : ∀ l r, l ≤ r → r ≤ E.c.n → prodBetween E.c S l r ≤ N := fun l r h1 h2 =>
    (prodBetween_le h.order hc (Nat.zero_le _) h1 h2 (Nat.le_refl _)).trans hN
  unfold satisfyCountDataR
  refine Ok.bindEq (assertValue_ok hv) ?_
  refine Ok.bind (traversePost_ok (I := fun ds (_ : Unit) d =>
    ∀ q ∈ ds, d q = some ((cnt E.c S v (S.levelOf E.c q) q : Nat) : Rat)) B hcl (by simp) ?_) ?_
  · rintro vs ds p _ s hT hm hr hpd hsons
    have hup := B.used p hr
    have hus : s.used p = true := by rw [hT.used]; exact hup
    unfold satCountDataVisitR
    refine Ok.bindEq (getKind_ok hus) ?_
    rw [hT.kind]
    have fin : ∀ s', TSt S S.mark true vs s' → (∀ q, q ≠ p → s'.data q = s.data q) →
        s'.data p = some ((cnt E.c S v (S.levelOf E.c p) p : Nat) : Rat) →
        (TSt S S.mark true vs s' ∧ ∀ q ∈ ds ++ [p],
          s'.data q = some ((cnt E.c S v (S.levelOf E.c q) q : Nat) : Rat)) := by
      intro s' hT' hoth hpp
      refine ⟨hT', fun q hq => ?_⟩
      by_cases e : q = p
      · rw [e]; exact hpp
      · rw [hoth q e]
        rcases List.mem_append.1 hq with hq | hq
        · exact hm q hq
        · simp at hq; contradiction
    cases hk : S.kind p with
    | leaf a =>
        refine Ok.of_eq (setData_ok hus _) (fin _ (hT.setData _) ?_ ?_)
        · intro q hq
          simp [upd_apply, hq]
        · have : S.levelOf E.c p = E.c.n := by simp [Mgr.levelOf, hk]
          rw [this]
          unfold cnt
          rw [nodeSum_leaf hk]
          dsimp only
          rw [upd_same]
          split <;> simp
    | inner i ss =>
        dsimp only
        have hlev : S.levelOf E.c p = S.idx2lvl i := by simp [Mgr.levelOf, hk]
        have hin := h.sons p i ss hup hk
        have hlt := h.order.i2l_lt i hin.1
        refine Ok.bindEq (setData_ok hus 0) ?_
        refine Ok.bindGet ?_
        refine (forL_rule (I := fun rest s' => TSt S S.mark true vs s' ∧
          (∀ q, q ≠ p → s'.data q = s.data q) ∧ ∃ done, ss = done ++ rest ∧
          s'.data p = some (((done.map (cnt E.c S v (S.idx2lvl i + 1))).sum : Nat) : Rat)) ?_ _ _
          ⟨hT.setData _, ?_, [], by simp, by simp⟩).mono ?_
        · rintro q rest s' ⟨hT', hoth, done, hss, hpv⟩
          have hqs : q ∈ ss := by rw [hss]; simp
          have hqu : S.used q = true := hin.2.2 q hqs
          have hqu' : s'.used q = true := by rw [hT'.used]; exact hqu
          have hpu' : s'.used p = true := by rw [hT'.used]; exact hup
          have hlq := ho p i ss q hup hk hqs
          have hqp : q ≠ p := by rintro rfl; omega
          have hqle := levelOf_le h hqu
          refine Ok.bindEq (getLevel_ok hqu') ?_
          have e1 : s'.levelOf E.c q = S.levelOf E.c q := by
            simp [Mgr.levelOf, hT'.kind, hT'.i2l]
          rw [e1]
          dsimp only
          rw [hT.i2l]
          refine Ok.bindEq (domainProduct_ok h.order hc hf hqle hT'.l2i) ?_
          have hmq := hm q (hsons q (by rw [sonsOf_inner hk]; exact hqs))
          refine Ok.bindEq (getData_ok hqu' (by rw [hoth q hqp]; exact hmq)) ?_
          refine Ok.bindEq (getData_ok hpu' hpv) ?_
          refine Ok.of_eq (setData_ok hpu' _) ⟨hT'.setData _, ?_, done ++ [q], by simp [hss], ?_⟩
          · intro q' hq'
            simp [upd_apply, hq', hoth q' hq']
          · dsimp only
            rw [upd_same]
            congr 1
            simp only [List.map_append, List.sum_append, List.map_cons, List.map_nil, List.sum_cons,
              List.sum_nil, Nat.add_zero]
            have hq1 : S.idx2lvl i + 1 ≤ S.levelOf E.c q := by omega
            have r1 := hrnd _ (below _ _ hq1 hqle)
            have r2 : rnd ((cnt E.c S v (S.idx2lvl i + 1) q : Nat) : Rat) = _ :=
              hrnd _ ((cnt_le h).trans (below _ _ (by omega) (Nat.le_refl _)))
            have r3 := hrnd ((done.map (cnt E.c S v (S.idx2lvl i + 1))).sum + cnt E.c S v (S.idx2lvl i + 1) q) (by
              refine le_trans ?_ ((cnt_le (v := v) (l := S.idx2lvl i) (p := p) h).trans
                (below _ _ (by omega) (Nat.le_refl _)))
              rw [cnt_inner h ho hc hup hk, hss]
              simp only [List.map_append, List.sum_append, List.map_cons, List.sum_cons]
              omega)
            have e2 : ((cnt E.c S v (S.levelOf E.c q) q : Nat) : Rat) *
                ((prodBetween E.c S (S.idx2lvl i + 1) (S.levelOf E.c q) : Nat) : Rat) =
                ((cnt E.c S v (S.idx2lvl i + 1) q : Nat) : Rat) := by
              rw [cnt_skip h ho hc hqu hq1]
              push_cast
              ring
            push_cast at r1 r3 ⊢
            rw [r1, e2, r2, r3]
        · intro q hq
          simp [upd_apply, hq]
        · rintro _ s' ⟨hT', hoth, done, hss, hpv⟩
          simp only [List.append_nil] at hss
          refine fin s' hT' hoth ?_
          rw [hpv, hlev, cnt_inner h ho hc hup hk, hss]
  · rintro _ s' ⟨vs, _, hvs, e, hm⟩
    have D : DSt S s' := e
    have hp' : s'.used root = true := by rw [D.used]; exact hp
    refine Ok.bindEq (getLevel_ok hp') ?_
    have e1 : s'.levelOf E.c root = S.levelOf E.c root := by
      simp [Mgr.levelOf, D.kind, D.i2l]
    rw [e1]
    have hle := levelOf_le h hp
    refine Ok.bindEq (getData_ok hp' (hm root ((hvs root).2 .refl))) ?_
    have hfl : (((cnt E.c S v (S.levelOf E.c root) root : Nat) : Rat)).floor
        = ((cnt E.c S v (S.levelOf E.c root) root : Nat) : Int) := by
      simp [Rat.floor]
    rw [hfl]
    have hc1 : cnt E.c S v (S.levelOf E.c root) root ≤ 9223372036854775807 := by
      refine (cnt_le h).trans ((prodBetween_le h.order hc (Nat.zero_le _) hle (Nat.le_refl _)
        (Nat.le_refl _)).trans tot)
    refine Ok.bindEq (liftE_fit64 hc1) ?_
    refine Ok.bindEq (domainProduct_ok h.order hc hf hle D.l2i) ?_
    have e2 : ((cnt E.c S v (S.levelOf E.c root) root : Nat) : Int)
        * ((prodBetween E.c S 0 (S.levelOf E.c root) : Nat) : Int)
        = ((countValue E.c.n E.c.dom f v : Nat) : Int) := by
      rw [← cnt_root h hc hd, cnt_skip h ho hc hp (Nat.zero_le _)]
      push_cast; ring
    rw [e2]
    refine Ok.of_eq (liftE_fit64 ?_) ⟨rfl, D⟩
    rw [← cnt_root h hc hd]
    exact (cnt_le h).trans tot

theorem countValue_le {n : Nat} {dom : Nat → Nat} {f : Asg → Int} {v : Int} :
    countValue n dom f v ≤ (allAsg n dom).length := List.length_filter_le _ _

/-- `state_frequency` rounds once. -/
theorem stateFrequencyR_ok {rnd : Rat → Rat} {N : Nat} (hrnd : ∀ k : Nat, k ≤ N → rnd k = k) (g : Good E ext S)
    (hp : S.used root = true) (hcl : CleanBelow S root) (hf : CountFits E.c)
    (hN : (allAsg E.c.n E.c.dom).length ≤ N) {f : Asg → Int} (hd : Den E.c S root f) {v : Int}
    (hv : ∀ m, E.c.fixedDom = some m → E.c.asserts = true → v < m) :
    Ok (stateFrequencyR rnd E.c v root) S (fun r s' =>
      r = rnd ((countValue E.c.n E.c.dom f v : Rat) / ((allAsg E.c.n E.c.dom).length : Rat)) ∧ DSt S s') := by
  unfold stateFrequencyR
  refine Ok.bindEq (domainProduct_ok g.inv.order g.cfg hf (Nat.le_refl _) rfl) ?_
  refine Ok.bind (satisfyCountDataR_ok hrnd g hp hcl hf hN hd hv) ?_
  rintro k s' ⟨rfl, D⟩
  refine Ok.pure ⟨?_, D⟩
  rw [← total_eq g.inv.order]
  have r1 := hrnd _ hN
  have r2 := hrnd _ ((countValue_le (f := f) (v := v)).trans hN)
  push_cast
  rw [r1, r2]

/-! ### The size of the errors -/

theorem pow_growth {x y : Rat} (hx : 0 ≤ x) (hy : 0 ≤ y) {a b : Nat} (h : a * x + b * y ≤ 1 / 2) :
    (1 + x) ^ a * (1 + y) ^ b ≤ 1 + 2 * (a * x + b * y) := by
  have one : ∀ {x : Rat}, 0 ≤ x → ∀ {a : Nat} {s : Rat}, 0 ≤ s → s + a * x ≤ 1 / 2 →
      (1 + x) ^ a * (1 + 2 * s) ≤ 1 + 2 * (s + a * x) := by
    intro x hx a
    induction a with
    | zero => intro s _ _; simp
    | succ a ih =>
        intro s hs h
        push_cast at h ⊢
        have h0 : 0 ≤ (a : Rat) * x := by positivity
        have i := ih (s := s + x) (by linarith) (by linarith)
        have : (1 + x) * (1 + 2 * s) ≤ 1 + 2 * (s + x) := by nlinarith
        have := mul_le_mul_of_nonneg_left this (show 0 ≤ (1 + x) ^ a by positivity)
        rw [pow_succ]
        linarith
  have h0 : 0 ≤ (b : Rat) * y := by positivity
  have ha : 0 ≤ (a : Rat) * x := by positivity
  have h1 := one hy (a := b) (s := 0) (le_refl _) (by linarith)
  have h2 := one hx (a := a) h0 (by linarith)
  have h3 := mul_le_mul_of_nonneg_left h1 (show 0 ≤ (1 + x) ^ a by positivity)
  simp only [mul_zero, add_zero, mul_one, zero_add] at h3
  linarith

theorem pow_decay {x y : Rat} (hx : 0 ≤ x) (hx1 : x ≤ 1) (hy : 0 ≤ y) (hy1 : y ≤ 1) {a b : Nat}
    (h : a * x + b * y ≤ 1) : 1 - (a * x + b * y) ≤ (1 - x) ^ a * (1 - y) ^ b := by
  have h1 := one_add_mul_le_pow (a := -x) (by linarith) a
  have h2 := one_add_mul_le_pow (a := -y) (by linarith) b
  have p0 : 0 ≤ (a : Rat) * x := by positivity
  have q0 : 0 ≤ (b : Rat) * y := by positivity
  rw [← sub_eq_add_neg] at h1 h2
  have h3 : (1 + (a : Rat) * -x) * (1 + (b : Rat) * -y) ≤ (1 - x) ^ a * (1 - y) ^ b :=
    mul_le_mul h1 h2 (by linarith) (pow_nonneg (by linarith) a)
  nlinarith [mul_nonneg p0 q0]

theorem factors {u η δ : Rat} (u0 : 0 ≤ u) (u1 : u ≤ 1) (D : Nat) (δ0 : 0 ≤ δ) (δ1 : δ ≤ 1 / 2) :
    Factors u η δ D ((1 + u) ^ (D + 1) * (1 + 2 * δ)) ((1 - u) ^ (D + 1) * (1 - δ)) (2 * D * η) where
  δ0 := δ0
  α1 := by
    have : (1 : Rat) ≤ (1 + u) ^ (D + 1) := one_le_pow₀ (by linarith)
    nlinarith
  αg := mul_le_mul_of_nonneg_left (by linarith) (by positivity)
  αd := by
    have : (1 : Rat) ≤ (1 + u) ^ (D + 1) := one_le_pow₀ (by linarith)
    have h : 1 ≤ (1 + 2 * δ) * (1 - δ) := by nlinarith
    rw [mul_assoc]
    nlinarith
  β0 := mul_nonneg (pow_nonneg (by linarith) _) (by linarith)
  βg := by
    have : 0 ≤ (1 - u) ^ (D + 1) := pow_nonneg (by linarith) _
    nlinarith
  βd := by
    have h0 : 0 ≤ (1 - u) ^ (D + 1) := pow_nonneg (by linarith) _
    have h1 : (1 - u) ^ (D + 1) ≤ 1 := pow_le_one₀ (by linarith) (by linarith)
    have h : (1 - δ) * (1 + δ) ≤ 1 := by nlinarith
    have h2 : 0 ≤ (1 - δ) * (1 + δ) := mul_nonneg (by linarith) (by linarith)
    rw [mul_assoc]
    nlinarith
  T := rfl

theorem within_error {u η δ : Rat} (u0 : 0 ≤ u) (u1 : u ≤ 1) (η0 : 0 ≤ η) {D n : Nat} (δ0 : 0 ≤ δ) {A v : Rat}
    (hA : 0 ≤ A) (hs : n * ((D + 1) * u + 2 * δ) ≤ 1 / 2) (hδ : δ ≤ 1 / 2)
    (w : Within ((1 + u) ^ (D + 1) * (1 + 2 * δ)) ((1 - u) ^ (D + 1) * (1 - δ)) (2 * D * η) n A v) :
    |v - A| ≤ 2 * (n * ((D + 1) * u + 2 * δ)) * A + 4 * (D * n) * η := by
  obtain ⟨_, w1, w2⟩ := w
  have nδ : 0 ≤ (n : Rat) * δ := by positivity
  have hg := pow_growth (a := (D + 1) * n) (b := n) u0 (show 0 ≤ 2 * δ by linarith) (by push_cast; linarith)
  have hd := pow_decay (a := (D + 1) * n) (b := n) u0 u1 δ0 (by linarith) (by push_cast; linarith)
  rw [mul_pow, ← pow_mul] at w1 w2
  rw [mul_pow, ← pow_mul] at w2
  push_cast at hg hd
  generalize (1 + u) ^ ((D + 1) * n) * (1 + 2 * δ) ^ n = a at *
  generalize (1 - u) ^ ((D + 1) * n) * (1 - δ) ^ n = b at *
  have e : ((D : Rat) + 1) * n * u + n * (2 * δ) = n * ((D + 1) * u + 2 * δ) := by ring
  rw [e] at hg
  have hT : 0 ≤ 2 * (D : Rat) * η * n := by positivity
  have a2 : a ≤ 2 := by linarith
  have t1 := mul_le_mul_of_nonneg_right a2 hT
  have t2 := mul_le_mul_of_nonneg_right hg hA
  have t3 := mul_le_mul_of_nonneg_right hd hA
  have nu : 0 ≤ (n : Rat) * ((D + 1) * u) := by positivity
  rw [abs_le]
  constructor
  · have t4 : 0 ≤ ((n : Rat) * ((D + 1) * u) + 3 * (n * δ)) * A := by positivity
    linarith
  · linarith

/-! ### Perturbed probabilities -/

theorem wsum_perturb {dom : Nat → Nat} {P Q : Nat → Nat → Rat} {ε : Rat} (ε0 : 0 ≤ ε) {vars : List Nat}
    (hP : ∀ i ∈ vars, ∀ k, k < dom i → 0 ≤ P i k) (hQ : ∀ i ∈ vars, ∀ k, k < dom i → 0 ≤ Q i k)
    (hs : ∀ i ∈ vars, ((List.range (dom i)).map (Q i)).sum = 1)
    (hd : ∀ i ∈ vars, ((List.range (dom i)).map fun k => |P i k - Q i k|).sum ≤ ε) {φ : Asg → Rat}
    (hφ : ∀ x, 0 ≤ φ x ∧ φ x ≤ 1) :
    wsum dom Q vars φ ≤ 1 ∧ |wsum dom P vars φ - wsum dom Q vars φ| ≤ (1 + ε) ^ vars.length - 1 := by
  induction vars generalizing φ with
  | nil => simpa [wsum] using (hφ _).2
  | cons i is ih =>
      have ih' := fun k => ih (φ := fun x => φ (upd x i k)) (fun j hj => hP j (by simp [hj]))
        (fun j hj => hQ j (by simp [hj])) (fun j hj => hs j (by simp [hj])) (fun j hj => hd j (by simp [hj]))
        fun x => hφ _
      have nn := fun k => wsum_nonneg (dom := dom) (P := Q) (vars := is) (fun j hj => hQ j (by simp [hj]))
        (φ := fun x => φ (upd x i k)) fun x => (hφ _).1
      have hPi := hP i (by simp)
      have hQi := hQ i (by simp)
      have hsi := hs i (by simp)
      have hdi := hd i (by simp)
      have c0 : 0 ≤ (1 + ε) ^ is.length - 1 := by
        have : (1 : Rat) ≤ (1 + ε) ^ is.length := one_le_pow₀ (by linarith)
        linarith
      simp only [wsum, List.length_cons]
      generalize hC : (1 + ε) ^ is.length - 1 = C at *
      have key : ∀ L : List Nat, (∀ k ∈ L, k < dom i) →
          (L.map fun k => Q i k * wsum dom Q is fun x => φ (upd x i k)).sum ≤ (L.map (Q i)).sum ∧
          |(L.map fun k => P i k * wsum dom P is fun x => φ (upd x i k)).sum -
            (L.map fun k => Q i k * wsum dom Q is fun x => φ (upd x i k)).sum| ≤
            (L.map fun k => |P i k - Q i k|).sum * (1 + C) + (L.map (Q i)).sum * C := by
        intro L hL
        induction L with
        | nil => simp
        | cons k L ihL =>
            obtain ⟨j1, j2⟩ := ihL fun k hk => hL k (by simp [hk])
            have hk := hL k (by simp)
            obtain ⟨i1, i2⟩ := ih' k
            have n1 := nn k
            have q0 := hQi k hk
            have p0 := hPi k hk
            simp only [List.map_cons, List.sum_cons]
            generalize wsum dom Q is (fun x => φ (upd x i k)) = w at *
            generalize wsum dom P is (fun x => φ (upd x i k)) = v at *
            refine ⟨by nlinarith, ?_⟩
            have e1 : P i k * v - Q i k * w = (P i k - Q i k) * v + Q i k * (v - w) := by ring
            have e2 : |P i k * v - Q i k * w| ≤ |P i k - Q i k| * (1 + C) + Q i k * C := by
              rw [e1]
              refine (abs_add_le _ _).trans (add_le_add ?_ ?_)
              · rw [abs_mul]
                refine mul_le_mul_of_nonneg_left ?_ (abs_nonneg _)
                have a1 := abs_le.1 i2
                rw [abs_le]
                constructor <;> linarith
              · rw [abs_mul, abs_of_nonneg q0]
                exact mul_le_mul_of_nonneg_left i2 q0
            have e3 := abs_add_le (P i k * v - Q i k * w)
              ((L.map fun k => P i k * wsum dom P is fun x => φ (upd x i k)).sum -
                (L.map fun k => Q i k * wsum dom Q is fun x => φ (upd x i k)).sum)
            rw [show P i k * v + (L.map fun k => P i k * wsum dom P is fun x => φ (upd x i k)).sum -
              (Q i k * w + (L.map fun k => Q i k * wsum dom Q is fun x => φ (upd x i k)).sum) =
              P i k * v - Q i k * w + ((L.map fun k => P i k * wsum dom P is fun x => φ (upd x i k)).sum -
                (L.map fun k => Q i k * wsum dom Q is fun x => φ (upd x i k)).sum) by ring]
            refine e3.trans ?_
            linarith
      obtain ⟨k1, k2⟩ := key (List.range (dom i)) fun k hk => List.mem_range.1 hk
      rw [hsi] at k1 k2
      refine ⟨k1, k2.trans ?_⟩
      have := mul_le_mul_of_nonneg_right hdi (show 0 ≤ 1 + C by linarith)
      rw [pow_succ, show (1 + ε) ^ is.length = 1 + C by linarith]
      linarith

theorem probability_perturb {n : Nat} {dom : Nat → Nat} {P Q : Nat → Nat → Rat} {ε : Rat} (ε0 : 0 ≤ ε)
    (hP : ∀ i, i < n → ∀ k, k < dom i → 0 ≤ P i k) (hQ : ∀ i, i < n → ∀ k, k < dom i → 0 ≤ Q i k)
    (hs : SumsToOne n dom Q) (hd : ∀ i, i < n → ((List.range (dom i)).map fun k => |P i k - Q i k|).sum ≤ ε)
    (φ : Asg → Bool) :
    0 ≤ probability n dom P φ ∧ probability n dom Q φ ≤ 1 ∧
      |probability n dom P φ - probability n dom Q φ| ≤ (1 + ε) ^ n - 1 := by
  rw [probability_eq (List.Perm.refl _), probability_eq (List.Perm.refl _)]
  have m : ∀ {i}, i ∈ List.range n → i < n := fun h => List.mem_range.1 h
  have b : ∀ x, (0 : Rat) ≤ (if φ x then 1 else 0) ∧ (if φ x then 1 else 0) ≤ (1 : Rat) := fun x => by
    split <;> norm_num
  have := wsum_perturb ε0 (fun i hi => hP i (m hi)) (fun i hi => hQ i (m hi)) (fun i hi => hs i (m hi))
    (fun i hi => hd i (m hi)) b
  rw [List.length_range] at this
  exact ⟨wsum_nonneg (fun i hi => hP i (m hi)) fun x => (b x).1, this⟩

theorem nearly_of_perturb {n : Nat} {dom : Nat → Nat} {P Q : Nat → Nat → Rat} {ε : Rat}
    (hP : ∀ i, i < n → ∀ k, k < dom i → 0 ≤ P i k) (hs : SumsToOne n dom Q)
    (hd : ∀ i, i < n → ((List.range (dom i)).map fun k => |P i k - Q i k|).sum ≤ ε) :
    NearlySumsToOne ε n dom P := by
  intro i hi
  refine ⟨hP i hi, ?_⟩
  rw [← hs i hi]
  refine le_trans ?_ (hd i hi)
  generalize List.range (dom i) = L
  induction L with
  | nil => simp
  | cons k L ih =>
      simp only [List.map_cons, List.sum_cons]
      rw [show P i k + (L.map (P i)).sum - (Q i k + (L.map (Q i)).sum) =
        P i k - Q i k + ((L.map (P i)).sum - (L.map (Q i)).sum) by ring]
      exact (abs_add_le _ _).trans (add_le_add (le_refl _) ih)

/-- Without rounding these are the functions of `Reliability.lean`. -/
theorem exact_id : ntpsPostR id = ntpsPost ∧ calculateProbabilityR id = calculateProbability ∧
    calculateAvailabilityR id = calculateAvailability ∧ calculateUnavailabilityR id = calculateUnavailability ∧
    satisfyCountDataR id = satisfyCountData ∧ stateFrequencyR id = stateFrequency ∧
    calculateProbabilitiesR id = calculateProbabilities ∧ getAvailabilityR id = getAvailability ∧
    getUnavailabilityR id = getUnavailability :=
  ⟨rfl, rfl, rfl, rfl, rfl, rfl, rfl, rfl, rfl⟩

theorem probability_nearly {δ : Rat} {n : Nat} {dom : Nat → Nat} {P : Nat → Nat → Rat}
    (hP : NearlySumsToOne δ n dom P) (φ : Asg → Bool) : 0 ≤ probability n dom P φ := by
  rw [probability_eq (List.Perm.refl _)]
  exact wsum_nonneg (fun i hi => (hP i (List.mem_range.1 hi)).1) fun x => by split <;> norm_num

/-- The result of a computation in `double` that is allowed a certain number of roundings. -/
theorem double_result {δ : Rat} {D : Nat} {P : Nat → Nat → Rat} {m : M Rat} {φ : Asg → Bool}
    (hP : NearlySumsToOne δ c.n c.dom P) (hs : c.n * (((D : Rat) + 1) / 2 ^ 53 + 2 * δ) ≤ 1 / 2)
    (hm : ∀ δ α β T, NearlySumsToOne δ c.n c.dom P → Factors unitRoundoff halfTiny δ D α β T →
      Ok m S (fun v s' => Within α β T c.n (probability c.n c.dom P φ) v ∧ DSt S s')) :
    Ok m S (fun v s' => |v - probability c.n c.dom P φ| ≤ roundingError c.n D δ (probability c.n c.dom P φ) ∧
      DSt S s') := by
  have u0 := double_rounds.u0
  have u1 := double_rounds.u1
  have η0 := double_rounds.η0
  have eu : ((D : Rat) + 1) / 2 ^ 53 = (D + 1) * unitRoundoff := by unfold unitRoundoff; ring
  have eη : 4 * ((D : Rat) * c.n) / 2 ^ 1075 = 4 * (D * c.n) * halfTiny := by
    unfold halfTiny
    rw [mul_one_div]
  have hA := probability_nearly hP φ
  by_cases hn : c.n = 0
  · have hP0 : NearlySumsToOne 0 c.n c.dom P := fun i hi => absurd hi (by omega)
    refine (hm 0 _ _ _ hP0 (factors u0 u1 D (le_refl _) (by norm_num))).mono ?_
    rintro v s' ⟨w, Ds⟩
    refine ⟨?_, Ds⟩
    have := within_error u0 u1 η0 (le_refl _) hA (by rw [hn]; norm_num) (by norm_num) w
    unfold roundingError
    rw [hn] at this ⊢
    simpa using this
  · have n1 : (1 : Rat) ≤ c.n := by exact_mod_cast Nat.one_le_iff_ne_zero.2 hn
    have δ0 : 0 ≤ δ := (abs_nonneg _).trans (hP 0 (by omega)).2
    have δ1 : δ ≤ 1 / 2 := by
      have h1 : 0 ≤ ((D : Rat) + 1) / 2 ^ 53 := by positivity
      nlinarith
    refine (hm δ _ _ _ hP (factors u0 u1 D δ0 δ1)).mono ?_
    rintro v s' ⟨w, Ds⟩
    refine ⟨?_, Ds⟩
    have := within_error u0 u1 η0 δ0 hA (by rw [← eu]; exact hs) δ1 w
    unfold roundingError
    rw [eu, eη]
    exact this

end Teddy
