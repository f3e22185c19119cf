import Mathlib.Data.Int.Log
import Mathlib.Data.Rat.Floor

/-!
# IEEE 754 binary64

The number a `double` holds after an operation with the exact result `x`, for results in the range of `double`:
rounding to nearest, ties to even.
-/

namespace Teddy

/-- The integer nearest to `y`, the even one if there are two. -/
def roundEven (y : Rat) : Int :=
  if y - ⌊y⌋ < 1 / 2 then ⌊y⌋
  else if y - ⌊y⌋ > 1 / 2 then ⌊y⌋ + 1
  else if ⌊y⌋ % 2 = 0 then ⌊y⌋ else ⌊y⌋ + 1

/-- Exponent of the last place of the doubles near `x`: 52 places after the leading one, at least -1074. -/
def lastPlace (x : Rat) : Int := max (Int.log 2 |x| - 52) (-1074)

/-- The double nearest to `x`. -/
def double (x : Rat) : Rat := roundEven (x / 2 ^ lastPlace x) * 2 ^ lastPlace x

/-- The numbers a `double` can hold, except that there is no upper bound on the exponent. -/
def IsDouble (y : Rat) : Prop := ∃ k e : Int, |k| ≤ 2 ^ 53 ∧ -1074 ≤ e ∧ y = k * 2 ^ e

/-- Rows of numbers that are not negative and sum to one up to `δ`. -/
def NearlySumsToOne (δ : Rat) (n : Nat) (dom : Nat → Nat) (P : Nat → Nat → Rat) : Prop :=
  ∀ i, i < n → (∀ k, k < dom i → 0 ≤ P i k) ∧ |((List.range (dom i)).map (P i)).sum - 1| ≤ δ

/-- A bound on the error of a probability `A` that is calculated in `double` for `n` variables with at most `D` values,
whose probabilities sum to one up to `δ`: a few units in the last place for each variable, relative to `A`, and
something beyond all measure for underflow. -/
def roundingError (n D : Nat) (δ A : Rat) : Rat :=
  2 * (n * ((D + 1) / 2 ^ 53 + 2 * δ)) * A + 4 * (D * n) / 2 ^ 1075

/-- The same for probabilities that are passed down a diagram of `N` nodes. -/
def passingError (n D N : Nat) (δ A : Rat) : Rat :=
  2 * ((2 * D + 2) * N / 2 ^ 53 + 2 * (n * δ)) * A + 18 * (D * N + 1) * N / 2 ^ 1075

end Teddy
