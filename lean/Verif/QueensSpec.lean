import Verif.Spec

/-!
# The n-queens problem

Specification of `examples/n_queens.cpp`, independent of diagrams.
-/

namespace Teddy
namespace Queens

open Spec

/-- `q` gives the column of the queen in each row.  No two queens are in the same column or on the same diagonal. -/
def Solution (n : Nat) (q : Nat → Nat) : Prop :=
  ∀ s, s < n → ∀ r, r < s → q r ≠ q s ∧ q r + s ≠ q s + r ∧ q r + r ≠ q s + s

instance (n : Nat) (q : Nat → Nat) : Decidable (Solution n q) := by unfold Solution; infer_instance

/-- The number of ways to place `n` queens. -/
def solutions (n : Nat) : Nat :=
  ((assignments (fun _ => n) (List.range n)).filter fun q => decide (Solution n q)).length

/-- The fields with `x = 1` are the fields of the queens of a solution.  The field in row `r` and column `c` is
variable `r * n + c`. -/
def IsSolution (n : Nat) (x : Asg) : Prop :=
  ∃ q, (∀ r, r < n → q r < n) ∧ Solution n q ∧
    ∀ r, r < n → ∀ c, c < n → x (r * n + c) = if q r = c then 1 else 0

end Queens
end Teddy
