import Verif.Properties.Agreement
import Verif.Properties.Binary
import Verif.Properties.Rounding
import Verif.Properties.Violations

/-!
# Reliability after `from_expression_tree`

`from_expression_tree` leaves marks behind (`C24_violated`).  The next calculation skips the marked nodes and works with
the numbers an earlier one stored in them.
-/

namespace Teddy
namespace Properties

open Spec

/-- x0 ∧ x1 is made, its availability for components that work with probability `p` is calculated, an expression tree is
made, and then `k` is called. -/
def staleProgram (p : Rat) (k : Call) : List Call :=
  [.variableD 0, .variableD 1, .apply Op.AND 0 1, .calculateAvailability 1 (fun _ _ => p) 2,
    .fromExpr (.op min (.var 1) (.const 0)), k]

/-- **C67.** `satisfy_count(1, x0 ∧ x1)` is 0, and 1 for the truth table of this function. -/
theorem C67_violated :
    run (bdd2 100 50) (marksProgram (.satisfyCount 1 2)) = .ok [.slot 0, .slot 1, .slot 2, .slot 3, .int 0] ∧
    (TT.make true [0, 0, 0, 1] [2, 2]).map (fun t => TT.satisfyCount t 1) = .ok 1 := by
  decide +kernel

/-- **C68.** The availability of x0 ∧ x1 for probabilities 1/4 is 1/8 instead of 1/16: that of x1 is still the 1/2 of
the calculation before. -/
theorem C68_violated :
    run (bdd2 100 50) (staleProgram (1 / 2) (.bssAvailability (fun _ => 1 / 4) 2)) =
      .ok [.slot 0, .slot 1, .slot 2, .rat (1 / 4), .slot 3, .rat (1 / 8)] ∧
    run (bdd2 100 50) [.variableD 0, .variableD 1, .apply Op.AND 0 1, .bssAvailability (fun _ => 1 / 4) 2] =
      .ok [.slot 0, .slot 1, .slot 2, .rat (1 / 16)] := by decide +kernel

/-- **C69.** In one and the same state the structural importance is 0 and Birnbaum's importance for equally likely
states 1/6; both ought to be 1/4. -/
theorem C69_violated :
    run (bdd2 100 50) (staleProgram (1 / 3) (.structuralImportance 2)) =
      .ok [.slot 0, .slot 1, .slot 2, .rat (1 / 9), .slot 3, .rat 0] ∧
    run (bdd2 100 50) (staleProgram (1 / 3) (.birnbaumImportance (fun _ _ => 1 / 2) 2)) =
      .ok [.slot 0, .slot 1, .slot 2, .rat (1 / 9), .slot 3, .rat (1 / 6)] := by decide +kernel

/-- **C70.** As `C68_violated`, calculated in `double`: the same call returns 1/8 and, when repeated, 1/16, which is
right. -/
theorem C70_violated :
    (match construct (bdd2 100 50).c 100 [0, 1] with
     | .ok m => match (do
         let _ ← execAll (bdd2 100 50).c [.variableD 0, .variableD 1, .apply Op.AND 0 1]
         let _ ← calculateAvailabilityOf double (bdd2 100 50).c 1 (fun _ _ => 1 / 2) 2
         let _ ← exec (bdd2 100 50).c (.fromExpr (.op min (.var 1) (.const 0)))
         let r ← calculateAvailabilityOf double (bdd2 100 50).c 1 (fun _ _ => 1 / 4) 2
         let r' ← calculateAvailabilityOf double (bdd2 100 50).c 1 (fun _ _ => 1 / 4) 2
         pure [r, r'] : SM World _) ⟨m, []⟩ with
       | .ok (r, _) => r
       | .error _ => []
     | .error _ => []) = [1 / 8, 1 / 16] := by decide +kernel

end Properties
end Teddy
