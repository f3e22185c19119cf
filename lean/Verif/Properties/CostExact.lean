import Verif.Properties.Cost
import Verif.Properties.CostTransform
import Verif.Properties.CostApply

/-!
# C81, C84: the counters count

Upper bounds alone would hold of a counter that stands still.  Here are the exact numbers of steps of each function on one
diagram: x0 xor x1 xor x2 xor x3 xor x4, which has 9 internal nodes and 2 terminals.
-/

namespace Teddy
namespace Properties

open SM Spec

/-- The number of steps of call `k`, after the calls of `parityCalls`. -/
def stepsOf (count : Cfg → Call → SM World (Out × Nat)) (k : Call) : Option Nat :=
  match construct (bddN 5 100 50).c 100 (List.range 5) with
  | .error _ => none
  | .ok m => match execAll (bddN 5 100 50).c parityCalls ⟨m, []⟩ with
    | .error _ => none
    | .ok (_, w) => match count (bddN 5 100 50).c k w with
      | .ok ((_, n), _) => some n
      | .error _ => none

/-- The queries.  `satisfy_all` also on x0 and on x4, where levels are skipped below and above the node. -/
theorem C81_exact :
    stepsOf execCost (.evaluate 8 fun _ => 1) = some 6 ∧ stepsOf execCost (.satisfyCount 1 8) = some 11 ∧
    stepsOf execCost (.satisfyOne 1 8) = some 7 ∧ stepsOf execCost (.satisfyAll 1 8) = some 63 ∧
    stepsOf execCost (.satisfyAll 1 0) = some 33 ∧ stepsOf execCost (.satisfyAll 1 4) = some 63 := by decide +kernel

/-- `negate`, `reduce` and `transform` make 1 + 2 · 9 calls.  `get_cofactor` makes none if the root is a node of the variable. -/
theorem C84_exact :
    stepsOf execSteps (.negate 8) = some 19 ∧ stepsOf execSteps (.reduce 8) = some 19 ∧
    stepsOf execSteps (.transform (fun v => v * v) 8) = some 19 ∧
    stepsOf execSteps (.cofactor 8 4 1) = some 15 ∧ stepsOf execSteps (.cofactor 8 0 1) = some 0 ∧
    stepsOf execSteps (.cofactors 8 [(1, 0), (3, 1)]) = some 11 ∧
    stepsOf execSteps (.cofactors 8 [(0, 0), (3, 1)]) = some 9 := by decide +kernel

end Properties
end Teddy
