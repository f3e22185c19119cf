import Verif.Properties.Violations
import Verif.ProgramSpec

/-!
# Programs whose answers depend on the history or on settings

Complete programs that contradict C01, C13, C37, C60 and C66 as stated.
-/

namespace Teddy
namespace Properties

open Spec

/-- **C01.** After `apply<PLUS<2>>(x0, 1)` the diagram `apply<PLUS<3>>(x0, 1)` evaluates to 0 where its operands evaluate
to 1 and 1 (see C20). -/
theorem C01_violated :
    run mdd3 [.variableD 0, .constant 1, .apply (Op.PLUS 2) 0 1, .apply (Op.PLUS 3) 0 1,
      .evaluate 0 (fun _ => 1), .evaluate 1 (fun _ => 1), .evaluate 3 (fun _ => 1)] =
      .ok [.slot 0, .slot 1, .slot 2, .slot 3, .int 1, .int 1, .int 0] ∧
    (Op.PLUS 3).val 1 1 = 2 := by decide +kernel

/-- **C13.** The same for `left_fold<PLUS<3>>` and `tree_fold<PLUS<3>>` over x0 and 1. -/
theorem C13_violated :
    run mdd3 [.variableD 0, .constant 1, .apply (Op.PLUS 2) 0 1, .leftFold (Op.PLUS 3) [0, 1],
      .treeFold (Op.PLUS 3) [0, 1], .evaluate 3 (fun _ => 1), .evaluate 4 (fun _ => 1)] =
      .ok [.slot 0, .slot 1, .slot 2, .slot 3, .slot 4, .int 0, .int 0] ∧
    (Op.PLUS 3).val 1 1 = 2 := by decide +kernel

/-- x0 xor x1, which has two satisfying assignments. -/
def xorProgram : List Call := [.variableD 0, .variableD 1, .apply Op.XOR 0 1, .satisfyCount 1 2]

/-- **C60.** A program that a manager with a pool of 100 nodes answers overruns the pool of 4 nodes of another one, which
could have been extended. -/
theorem C60_violated :
    SameManager (bdd2 100 50) (bdd2 4 2) ∧
    run (bdd2 100 50) xorProgram = .ok [.slot 0, .slot 1, .slot 2, .int 2] ∧
    run (bdd2 4 2) xorProgram = .error .poolOverrun :=
  ⟨⟨rfl, rfl, rfl, rfl, rfl, rfl⟩, by decide +kernel, by decide +kernel⟩

/-- **C37, C66.** With a pool of 5 nodes the same program is answered; with `set_gc_ratio(0)`, which the documentation allows,
before it, the pool is never extended, and the sixth node overruns it.  The two programs differ only in this call. -/
theorem C66_violated :
    essential (.setGcRatio 0 1 :: xorProgram) = essential xorProgram ∧
    run (bdd2 5 2) xorProgram = .ok [.slot 0, .slot 1, .slot 2, .int 2] ∧
    run (bdd2 5 2) (.setGcRatio 0 1 :: xorProgram) = .error .poolOverrun :=
  ⟨rfl, by decide +kernel, by decide +kernel⟩

end Properties
end Teddy
