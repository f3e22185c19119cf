import Verif.Properties.Violations

/-!
# Reduced diagrams that compare different

The program of this file is longer than the others and takes the kernel some two minutes.
-/

namespace Teddy
namespace Properties

/-- An `imdd_manager` of three variables with two values each. -/
def imdd3 : Setup where
  c := { n := 3, dom := fun _ => 2, fixedDom := none, asserts := true, extra := 1000
         hash := List.sum, chash := fun a b d => a + b + d, addr := id }
  pool := 1000
  order := [0, 1, 2]
  Γ := shipped 2

/-- Calls that make 240 diagrams "if x0 then b else a" and 190 constants.  When the 460th node is made,
the unique table of x0 is resized. -/
def resizing : List Call :=
  ((List.range 240).map fun k => .fromVector (List.replicate 4 ((k % 16 : Nat) : Int) ++
    List.replicate 4 ((k / 16 + 20 : Nat) : Int))) ++
  (List.range 190).map fun k => .constant (k + 100 : Nat)

/-- **C44.** Two reorderings leave two nodes with the same variable and the same sons.  The same diagram is
reduced twice, and in between a unique table is resized, which reverses its chains: `reduce` finds one of the
nodes the first time and the other one the second time.  The results ought to be equal; they are not. -/
theorem C44_violated :
    (run imdd3 ([.fromVector [1, 0, 1, 0, 0, 0, 0, 0], .fromVector [0, 0, 0, 1, 1, 1, 0, 1], .forceReorder,
      .reduce 0, .reduce 1, .forceReorder, .reduce 0] ++ resizing ++ [.reduce 0, .equals 4 435])).map
        (List.drop 437) = .ok [.slot 435, .bool false] := by decide +kernel

end Properties
end Teddy
