import Verif.World
import Verif.Iterators

/-!
# Diagrams of min-max expressions (`libtsl/generators.hpp`)
-/

namespace Teddy
namespace Tsl

open SM

/-- A call that returns a new diagram; the handle is stored in a new slot. -/
def newSlot (c : Cfg) (k : Call) : SM World Nat := do
  match ← exec c k with
  | .slot j => pure j
  | _ => throw .assertion

/-- generators.hpp:23-35, the lambdas `min_fold` and `max_fold`. -/
def foldCall (tree : Bool) (op : BinOp) (as : List Nat) : Call :=
  if tree then .treeFold op as else .leftFold op as

/-- diagram_manager.hpp:894-905 `variables`: one handle per index. -/
def variablesD (c : Cfg) (is : List Nat) : SM World (List Nat) := mapL (fun i => newSlot c (.variableD i)) is

/-- End of the life of a vector of handles. -/
def dropSlots (c : Cfg) (as : List Nat) : SM World Unit := forL (fun a => do let _ ← exec c (.drop a)) as

/-- generators.hpp:41-42, one round of the loop: `vars` is destroyed at its end. -/
def makeTerm (c : Cfg) (tree : Bool) (term : List Nat) : SM World Nat := do
  let vars ← variablesD c term
  let d ← newSlot c (foldCall tree Op.MIN vars)
  dropSlots c vars
  pure d

/-- generators.hpp:16-45 `make_diagram` for a `minmax_expr`.  Simplification: `tree_fold` works on copies of
the handles (see `treeFoldCopies`), the originals are destroyed at the end of the block like the rest. -/
def makeDiagram (c : Cfg) (tree : Bool) (terms : List (List Nat)) : SM World Nat := do
  let termDs ← mapL (makeTerm c tree) terms
  let d ← newSlot c (foldCall tree Op.MAX termDs)
  dropSlots c termDs
  pure d

end Tsl
end Teddy
