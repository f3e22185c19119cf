import Verif.Managers
import Verif.UnitTests

/-!
# The experiments (`experiments/dplds.cpp`)

The experiment measures how long it takes to make derivatives from cofactors and with `dpld`.  The constants of the program
and the random numbers are arguments.  The times and their output are left out, and so is the destruction of the diagram and
the manager at the end of each round.
-/

namespace Teddy
namespace Experiments

open SM Tsl Tests

/-- dplds.cpp:11-24 `dpld_type3_naive`; the local diagrams are destroyed in reverse order. -/
def naive3 (c : Cfg) (d i : Nat) : SM World Nat := do
  let lhsCofactor ← newSlot c (.cofactor d i 0)
  let rhsCofactor ← newSlot c (.cofactor d i 1)
  let lhs ← newSlot c (.transform (fun val => b2i (decide (val < 1))) lhsCofactor)
  let rhs ← newSlot c (.transform (fun val => b2i (decide (val ≥ 1))) rhsCofactor)
  let r ← newSlot c (.apply Op.AND lhs rhs)
  dropSlots c [rhs, lhs, rhsCofactor, lhsCofactor]
  pure r

/-- dplds.cpp:26-31 `dpld_type2_naive`. -/
def naive2 (c : Cfg) (d i : Nat) : SM World Nat := do
  let lhs ← newSlot c (.cofactor d i 0)
  let rhs ← newSlot c (.cofactor d i 1)
  let r ← newSlot c (.apply Op.LESS lhs rhs)
  dropSlots c [rhs, lhs]
  pure r

/-- dplds.cpp:98-117: `DerivativeType` is 3 or 2. -/
def naive (type3 : Bool) (c : Cfg) (d i : Nat) : SM World Nat := if type3 then naive3 c d i else naive2 c d i

/-- dplds.cpp:133-154 -/
def direct (type3 : Bool) (c : Cfg) (d i : Nat) : SM World Nat :=
  newSlot c (.dpld ⟨i, 0, 1⟩ (if type3 then Dpld.type3Increase 1 else Dpld.type2Increase) d)

/-- dplds.cpp:96-118, 131-155: a loop over the first `count` indices; each diagram made is a temporary. -/
def derivatives (c : Cfg) (make : Nat → SM World Nat) (indices : List Nat) (count : Nat) : SM World Unit :=
  forL (fun i => do
    match indices[i]? with
    | none => throw .outOfRange
    | some index =>
        let r ← make index
        dropSlots c [r]) (List.range count)

/-- dplds.cpp:84-163, one round of the loop over `repl`. -/
def replication (type3 : Bool) (c : Cfg) (d : Nat) (indices : List Nat) (count : Nat) : SM World Unit := do
  derivatives c (naive type3 c d) indices count
  let _ ← exec c .clearCache
  derivatives c (direct type3 c d) indices count

/-- dplds.cpp:81-163: what is done with one manager; the number of nodes is what is printed. -/
def measure (type3 : Bool) (c : Cfg) (terms : List (List Nat)) (indices : List Nat) (count repl : Nat) : SM World Nat := do
  let d ← makeDiagram c false terms
  let nodeCount ← askNat c (.nodeCountOf d)
  forL (fun _ => replication type3 c d indices count) (List.range repl)
  pure nodeCount

/-- The constants of the program (dplds.cpp:44-54). -/
structure Constants where
  diagramCount : Nat
  replCount : Nat
  stateCount : Nat
  derivativeCount : Nat
  type3 : Bool
  varCount : Nat
  termCount : Nat
  termSize : Nat

/-- dplds.cpp:44-54 -/
def shippedConstants : Constants := ⟨10, 10, 3, 10, true, 20, 35, 7⟩

/-- dplds.cpp:66-164, one round of the loop over `diagramId`: the number of nodes printed. -/
def round (env : Surroundings) (k : Constants) (indices : List Nat) (draw : Nat → Nat) : Except Err Nat := do
  let terms ← makeMinMax env.asserts draw k.varCount k.termCount k.termSize
  let (c, m) ← mddManager env k.stateCount k.varCount 1000000 none []
  let (nodeCount, _) ← measure k.type3 c terms indices k.derivativeCount k.replCount ⟨m, []⟩
  .ok nodeCount

/-- dplds.cpp:37-165 `main`; `indices` is the shuffled vector, `draw id` are the random numbers for expression `id`. -/
def dplds (env : Surroundings) (k : Constants) (indices : List Nat) (draw : Nat → Nat → Nat) : Except Err (List Nat) :=
  (List.range k.diagramCount).mapM fun id => round env k indices (draw id)

end Experiments
end Teddy
