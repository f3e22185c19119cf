import Verif.ReliabilityTests

/-!
# The test of a described system (`system_test` of `tests/reliability.test.cpp`)

The test compares the answers of a truth table and of a diagram with numbers written down for one system.  Numbers of type
`double` are rational.
-/

namespace Teddy
namespace Tests

open SM Tsl

/-- libtsl/system_description.hpp:13-33 `struct system_description`, without the number of the system. -/
structure Description where
  stateCount : Nat
  componentCount : Nat
  structureFunction : List Int
  domains : List Nat
  componentProbabilities : List (List Rat)
  stateProbabilities : List Rat
  availabilities : List Rat
  unavailabilities : List Rat
  mcvs : List (List (List Nat))
  mpvs : List (List (List Nat))
  structuralImportances : List (List (List Rat))
  birnbaumImportances : List (List (List Rat))
  fussellVeselyImportances : List (List (List Rat))
  floatingTolerance : Rat

/-- reliability.test.cpp:990-1060 `system1`. -/
def system1 : Description where
  stateCount := 2
  componentCount := 5
  structureFunction := [0, 1, 0, 1, 0, 1, 1, 1, 0, 1, 0, 1, 0, 1, 1, 1, 0, 1, 0, 1, 0, 1, 1, 1, 1, 1, 1, 1, 1, 1, 1, 1]
  domains := [2, 2, 2, 2, 2]
  componentProbabilities := [[1 / 10, 9 / 10], [2 / 10, 8 / 10], [3 / 10, 7 / 10], [1 / 10, 9 / 10], [1 / 10, 9 / 10]]
  stateProbabilities := [1036 / 100000, 98964 / 100000]
  availabilities := [1, 98964 / 100000]
  unavailabilities := [0, 1036 / 100000]
  mcvs := [[], [[0, 1, 0, 1, 0], [0, 1, 1, 0, 0], [1, 0, 0, 1, 0], [1, 0, 1, 0, 0]]]
  mpvs := [[], [[0, 0, 0, 0, 1], [0, 0, 1, 1, 0], [1, 1, 0, 0, 0]]]
  structuralImportances := [[[], [-1, 18750 / 100000]], [[], [-1, 18750 / 100000]], [[], [-1, 18750 / 100000]],
    [[], [-1, 18750 / 100000]], [[], [-1, 56250 / 100000]]]
  birnbaumImportances := [[[], [-1, 2960 / 100000]], [[], [-1, 3330 / 100000]], [[], [-1, 2520 / 100000]],
    [[], [-1, 1960 / 100000]], [[], [-1, 10360 / 100000]]]
  fussellVeselyImportances := [[[], [-1, 35714 / 100000]], [[], [-1, 71429 / 100000]], [[], [-1, 81081 / 100000]],
    [[], [-1, 27027 / 100000]], [[], [-1, 1]]]
  floatingTolerance := 1 / 100000

/-- `a == b` of a `BOOST_TEST` with the tolerance `tol` (see `close`). -/
def closeWithin (tol a b : Rat) : Bool :=
  let diff := if a < b then b - a else a - b
  let absA := if a < 0 then -a else a
  let absB := if b < 0 then -b else b
  decide (diff ≤ tol * absA) && decide (diff ≤ tol * absB)

/-- Reading `l[i]` of a `std::vector`. -/
def elemAt {α : Type} (l : List α) (i : Nat) : Except Err α :=
  match l[i]? with
  | some a => .ok a
  | none => .error .outOfRange

/-- `l[varIndex][systemState][componentState]` -/
def importanceAt (l : List (List (List Rat))) (i s v : Nat) : Except Err Rat := do
  let a ← elemAt l i
  let b ← elemAt a s
  elemAt b v

/-- reliability.test.cpp:1077-1097, 1100-1120, 1123-1143: a measure of the table and of the diagram for each state. -/
def measureLoop (c : Cfg) (real : List Rat) (table : Int → Except Err Rat) (ask : Int → Call) :
    List Int → SM World Bool → SM World Bool
  | [], rest => rest
  | s :: l, rest => do
      let r ← lift (elemAt real s.toNat)
      let a ← lift (table s)
      check (closeWithin tolerance r a) (do
        let b ← askRat c (ask s)
        check (closeWithin tolerance r b) (measureLoop c real table ask l rest))

/-- reliability.test.cpp:1146-1156, 1159-1169: minimal vectors of the table and of the diagram for each state. -/
def vectorLoop (c : Cfg) (realTable realDiagram : List (List (List Nat))) (table : Int → Except Err (List (List Nat)))
    (ask : Int → Call) : List Int → SM World Bool → SM World Bool
  | [], rest => rest
  | s :: l, rest => do
      let r1 ← lift (elemAt realTable s.toNat)
      let a ← lift (table s)
      require (r1.isPerm a) (do
        let r2 ← lift (elemAt realDiagram s.toNat)
        let b ← askAsgs c (ask s)
        require (r2.isPerm b) (vectorLoop c realTable realDiagram table ask l rest))

/-- reliability.test.cpp:1172-1179, 1212-1219, 1256-1263: components, system states and component states. -/
def describedCases (q : Description) : List (Int × VarChange) :=
  (List.range q.componentCount).flatMap fun i =>
    (statesFrom1 q.stateCount).flatMap fun s =>
      (List.range (q.domains.getD i 0 - 1)).map fun v => (s, ⟨i, v + 1, v⟩)

/-- reliability.test.cpp:1172-1209, 1212-1253: importances computed from derivatives. -/
def derivativeLoop (c : Cfg) (t : TT.Table) (d : Nat) (real : List (List (List Rat)))
    (expect : TT.Table → Nat → Except Err Rat) (ask : Nat → Call) : List (Int × VarChange) → SM World Bool → SM World Bool
  | [], rest => rest
  | (s, vc) :: l, rest => do
      let tableDpld ← lift (TT.dpld c.asserts t vc (Dpld.type3Decrease s))
      let diagramDpld ← newSlot c (.dpld vc (Dpld.type3Decrease s) d)
      let r ← lift (importanceAt real vc.index s.toNat vc.from)
      let a ← lift (expect tableDpld vc.index)
      let b ← askRat c (ask diagramDpld)
      check (closeWithin tolerance r a) (check (closeWithin tolerance r b) (do
        let _ ← exec c (.drop diagramDpld)
        derivativeLoop c t d real expect ask l rest))

/-- reliability.test.cpp:1256-1305 -/
def coverLoop (c : Cfg) (t : TT.Table) (d : Nat) (q : Description) : List (Int × VarChange) → SM World Bool
  | [] => pure true
  | (s, vc) :: l => do
      let r ← lift (importanceAt q.fussellVeselyImportances vc.index s.toNat vc.from)
      let a ← lift (TT.fussellVesely c.asserts t q.componentProbabilities vc.index vc.from s)
      let u ← askRat c (.calculateUnavailability s (matrixAt q.componentProbabilities) d)
      let diagramDpld ← newSlot c (.dpld ⟨vc.index, vc.to, vc.from⟩ (Dpld.type3Increase s) d)
      let b ← askRat c (.fussellVesely (matrixAt q.componentProbabilities) u vc.from vc.index diagramDpld)
      check (closeWithin q.floatingTolerance r a) (check (closeWithin q.floatingTolerance r b) (do
        let _ ← exec c (.drop diagramDpld)
        coverLoop c t d q l))

/-- reliability.test.cpp:1064-1306 `system_test`.  `paths` is what `mpvs` of the manager is compared with; the code compares it
with the minimal cut vectors. -/
def systemTest (c : Cfg) (q : Description) (paths : List (List (List Nat))) : SM World Bool := do
  let t ← lift (TT.make c.asserts q.structureFunction q.domains)
  let d ← newSlot c (.fromVector q.structureFunction)
  let ps := q.componentProbabilities
  measureLoop c q.stateProbabilities (fun s => TT.probability t ps s)
    (fun s => .calculateProbability s (matrixAt ps) d) (statesFrom0 q.stateCount) <|
  measureLoop c q.availabilities (fun s => TT.availability t ps s)
    (fun s => .calculateAvailability s (matrixAt ps) d) (statesFrom0 q.stateCount) <|
  measureLoop c q.unavailabilities (fun s => TT.unavailability t ps s)
    (fun s => .calculateUnavailability s (matrixAt ps) d) (statesFrom0 q.stateCount) <|
  vectorLoop c q.mcvs q.mcvs (fun s => TT.mcvs c.asserts t s) (fun s => .mcvs s d) (statesFrom1 q.stateCount) <|
  vectorLoop c q.mpvs paths (fun s => TT.mpvs c.asserts t s) (fun s => .mpvs s d) (statesFrom1 q.stateCount) <|
  derivativeLoop c t d q.structuralImportances (fun td i => TT.structuralImportance td i)
    (fun dd => .structuralImportance dd) (describedCases q) <|
  derivativeLoop c t d q.birnbaumImportances (fun td _ => TT.birnbaumImportance td ps)
    (fun dd => .birnbaumImportance (matrixAt ps) dd) (describedCases q) <|
  coverLoop c t d q (describedCases q)

/-- The manager of the test (reliability.test.cpp:1068-1073). -/
def describedManager (env : Surroundings) (q : Description) : Except Err (Cfg × Mgr) :=
  imddManager env q.componentCount 10000 none q.domains []

end Tests
end Teddy
