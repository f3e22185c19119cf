import Verif.UnitTests
import Verif.Binary
import Verif.TruthTable

/-!
# The unit tests of the reliability part (`tests/reliability.test.cpp`)

The tests make a diagram and a truth table of the same random expression tree, compute the same measures from both and
compare them.  As in `Verif.UnitTests`, random numbers are arguments and what is printed is left out.  Handles declared in
the body of a loop are destroyed at the end of each round.  Numbers of type `double` are rational.

A test returns whether all its checks succeed.  A failed `BOOST_REQUIRE` ends the test, a failed `BOOST_TEST` does not.

`system_test` (990-1306), which has no random numbers, is in `Verif.SystemTest`.
-/

namespace Teddy
namespace Tests

open SM Tsl

/-- reliability.test.cpp:175 `FloatingTolerance`. -/
def tolerance : Rat := 1 / 100000000

/-- `a == b` of a `BOOST_TEST` with a tolerance: the difference is small relative to both numbers (boost, `fpc::FPC_STRONG`). -/
def close (a b : Rat) : Bool :=
  let diff := if a < b then b - a else a - b
  let absA := if a < 0 then -a else a
  let absB := if b < 0 then -b else b
  decide (diff ≤ tolerance * absA) && decide (diff ≤ tolerance * absB)

/-- `BOOST_TEST(b)` before the rest of a test. -/
def check (b : Bool) (rest : SM World Bool) : SM World Bool := do
  let r ← rest
  pure (b && r)

/-- A call that returns a `double`. -/
def askRat (c : Cfg) (k : Call) : SM World Rat := do
  match ← exec c k with
  | .rat v => pure v
  | _ => throw .assertion

/-- A loop that fills the vector `expected`. -/
def eachE {α β : Type} (f : α → Except Err β) : List α → Except Err (List β)
  | [] => .ok []
  | a :: l => do
      let b ← f a
      let bs ← eachE f l
      .ok (b :: bs)

/-- A loop of `BOOST_TEST(actual[j] == expected[j])`. -/
def agree : List Rat → List Rat → SM World Bool → SM World Bool
  | a :: as, b :: bs, rest => check (close a b) (agree as bs rest)
  | _, _, rest => rest

/-- setup.hpp:509-527 `make_vector`. -/
def makeVector (c : Cfg) (e : ExprNode) : Except Err (List Int) := do
  let it ← DomIter.ofDomains (domainsOf c)
  let vs ← visit c (fun l => evaluateNode l e) it
  .ok (vs.map (·.2))

/-- setup.hpp:469-507 `make_prob_matrix`, `make_probabilities`: one row.  Division by a sum of zero gives NaN in the code, an
error here. -/
def drawRow (d : Nat) (draw : Nat → Rat) : Except Err (List Rat) :=
  let row := (List.range d).map draw
  if row.sum = 0 then .error .divZero else .ok (row.map fun p => p / row.sum)

/-- setup.hpp:469-507 `make_prob_matrix`, `make_probabilities`; `draw i j` is the random number for state `j` of variable `i`. -/
def drawMatrix (c : Cfg) (draw : Nat → Nat → Rat) : Except Err (List (List Rat)) :=
  eachE (fun i => drawRow (c.dom i) (draw i)) (List.range c.n)

/-- setup.hpp:449-463 `make_prob_vector`. -/
def drawVector (c : Cfg) (draw : Nat → Rat) : List Rat := (List.range c.n).map draw

/-- `probs[i][j]` of the manager. -/
def matrixAt (ps : List (List Rat)) (i k : Nat) : Rat := (ps.getD i []).getD k 0

/-- The beginning of all tests, e.g. reliability.test.cpp:188-194: the expression tree, its diagram and its truth table.
(Probabilities are drawn between the second and the third step, which does not matter as they are an argument.) -/
def makeSystem (c : Cfg) (ch : Nat → Choice) : SM World (Nat × TT.Table) := do
  let e ← lift (makeTree ch c.n)
  let d ← newSlot c (.fromExpr e.toExpr)
  let vs ← lift (makeVector c e)
  let t ← lift (TT.make c.asserts vs (domainsOf c))
  pure (d, t)

/-- The states 0, …, stateCount - 1. -/
def statesFrom0 (stateCount : Nat) : List Int := (List.range stateCount).map fun j : Nat => (j : Int)

/-- The states 1, …, stateCount - 1. -/
def statesFrom1 (stateCount : Nat) : List Int := (List.range (stateCount - 1)).map fun j : Nat => (j : Int) + 1

/-! ### The tests -/

/-- reliability.test.cpp:186-224 -/
def probabilitiesBss (c : Cfg) (ch : Nat → Choice) (draw : Nat → Rat) : SM World Bool := do
  let (d, t) ← makeSystem c ch
  let probs := drawVector c draw
  let expected1 ← lift (TT.binaryProbability t probs)
  let expected0 := 1 - expected1
  let _ ← exec c (.bssProbabilities (fun i => probs.getD i 0) d)
  let actual0 ← onMgr (getProbability 0)
  let actual1 ← onMgr (getProbability 1)
  check (close actual0 expected0) (check (close actual1 expected1) (do
    let actual1 ← askRat c (.bssProbability (fun i => probs.getD i 0) d)
    let actual0 := 1 - actual1
    check (close actual0 expected0) (check (close actual1 expected1) (pure true))))

/-- reliability.test.cpp:226-269 -/
def probabilities (c : Cfg) (ch : Nat → Choice) (draw : Nat → Nat → Rat) (stateCount : Nat) : SM World Bool := do
  let (d, t) ← makeSystem c ch
  let probs ← lift (drawMatrix c draw)
  let expected ← lift (eachE (fun j => TT.probability t probs j) (statesFrom0 stateCount))
  let _ ← exec c (.calculateProbabilities (matrixAt probs) d)
  let actual ← mapL (fun j => onMgr (getProbability j)) (statesFrom0 stateCount)
  agree actual expected (do
    let actual ← mapL (fun j => askRat c (.calculateProbability j (matrixAt probs) d)) (statesFrom0 stateCount)
    agree actual expected (pure true))

/-- reliability.test.cpp:271-315 -/
def availabilities (c : Cfg) (ch : Nat → Choice) (draw : Nat → Nat → Rat) (stateCount : Nat) : SM World Bool := do
  let (d, t) ← makeSystem c ch
  let probs ← lift (drawMatrix c draw)
  let expected ← lift (eachE (fun j => TT.availability t probs j) (statesFrom0 stateCount))
  let actual ← mapL (fun j => askRat c (.calculateAvailability j (matrixAt probs) d)) (statesFrom0 stateCount)
  agree actual expected (do
    let _ ← exec c (.calculateProbabilities (matrixAt probs) d)
    let actual ← mapL (fun j => onMgr (getAvailability j)) (statesFrom0 stateCount)
    agree actual expected (pure true))

/-- reliability.test.cpp:317-361 -/
def unavailabilities (c : Cfg) (ch : Nat → Choice) (draw : Nat → Nat → Rat) (stateCount : Nat) : SM World Bool := do
  let (d, t) ← makeSystem c ch
  let probs ← lift (drawMatrix c draw)
  let expected ← lift (eachE (fun j => TT.unavailability t probs j) (statesFrom0 stateCount))
  let actual ← mapL (fun j => askRat c (.calculateUnavailability j (matrixAt probs) d)) (statesFrom0 stateCount)
  agree expected actual (do
    let _ ← exec c (.calculateProbabilities (matrixAt probs) d)
    let actual ← mapL (fun j => onMgr (getUnavailability j)) (statesFrom0 stateCount)
    agree actual expected (pure true))

/-- reliability.test.cpp:363-391 -/
def statesFrequency (c : Cfg) (ch : Nat → Choice) (stateCount : Nat) : SM World Bool := do
  let (d, t) ← makeSystem c ch
  let expected := (statesFrom0 stateCount).map fun j => TT.stateFrequency t j
  let actual ← mapL (fun j => askRat c (.stateFrequency j d)) (statesFrom0 stateCount)
  agree actual expected (pure true)

/-- reliability.test.cpp:409-417, 451-461: the system states, variables and values of a test of importances. -/
def importanceCases (c : Cfg) (stateCount : Nat) : List (Int × VarChange) :=
  (statesFrom1 stateCount).flatMap fun s =>
    (List.range c.n).flatMap fun i =>
      (List.range ((domainsOf c).getD i 0 - 1)).map fun v => (s, ⟨i, v + 1, v⟩)

/-- reliability.test.cpp:409-434, 451-481: the loops of a test of importances. -/
def importanceLoop (c : Cfg) (t : TT.Table) (d : Nat) (expect : TT.Table → Nat → Except Err Rat) (ask : Nat → Call) :
    List (Int × VarChange) → SM World Bool
  | [] => pure true
  | (s, vc) :: rest => do
      let tableDpld ← lift (TT.dpld c.asserts t vc (Dpld.type3Decrease s))
      let diagramDpld ← newSlot c (.dpld vc (Dpld.type3Decrease s) d)
      let expected ← lift (expect tableDpld vc.index)
      let actual ← askRat c (ask diagramDpld)
      check (close expected actual) (do
        let _ ← exec c (.drop diagramDpld)
        importanceLoop c t d expect ask rest)

/-- reliability.test.cpp:393-435 -/
def structuralImportances (c : Cfg) (ch : Nat → Choice) (stateCount : Nat) : SM World Bool := do
  let (d, t) ← makeSystem c ch
  importanceLoop c t d (fun td i => TT.structuralImportance td i) (fun dd => .structuralImportance dd)
    (importanceCases c stateCount)

/-- reliability.test.cpp:437-482 -/
def birnbaumImportances (c : Cfg) (ch : Nat → Choice) (draw : Nat → Nat → Rat) (stateCount : Nat) : SM World Bool := do
  let (d, t) ← makeSystem c ch
  let probs ← lift (drawMatrix c draw)
  importanceLoop c t d (fun td _ => TT.birnbaumImportance td probs) (fun dd => .birnbaumImportance (matrixAt probs) dd)
    (importanceCases c stateCount)

/-- reliability.test.cpp:505-509: the variables and values of a test of Fussell-Vesely importances. -/
def componentChanges (c : Cfg) : List VarChange :=
  (List.range c.n).flatMap fun i => (List.range ((domainsOf c).getD i 0 - 1)).map fun v => ⟨i, v + 1, v⟩

/-- reliability.test.cpp:505-533 -/
def fussellVeselyLoop (c : Cfg) (t : TT.Table) (d : Nat) (probs : List (List Rat)) (s : Int) (unavail : Rat) :
    List VarChange → SM World Bool → SM World Bool
  | [], rest => rest
  | vc :: l, rest => do
      let diagramDpld ← newSlot c (.dpld vc (Dpld.type3Decrease s) d)
      let expected ← lift (TT.fussellVesely c.asserts t probs vc.index vc.from s)
      let actual ← askRat c (.fussellVesely (matrixAt probs) unavail vc.from vc.index diagramDpld)
      check (close expected actual) (do
        let _ ← exec c (.drop diagramDpld)
        fussellVeselyLoop c t d probs s unavail l rest)

/-- reliability.test.cpp:500-534 -/
def fussellVeselyStates (c : Cfg) (t : TT.Table) (d : Nat) (probs : List (List Rat)) : List Int → SM World Bool
  | [] => pure true
  | s :: ss => do
      let unavail ← lift (TT.unavailability t probs s)
      fussellVeselyLoop c t d probs s unavail (componentChanges c) (fussellVeselyStates c t d probs ss)

/-- reliability.test.cpp:484-535 -/
def fussellVeselyImportances (c : Cfg) (ch : Nat → Choice) (draw : Nat → Nat → Rat) (stateCount : Nat) : SM World Bool := do
  let (d, t) ← makeSystem c ch
  let probs ← lift (drawMatrix c draw)
  fussellVeselyStates c t d probs (statesFrom1 stateCount)

/-- reliability.test.cpp:546-552 -/
def mcvsLoop (c : Cfg) (t : TT.Table) (d : Nat) : List Int → SM World Bool
  | [] => pure true
  | s :: rest => do
      let tableMcvs ← lift (TT.mcvs c.asserts t s)
      let diagramMcvs ← askAsgs c (.mcvs s d)
      require (tableMcvs.isPerm diagramMcvs) (mcvsLoop c t d rest)

/-- reliability.test.cpp:537-553 -/
def mcvs (c : Cfg) (ch : Nat → Choice) (stateCount : Nat) : SM World Bool := do
  let (d, t) ← makeSystem c ch
  mcvsLoop c t d (statesFrom1 stateCount)

/-- reliability.test.cpp:35-44, the calls of `evaluate`; all are made, whatever they return. -/
def allEqual (c : Cfg) (d : Nat) : List (List Nat × Int) → SM World Bool
  | [] => pure true
  | (elem, v) :: rest => do
      let a ← askInt c (.evaluate d (asgOf elem))
      let r ← allEqual c d rest
      pure (decide (a = v) && r)

/-- reliability.test.cpp:32-46 `compare_dplds`; the diagram is passed by value. -/
def compareDplds (c : Cfg) (td : TT.Table) (dd : Nat) : SM World Bool := do
  let copy ← newSlot c (.copy dd)
  let elems ← lift (TT.forEach td (fun v elem acc => .ok (acc ++ [(elem, v)])) [])
  let r ← allEqual c copy elems
  let _ ← exec c (.drop copy)
  pure r

/-- reliability.test.cpp:54-65 `switch_direction`, `add_opposite_directions`. -/
def withOpposite (changes : List (Nat × Nat)) : List (Nat × Nat) := changes ++ changes.map fun p => (p.2, p.1)

/-- reliability.test.cpp:571-579: the changes of the variable. -/
def varChanges (dom : Nat) : List (Nat × Nat) :=
  withOpposite ((List.range (dom - 1)).flatMap fun u => (List.range (dom - 1 - u)).map fun k => (u, u + 1 + k))

/-- reliability.test.cpp:581-588: the changes of the function. -/
def fChanges (stateCount : Nat) : List (Nat × Nat) :=
  withOpposite ((List.range (stateCount - 1)).flatMap fun u => (List.range (stateCount - u)).map fun k => (u, u + k))

/-- `BOOST_REQUIRE(compare_dplds(…))` for derivatives and extended derivatives, in order. -/
def requireDplds (c : Cfg) : List (TT.Table × Nat) → SM World Bool → SM World Bool
  | [], rest => rest
  | (td, dd) :: l, rest => do
      let b ← compareDplds c td dd
      require b (requireDplds c l rest)

/-- Destroying handles. -/
def dropAll (c : Cfg) : List Nat → SM World Unit
  | [] => pure ()
  | a :: as => do
      let _ ← exec c (.drop a)
      dropAll c as

/-- The derivative and the extended derivative of the table. -/
def tableDplds (c : Cfg) (t : TT.Table) (vc : VarChange) (ch : Int → Int → Bool) : Except Err (TT.Table × TT.Table) := do
  let d ← TT.dpld c.asserts t vc ch
  let e ← TT.dpldE c.asserts t vc ch
  .ok (d, e)

/-- The derivative and the extended derivative of the diagram. -/
def diagramDplds (c : Cfg) (d : Nat) (vc : VarChange) (ch : Int → Int → Bool) : SM World (Nat × Nat) := do
  let dd ← newSlot c (.dpld vc ch d)
  let de ← newSlot c (.toDpldE vc.from vc.index dd)
  pure (dd, de)

/-- One round of the loops of the tests of derivatives (591-630, 663-751, 782-865, 897-985): the derivatives of the
table, then those of the diagram, the numbers of ones, and the comparisons. -/
def dpldRound (c : Cfg) (t : TT.Table) (d : Nat) (vc : VarChange) (chs : List (Int → Int → Bool)) (rest : SM World Bool) :
    SM World Bool := do
  let tables ← lift (eachE (tableDplds c t vc) chs)
  let diagrams ← mapL (diagramDplds c d vc) chs
  let _ ← mapL (fun p : Nat × Nat => askInt c (.satisfyCount 1 p.1)) diagrams
  requireDplds c ((tables.zip diagrams).flatMap fun p => [(p.1.1, p.2.1), (p.1.2, p.2.2)]) (do
    dropAll c (diagrams.flatMap fun p => [p.1, p.2]).reverse
    rest)

/-- The loops of the tests of derivatives. -/
def dpldLoop (c : Cfg) (t : TT.Table) (d : Nat) : List (VarChange × List (Int → Int → Bool)) → SM World Bool
  | [] => pure true
  | (vc, chs) :: l => dpldRound c t d vc chs (dpldLoop c t d l)

/-- The changes of variable 0 (the loop over the variables has one round only). -/
def var0Changes (c : Cfg) : List VarChange := (varChanges ((domainsOf c).getD 0 0)).map fun p => ⟨0, p.1, p.2⟩

/-- reliability.test.cpp:589-591 -/
def basicCases (c : Cfg) (stateCount : Nat) : List (VarChange × List (Int → Int → Bool)) :=
  (var0Changes c).flatMap fun vc => (fChanges stateCount).map fun p => (vc, [Dpld.basic p.1 p.2])

/-- reliability.test.cpp:659-661 -/
def type1Cases (c : Cfg) (stateCount : Nat) : List (VarChange × List (Int → Int → Bool)) :=
  (List.range (stateCount - 1)).flatMap fun v : Nat =>
    (var0Changes c).map fun vc => (vc, [Dpld.type1Decrease ((v : Int) + 1), Dpld.type1Increase v])

/-- reliability.test.cpp:780 -/
def type2Cases (c : Cfg) : List (VarChange × List (Int → Int → Bool)) :=
  (var0Changes c).map fun vc => (vc, [Dpld.type2Decrease, Dpld.type2Increase])

/-- reliability.test.cpp:893-895 -/
def type3Cases (c : Cfg) (stateCount : Nat) : List (VarChange × List (Int → Int → Bool)) :=
  (statesFrom1 stateCount).flatMap fun s =>
    (var0Changes c).map fun vc => (vc, [Dpld.type3Decrease s, Dpld.type3Increase s])

/-- reliability.test.cpp:555-633 -/
def basicDpld (c : Cfg) (ch : Nat → Choice) (stateCount : Nat) : SM World Bool := do
  let (d, t) ← makeSystem c ch
  dpldLoop c t d (basicCases c stateCount)

/-- reliability.test.cpp:635-754 -/
def integratedDpld1 (c : Cfg) (ch : Nat → Choice) (stateCount : Nat) : SM World Bool := do
  let (d, t) ← makeSystem c ch
  dpldLoop c t d (type1Cases c stateCount)

/-- reliability.test.cpp:756-867 -/
def integratedDpld2 (c : Cfg) (ch : Nat → Choice) : SM World Bool := do
  let (d, t) ← makeSystem c ch
  dpldLoop c t d (type2Cases c)

/-- reliability.test.cpp:869-988 -/
def integratedDpld3 (c : Cfg) (ch : Nat → Choice) (stateCount : Nat) : SM World Bool := do
  let (d, t) ← makeSystem c ch
  dpldLoop c t d (type3Cases c stateCount)

/-! ### Fixtures -/

/-- reliability.test.cpp:84-173, the fixtures `bss_fixture`, `mss_fixture<3>`, `imss_fixture<3>` and `ifmss_fixture<3>`; the
latter two with the random domains. -/
inductive System where
  | bss
  | mss
  | imss (doms : List Nat)
  | ifmss (doms : List Nat)

namespace System

/-- `VarCount` (reliability.test.cpp:88, 111, 134, 159). -/
def vars : System → Nat
  | .bss => 21
  | _ => 15

/-- `stateCount_` (reliability.test.cpp:98, 121, 146, 171). -/
def stateCount : System → Nat
  | .bss => 2
  | _ => 3

/-- setup.hpp:287-345 `make_manager`, with the random order. -/
def manager (env : Surroundings) (order : List Nat) : System → Except Err (Cfg × Mgr)
  | .bss => bddManager env 21 2000000 none order
  | .mss => mddManager env 3 15 2000000 none order
  | .imss doms => imddManager env 15 2000000 none doms order
  | .ifmss doms => ifmddManager env 3 15 5000 none doms order

end System

/-- A test on the manager of a fixture. -/
def runSystem (env : Surroundings) (f : System) (order : List Nat) (t : Cfg → Nat → SM World Bool) : Except Err Bool :=
  runOn (f.manager env order) fun c => t c f.stateCount

end Tests
end Teddy
