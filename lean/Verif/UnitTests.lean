import Verif.MakeDiagram
import Verif.Shipped

/-!
# The unit tests of the library (`tests/core.test.cpp`, `tests/setup.hpp`)

Each test is a program that makes a manager, makes a diagram of a random expression, calls the API and compares.
Random numbers are arguments.  A test returns whether all its requirements (`BOOST_REQUIRE`) are met; the first one that
is not ends it.  What a test prints is left out, the calls of the API that it makes for printing are not.  The
destruction of the handles at the end of a test is left out.
-/

namespace Teddy
namespace Tests

open SM Tsl

/-- A computation without a manager. -/
def lift {α : Type} (e : Except Err α) : SM World α := fun w =>
  match e with
  | .ok a => .ok (a, w)
  | .error e => .error e

/-- `BOOST_REQUIRE(b)` before the rest of a test. -/
def require (b : Bool) (rest : SM World Bool) : SM World Bool := if b then rest else pure false

/-- A call that returns an `int32` or `int64`. -/
def askInt (c : Cfg) (k : Call) : SM World Int := do
  match ← exec c k with
  | .int v => pure v
  | _ => throw .assertion

/-- A call that returns a number of nodes. -/
def askNat (c : Cfg) (k : Call) : SM World Nat := do
  match ← exec c k with
  | .nat v => pure v
  | _ => throw .assertion

/-- A call that returns a `bool`. -/
def askBool (c : Cfg) (k : Call) : SM World Bool := do
  match ← exec c k with
  | .bool b => pure b
  | _ => throw .assertion

/-- A call that returns the order of the variables. -/
def askNats (c : Cfg) (k : Call) : SM World (List Nat) := do
  match ← exec c k with
  | .nats l => pure l
  | _ => throw .assertion

/-- A call that returns a truth vector. -/
def askInts (c : Cfg) (k : Call) : SM World (List Int) := do
  match ← exec c k with
  | .ints l => pure l
  | _ => throw .assertion

/-- A call that returns values of the variables, or nothing. -/
def askAsg (c : Cfg) (k : Call) : SM World (Option (List Nat)) := do
  match ← exec c k with
  | .asg o => pure o
  | _ => throw .assertion

/-- A call that writes values of the variables to an output iterator. -/
def askAsgs (c : Cfg) (k : Call) : SM World (List (List Nat)) := do
  match ← exec c k with
  | .asgs l => pure l
  | _ => throw .assertion

/-- node_manager.hpp:608-619 `get_domains`. -/
def domainsOf (c : Cfg) : List Nat := fillVector c.n c.dom

/-- The values and the variables of an `evaluating_iterator`, in the order in which the loop
`while (evalIt != evalEnd) … ++evalIt` meets them. -/
def visit (c : Cfg) (eval : List Nat → Except Err Int) (it : DomIter) : Except Err (List (List Nat × Int)) :=
  it.forEach (fun l => do let v ← eval l; .ok (l, v)) ((domainsOf c).prod + 1)

/-- setup.hpp:529-533 `make_domain_iterator`. -/
def orderIter (c : Cfg) : SM World DomIter := do
  let order ← askNats c .getOrder
  lift (DomIter.ofOrder (domainsOf c) order)

/-- core.test.cpp:163-182 `test_compare_eval`: each expected value is compared with what `evaluate` returns.
Simplification: the expected values are computed before the comparisons. -/
def compareAll (c : Cfg) (d : Nat) : List (List Nat × Int) → SM World Bool → SM World Bool
  | [], rest => rest
  | (l, expected) :: ls, rest => do
      let actual ← askInt c (.evaluate d (asgOf l))
      require (decide (expected = actual)) (compareAll c d ls rest)

/-- core.test.cpp:163-182 -/
def compareEval (c : Cfg) (eval : List Nat → Except Err Int) (it : DomIter) (d : Nat) (rest : SM World Bool) :
    SM World Bool := do
  let ls ← lift (visit c eval it)
  compareAll c d ls rest

/-- core.test.cpp:150-159, the loop of `expected_counts`. -/
def tally : List (List Nat × Int) → List Nat → Except Err (List Nat)
  | [], counts => .ok counts
  | (_, v) :: vs, counts =>
      if v < 0 then .error .outOfRange
      else
        let j := v.toNat
        let counts := if counts.length ≤ j then counts ++ List.replicate (j + 1 - counts.length) 0 else counts
        tally vs (counts.set j (counts.getD j 0 + 1))

/-- core.test.cpp:137-161 `expected_counts`. -/
def expectedCounts (c : Cfg) (terms : List (List Nat)) : Except Err (List Nat) := do
  let it ← DomIter.ofDomains (domainsOf c)
  let vs ← visit c (evaluateMinMax terms) it
  tally vs []

/-! ### The tests -/

/-- core.test.cpp:192-203 -/
def evaluate (c : Cfg) (terms : List (List Nat)) : SM World Bool := do
  let d ← makeDiagram c false terms
  let _ ← askNat c (.nodeCountOf d)
  let it ← orderIter c
  compareEval c (evaluateMinMax terms) it d (pure true)

/-- core.test.cpp:205-215 -/
def fold (c : Cfg) (terms : List (List Nat)) : SM World Bool := do
  let d1 ← makeDiagram c false terms
  let d2 ← makeDiagram c true terms
  let _ ← askNat c (.nodeCountOf d1)
  let b ← askBool c (.equals d1 d2)
  require b (pure true)

/-- core.test.cpp:217-230 -/
def gc (c : Cfg) (terms : List (List Nat)) : SM World Bool := do
  let d1 ← makeDiagram c false terms
  let _ ← makeDiagram c true terms
  let _ ← askNat c (.nodeCountOf d1)
  let _ ← exec c .forceGc
  let expected ← askNat c (.nodeCountOf d1)
  let actual ← askNat c .nodeCount
  require (decide (expected = actual)) (pure true)

/-- core.test.cpp:232-252; the loop over the states. -/
def satisfyCount (c : Cfg) (terms : List (List Nat)) : SM World Bool := do
  let d ← makeDiagram c false terms
  let _ ← askNat c (.nodeCountOf d)
  let expected ← lift (expectedCounts c terms)
  let actual ← mapL (fun (j : Nat) => askInt c (.satisfyCount j d)) (List.range expected.length)
  require (decide (actual = expected.map Int.ofNat)) (pure true)

/-- core.test.cpp:263-269 -/
def satisfyOneLoop (c : Cfg) (d : Nat) : List Nat → SM World Bool → SM World Bool
  | [], rest => rest
  | j :: js, rest => do
      match ← askAsg c (.satisfyOne j d) with
      | none => pure false
      | some vars =>
          let v ← askInt c (.evaluate d (asgOf vars))
          require (decide ((j : Int) = v)) (satisfyOneLoop c d js rest)

/-- core.test.cpp:271-280 -/
def satisfyOneConst (c : Cfg) : SM World Bool := do
  let justOne ← newSlot c (.constant 1)
  let nullOpt ← askAsg c (.satisfyOne 0 justOne)
  let notNullOpt ← askAsg c (.satisfyOne 1 justOne)
  require nullOpt.isNone
    (match notNullOpt with
    | none => pure false
    | some vars => do
        let v ← askInt c (.evaluate justOne (asgOf vars))
        require (decide (1 = v)) (pure true))

/-- core.test.cpp:254-281; `maxValue` is a member of the fixture (55, 79, 105, 132). -/
def satisfyOne (c : Cfg) (maxValue : Nat) (terms : List (List Nat)) : SM World Bool := do
  let d ← makeDiagram c false terms
  let _ ← askNat c (.nodeCountOf d)
  satisfyOneLoop c d (List.range maxValue) (satisfyOneConst c)

/-- core.test.cpp:283-305; the numbers of elements written to the output iterator. -/
def satisfyAll (c : Cfg) (terms : List (List Nat)) : SM World Bool := do
  let d ← makeDiagram c false terms
  let _ ← askNat c (.nodeCountOf d)
  let expected ← lift (expectedCounts c terms)
  let actual ← mapL (fun (k : Nat) => do
    let out ← askAsgs c (.satisfyAll k d)
    pure out.length) (List.range expected.length)
  require (decide (actual = expected)) (pure true)

/-- One requirement of `operators_1`: `apply<op>(a, b).equals(e)`.  The temporary diagram is destroyed at the end of the
statement. -/
def applyEquals (c : Cfg) (op : BinOp) (a b e : Nat) (rest : SM World Bool) : SM World Bool := do
  let d ← newSlot c (.apply op a b)
  let r ← askBool c (.equals d e)
  let _ ← exec c (.drop d)
  require r rest

/-- A sequence of such requirements. -/
def checks (c : Cfg) : List (BinOp × Nat × Nat × Nat) → SM World Bool
  | [] => pure true
  | (op, a, b, e) :: rs => applyEquals c op a b e (checks c rs)

/-- core.test.cpp:307-423 -/
def operators1 (c : Cfg) (terms : List (List Nat)) : SM World Bool := do
  let d ← makeDiagram c false terms
  let _ ← askNat c (.nodeCountOf d)
  let zer ← newSlot c (.constant 0)
  let one ← newSlot c (.constant 1)
  let sup ← newSlot c (.constant ((domainsOf c).max?.getD 0 - 1 : Int))
  let b ← newSlot c (.transform (fun v => if v ≠ 0 then 1 else 0) d)
  checks c [
    (Op.AND, b, zer, zer), (Op.AND, b, one, b), (Op.OR, b, one, one),
    (Op.OR, b, zer, b), (Op.XOR, b, b, zer), (Op.MULTIPLIES 2, b, zer, zer), (Op.MULTIPLIES 4, b, one, b),
    (Op.PLUS 4, b, zer, b), (Op.EQUAL_TO, b, b, one),
    (Op.NOT_EQUAL_TO, b, b, zer), (Op.LESS, b, b, zer), (Op.GREATER, b, b, zer),
    (Op.LESS_EQUAL, b, b, one), (Op.GREATER_EQUAL, b, b, one), (Op.MIN, b, zer, zer),
    (Op.MIN, b, sup, b), (Op.MAX, b, sup, sup), (Op.MAX, b, zer, b)]

/-- core.test.cpp:707-748; `i1` and `i2` are the two random indices, `mk` the constructor of the iterator (`DomIter.make` in
the code). -/
def cofactor (mk : List Nat → List Nat → List (Nat × Nat) → Except Err DomIter) (c : Cfg) (terms : List (List Nat))
    (i1 i2 : Nat) : SM World Bool := do
  let d ← makeDiagram c false terms
  let _ ← askNat c (.nodeCountOf d)
  let inter ← newSlot c (.cofactor d i1 0)
  let d1 ← newSlot c (.cofactor inter i2 1)
  let d2 ← newSlot c (.cofactors d [(i1, 0), (i2, 1)])
  let order ← askNats c .getOrder
  let it ← lift (mk (domainsOf c) order [(i1, 0), (i2, 1)])
  compareEval c (evaluateMinMax terms) it d1 <|
    compareEval c (evaluateMinMax terms) it d2 <| do
      let b ← askBool c (.equals d1 d2)
      require b (pure true)

/-- core.test.cpp:750-768 -/
def oneVarSift (c : Cfg) (terms : List (List Nat)) : SM World Bool := do
  let d ← makeDiagram c false terms
  let _ ← askNat c (.nodeCountOf d)
  let _ ← exec c .forceGc
  let _ ← exec c .forceReorder
  let _ ← exec c .forceGc
  let actual ← askNat c .nodeCount
  let expected ← askNat c (.nodeCountOf d)
  require (decide (expected = actual)) do
    let it ← orderIter c
    compareEval c (evaluateMinMax terms) it d (pure true)

/-- core.test.cpp:770-783 -/
def autoVarSift (c : Cfg) (terms : List (List Nat)) : SM World Bool := do
  let _ ← exec c (.setAutoReorder true)
  let d ← makeDiagram c false terms
  let _ ← exec c .forceGc
  let actual ← askNat c .nodeCount
  let expected ← askNat c (.nodeCountOf d)
  require (decide (expected = actual)) do
    let it ← orderIter c
    compareEval c (evaluateMinMax terms) it d (pure true)

/-- core.test.cpp:785-801 -/
def fromVector (c : Cfg) (terms : List (List Nat)) : SM World Bool := do
  let d ← makeDiagram c false terms
  let _ ← askNat c (.nodeCountOf d)
  let it ← orderIter c
  let vs ← lift (visit c (evaluateMinMax terms) it)
  let v ← newSlot c (.fromVector (vs.map (·.2)))
  let b ← askBool c (.equals d v)
  require b (pure true)

/-- core.test.cpp:803-817 -/
def toVector (c : Cfg) (terms : List (List Nat)) : SM World Bool := do
  let d ← makeDiagram c false terms
  let _ ← askNat c (.nodeCountOf d)
  let vs ← askInts c (.toVector d)
  let v ← newSlot c (.fromVector vs)
  let b ← askBool c (.equals d v)
  require b (pure true)

/-- core.test.cpp:819-831 -/
def fromExpression (c : Cfg) (ch : Nat → Choice) : SM World Bool := do
  let e ← lift (makeTree ch c.n)
  let d ← newSlot c (.fromExpr e.toExpr)
  let it ← lift (DomIter.ofDomains (domainsOf c))
  compareEval c (fun l => evaluateNode l e) it d (pure true)

/-! ### Fixtures -/

/-- core.test.cpp:36-135, the fixtures `bdd_fixture`, `mdd_fixture`, `imdd_fixture` and `ifmdd_fixture`; the latter two with the
random domains. -/
inductive Fixture where
  | bdd
  | mdd
  | imdd (doms : List Nat)
  | ifmdd (doms : List Nat)

namespace Fixture

/-- `VarCount` (core.test.cpp:44, 68, 92, 119). -/
def vars : Fixture → Nat
  | .bdd => 21
  | _ => 15

/-- `maxValue_` (core.test.cpp:55, 79, 105, 132). -/
def maxValue : Fixture → Nat
  | .bdd => 2
  | _ => 3

/-- setup.hpp:232-285 `make_manager`, with the random order. -/
def manager (env : Surroundings) (order : List Nat) : Fixture → Except Err (Cfg × Mgr)
  | .bdd => bddManager env 21 5000 none order
  | .mdd => mddManager env 3 15 5000 none order
  | .imdd doms => imddManager env 15 5000 none doms order
  | .ifmdd doms => ifmddManager env 3 15 5000 none doms order

/-- The random expression (`TermCount`, `TermSize`; setup.hpp:402-416). -/
def expr (env : Surroundings) (draw : Nat → Nat) (f : Fixture) : Except Err (List (List Nat)) :=
  makeMinMax env.asserts draw f.vars 20 5

end Fixture

/-- A test on a manager. -/
def runOn (r : Except Err (Cfg × Mgr)) (t : Cfg → SM World Bool) : Except Err Bool :=
  match r with
  | .ok (c, m) => match t c ⟨m, []⟩ with
    | .ok (b, _) => .ok b
    | .error e => .error e
  | .error e => .error e

/-- A test on the expression and the manager of a fixture. -/
def run (env : Surroundings) (f : Fixture) (order : List Nat) (draw : Nat → Nat)
    (t : Cfg → List (List Nat) → SM World Bool) : Except Err Bool := do
  let terms ← f.expr env draw
  runOn (f.manager env order) fun c => t c terms

/-- Requirements `BOOST_REQUIRE_EQUAL(op(l, r), v)` for the triples `(l, r, v)`. -/
def table (op : BinOp) (rows : List (Int × Int × Int)) (rest : Except Err Bool) : Except Err Bool :=
  match rows with
  | [] => rest
  | (l, r, v) :: rows => do
      let a ← op.fn l r
      if a = v then table op rows rest else .ok false

/-- core.test.cpp:425-705 `operators_2`; `plus` and `times` are the operations `PLUS<3>` and `MULTIPLIES<3>`.  Each line: the two
arguments and the value required. -/
def operators2 (plus times : BinOp) : Except Err Bool :=
  let N := Nondetermined
  let U := Undefined
  table Op.AND [(0, 0, 0), (0, 1, 0), (0, N, 0),
    (1, 0, 0), (1, 1, 1), (1, N, N),
    (N, 0, 0), (N, 1, N), (N, N, N)] <|
  table Op.OR [(0, 0, 0), (0, 1, 1), (0, N, N),
    (1, 0, 1), (1, 1, 1), (1, N, 1),
    (N, 0, N), (N, 1, 1), (N, N, N)] <|
  table Op.XOR [(0, 0, 0), (0, 1, 1), (0, N, N),
    (1, 0, 1), (1, 1, 0), (1, N, N),
    (N, 0, N), (N, 1, N), (N, N, N)] <|
  table Op.PI_CONJ [(0, 0, 0), (0, 1, 0), (0, U, 0), (0, N, 0),
    (1, 0, 0), (1, 1, 1), (1, U, 1), (1, N, N),
    (U, 0, 0), (U, 1, 1), (U, U, U), (U, N, N),
    (N, 0, 0), (N, 1, N), (N, U, N), (N, N, N)] <|
  table Op.NAND [(0, 0, 1), (0, 1, 1), (0, N, N),
    (1, 0, 1), (1, 1, 0), (1, N, N),
    (N, 0, N), (N, 1, N), (N, N, N)] <|
  table Op.NOR [(0, 0, 1), (0, 1, 0), (0, N, N),
    (1, 0, 0), (1, 1, 0), (1, N, 0),
    (N, 0, N), (N, 1, 0), (N, N, N)] <|
  table Op.XNOR [(0, 0, 1), (0, 1, 0), (0, N, N),
    (1, 0, 0), (1, 1, 1), (1, N, N),
    (N, 0, N), (N, 1, N), (N, N, N)] <|
  table Op.EQUAL_TO [(0, 0, 1), (0, 1, 0), (0, 2, 0), (0, N, N),
    (1, 0, 0), (1, 1, 1), (1, 2, 0), (1, N, N),
    (2, 0, 0), (2, 1, 0), (2, 2, 1), (2, N, N),
    (N, 0, N), (N, 1, N), (N, 2, N), (N, N, N)] <|
  table Op.NOT_EQUAL_TO [(0, 0, 0), (0, 1, 1), (0, 2, 1), (0, N, N),
    (1, 0, 1), (1, 1, 0), (1, 2, 1), (1, N, N),
    (2, 0, 1), (2, 1, 1), (2, 2, 0), (2, N, N),
    (N, 0, N), (N, 1, N), (N, 2, N), (N, N, N)] <|
  table Op.LESS [(0, 0, 0), (0, 1, 1), (0, 2, 1), (0, N, N),
    (1, 0, 0), (1, 1, 0), (1, 2, 1), (1, N, N),
    (2, 0, 0), (2, 1, 0), (2, 2, 0), (2, N, N),
    (N, 0, N), (N, 1, N), (N, 2, N), (N, N, N)] <|
  table Op.LESS_EQUAL [(0, 0, 1), (0, 1, 1), (0, 2, 1), (0, N, N),
    (1, 0, 0), (1, 1, 1), (1, 2, 1), (1, N, N),
    (2, 0, 0), (2, 1, 0), (2, 2, 1), (2, N, N),
    (N, 0, N), (N, 1, N), (N, 2, N), (N, N, N)] <|
  table Op.GREATER [(0, 0, 0), (0, 1, 0), (0, 2, 0), (0, N, N),
    (1, 0, 1), (1, 1, 0), (1, 2, 0), (1, N, N),
    (2, 0, 1), (2, 1, 1), (2, 2, 0), (2, N, N),
    (N, 0, N), (N, 1, N), (N, 2, N), (N, N, N)] <|
  table Op.GREATER_EQUAL [(0, 0, 1), (0, 1, 0), (0, 2, 0), (0, N, N),
    (1, 0, 1), (1, 1, 1), (1, 2, 0), (1, N, N),
    (2, 0, 1), (2, 1, 1), (2, 2, 1), (2, N, N),
    (N, 0, N), (N, 1, N), (N, 2, N), (N, N, N)] <|
  table Op.MIN [(0, 0, 0), (0, 1, 0), (0, 2, 0), (0, N, 0),
    (1, 0, 0), (1, 1, 1), (1, 2, 1), (1, N, N),
    (2, 0, 0), (2, 1, 1), (2, 2, 2), (2, N, N),
    (N, 0, 0), (N, 1, N), (N, 2, N), (N, N, N)] <|
  table Op.MAX [(0, 0, 0), (0, 1, 1), (0, 2, 2), (0, N, N),
    (1, 0, 1), (1, 1, 1), (1, 2, 2), (1, N, N),
    (2, 0, 2), (2, 1, 2), (2, 2, 2), (2, N, N),
    (N, 0, N), (N, 1, N), (N, 2, N), (N, N, N)] <|
  table Op.MIN [(N, N, N)] <|
  table (Op.MAXB 3) [(0, 0, 0), (0, 1, 1), (0, 2, 2), (0, N, N),
    (1, 0, 1), (1, 1, 1), (1, 2, 2), (1, N, N),
    (2, 0, 2), (2, 1, 2), (2, 2, 2), (2, N, 2),
    (N, 0, N), (N, 1, N), (N, 2, 2), (N, N, N)] <|
  table plus [(0, 0, 0), (0, 1, 1), (0, 2, 2), (0, N, N),
    (1, 0, 1), (1, 1, 2), (1, 2, 0), (1, N, N),
    (2, 0, 2), (2, 1, 0), (2, 2, 1), (2, N, N),
    (N, 0, N), (N, 1, N), (N, 2, N), (N, N, N)] <|
  table times [(0, 0, 0), (0, 1, 0), (0, 2, 0), (0, N, 0),
    (1, 0, 0), (1, 1, 1), (1, 2, 2), (1, N, N),
    (2, 0, 0), (2, 1, 2), (2, 2, 1), (2, N, N),
    (N, 0, 0), (N, 1, N), (N, 2, N), (N, N, N)] <|
  table Op.IMPLIES [(0, 0, 1), (0, 1, 1), (0, N, 1),
    (1, 0, 0), (1, 1, 1), (1, N, N),
    (N, 0, N), (N, 1, N), (N, N, N)] <|
  .ok true

end Tests
end Teddy
