import Verif.Arith
import Verif.Diagram

/-!
# Domain iterators and expressions of the supporting library (`libtsl/iterators.hpp`, `iterators.cpp`,
`expressions.hpp`, `expressions.cpp`, `generators.hpp`, `utilities.hpp`)

Simplifications: variable values, sizes of domains and indices are natural numbers (the code has `int32`);
an access outside a `std::vector` is `outOfRange`; random generators are the lists of the numbers they give.
-/

namespace Teddy
namespace Tsl

/-! ### domain_iterator -/

/-- iterators.hpp:82-86, members of `domain_iterator`. -/
structure DomIter where
  domains : List Nat
  indices : List Nat
  varVals : List Nat

/-- utilities.hpp:10-21 `fill_vector`. -/
def fillVector {α : Type} (n : Nat) (gen : Nat → α) : List α := (List.range n).map gen

/-- iterators.cpp:35-73, constructor with explicit order and fixed values.  Line 67 writes the fixed values to
the member `varVals_` while the initialiser of that member is still running: undefined behaviour as soon as
there is a fixed value. -/
def DomIter.make (domains order : List Nat) (fixed : List (Nat × Nat)) : Except Err DomIter :=
  let is := (order.filter fun i => (fixed.find? fun p => p.1 == i).isNone).reverse
  match fixed with
  | [] => .ok ⟨domains, is, List.replicate domains.length 0⟩
  | _ :: _ => .error .uninit

/-- iterators.cpp:27-33, constructor with explicit order. -/
def DomIter.ofOrder (domains order : List Nat) : Except Err DomIter := DomIter.make domains order []

/-- iterators.cpp:18-25, constructor with implicit order. -/
def DomIter.ofDomains (domains : List Nat) : Except Err DomIter :=
  DomIter.make domains (fillVector domains.length id) []

/-- iterators.cpp:14-16, the end iterator. -/
def DomIter.endIter : DomIter := ⟨[], [], []⟩

/-- iterators.cpp:84-97, the loop of `operator++` over the indices; returns the values and `overflow`. -/
def DomIter.loop (domains : List Nat) : List Nat → List Nat → Bool → Except Err (List Nat × Bool)
  | [], vals, overflow => .ok (vals, overflow)
  | i :: is, vals, _ =>
      match vals[i]?, domains[i]? with
      | some v, some d =>
          if v + 1 = d then DomIter.loop domains is (vals.set i 0) true
          else .ok (vals.set i (v + 1), false)
      | _, _ => .error .outOfRange

/-- iterators.cpp:80-107 `operator++`. -/
def DomIter.next (it : DomIter) : Except Err DomIter := do
  let (vals, overflow) ← DomIter.loop it.domains it.indices it.varVals false
  if overflow then .ok .endIter else .ok { it with varVals := vals }

/-- iterators.cpp:128-131, comparison with the sentinel. -/
def DomIter.atEnd (it : DomIter) : Bool := it.varVals.isEmpty

/-- The loop `for (; it != end; ++it) out(g(*it))`; with `g = pure` this visits a domain, with
`g = evaluate_expression` it reads an `evaluating_iterator` (iterators.cpp:140-198), which only forwards
to the domain iterator.  The first argument bounds the number of steps. -/
def DomIter.forEach {α : Type} (g : List Nat → Except Err α) : Nat → DomIter → Except Err (List α)
  | 0, _ => .error .fuel
  | k + 1, it =>
      if it.atEnd then .ok []
      else do
        let a ← g it.varVals
        let it' ← it.next
        let as ← DomIter.forEach g k it'
        .ok (a :: as)

/-! ### Expressions -/

/-- expressions.cpp:41-46, the inner loop of `evaluate_expression`: minimum of the variables of a term,
starting from the greatest int32. -/
def termMin (vs : List Nat) : List Nat → Int → Except Err Int
  | [], m => .ok m
  | i :: is, m =>
      match vs[i]? with
      | some v => termMin vs is (if (v : Int) < m then v else m)
      | none => .error .outOfRange

/-- expressions.cpp:35-50 `evaluate_expression` of a `minmax_expr`: maximum over the terms, starting from the
least int32. -/
def evalMinMax (vs : List Nat) : List (List Nat) → Int → Except Err Int
  | [], m => .ok m
  | t :: ts, m => do
      let v ← termMin vs t 2147483647
      evalMinMax vs ts (if v > m then v else m)

/-- expressions.cpp:35-50. -/
def evaluateMinMax (terms : List (List Nat)) (vs : List Nat) : Except Err Int :=
  evalMinMax vs terms (-2147483648)

/-- expressions.hpp:61-128 `expr_node`; `isMin` tells `operation_type::Min` from `Max`. -/
inductive ExprNode where
  | variableN (i : Nat)
  | constantN (c : Int)
  | operation (isMin : Bool) (l r : ExprNode)
deriving DecidableEq

/-- expressions.cpp:118-132 `expr_node::evaluate`. -/
def opValue (isMin : Bool) (l r : Int) : Int :=
  if isMin then (if l < r then l else r) else (if l < r then r else l)

/-- expressions.cpp:176-198 `evaluate_expression` of an `expr_node`. -/
def evaluateNode (vs : List Nat) : ExprNode → Except Err Int
  | .variableN i =>
      match vs[i]? with
      | some v => .ok v
      | none => .error .outOfRange
  | .constantN c => .ok c
  | .operation isMin l r => do
      let a ← evaluateNode vs l
      let b ← evaluateNode vs r
      .ok (opValue isMin a b)

/-- What `from_expression_tree` (generators.hpp:46-62) sees of an `expr_node`: the concept
`expression_node` of diagram_manager.hpp:34-60. -/
def ExprNode.toExpr : ExprNode → Expr
  | .variableN i => .var i
  | .constantN c => .const c
  | .operation isMin l r => .op (opValue isMin) l.toExpr r.toExpr

/-! ### Generators -/

/-- expressions.cpp:11-33 `make_minmax_expression`; `draw` are the numbers given by the distribution over
0, …, varCount - 1. -/
def makeMinMax (asserts : Bool) (draw : Nat → Nat) (varCount termCount termSize : Nat) :
    Except Err (List (List Nat)) :=
  if asserts = true ∧ varCount = 0 then .error .assertion
  else .ok ((List.range termCount).map fun t => (List.range termSize).map fun k => draw (t * termSize + k))

/-- One internal node of `make_expression_tree`: the denominator drawn from 2, …, 10, whether the operation is
`Min`, and which of the two recursive calls (arguments of one function call, so in unspecified order) runs
first. -/
structure Choice where
  denom : Nat
  isMin : Bool
  leftFirst : Bool

/-- State of the lambda of `make_expression_tree`: the next index and the number of choices made. -/
structure GenState where
  i : Nat
  pos : Nat

/-- expressions.cpp:150-172, the lambda `go`; the first argument bounds the depth of the recursion (the code
runs out of stack). -/
def treeGo (ch : Nat → Choice) : Nat → Nat → GenState → Except Err (ExprNode × GenState)
  | 0, _, _ => .error .fuel
  | fuel + 1, n, s =>
      if n = 1 then .ok (.variableN s.i, { s with i := s.i + 1 })
      else
        let c := ch s.pos
        if c.denom = 0 then .error .divZero
        else
          let lhs := max 1 (n / c.denom)
          let rhs := n - lhs
          let s := { s with pos := s.pos + 1 }
          if c.leftFirst then do
            let (l, s) ← treeGo ch fuel lhs s
            let (r, s) ← treeGo ch fuel rhs s
            .ok (.operation c.isMin l r, s)
          else do
            let (r, s) ← treeGo ch fuel rhs s
            let (l, s) ← treeGo ch fuel lhs s
            .ok (.operation c.isMin l r, s)

/-- expressions.cpp:144-174 `make_expression_tree`.  Natural numbers: for `varcount ≤ 0` the recursion of the
code does not end, here it has no fuel. -/
def makeTree (ch : Nat → Choice) (varcount : Nat) : Except Err ExprNode := do
  let (e, _) ← treeGo ch varcount varcount ⟨0, 0⟩
  .ok e

/-- generators.hpp:84-103, one round of the loop of `make_probability_matrix<M>`; `draw` are the numbers given
by the distribution.  Rational instead of `double`; division by a sum of zero gives NaN in the code, an error
here. -/
def probRow (M d : Nat) (draw : Nat → Rat) : Except Err (List Rat) :=
  if M < d then .error .outOfRange
  else
    let row := (List.range M).map fun j => if j < d then draw j else 0
    let sum := row.sum
    if 0 < d ∧ sum = 0 then .error .divZero
    else .ok ((List.range M).map fun j => if j < d then row.getD j 0 / sum else row.getD j 0)

/-- generators.hpp:77-105 `make_probability_matrix<M>`; `draw i` are the numbers drawn for row `i`. -/
def probMatrix (M : Nat) (domains : List Nat) (draw : Nat → Nat → Rat) : Except Err (List (List Rat)) :=
  (List.range domains.length).mapM fun i => probRow M (domains.getD i 0) (draw i)

end Tsl
end Teddy
