import Verif.Spec
import Verif.Iterators
import Mathlib.Algebra.Order.Ring.Int

/-!
# What min-max expressions mean
-/

namespace Teddy
namespace Tsl

/-- The sizes of the domains as a function. -/
def sizes (domains : List Nat) : Nat → Nat := fun i => domains.getD i 0

/-- The least of the values of the variables in `term`. -/
def termVal (term : List Nat) (x : Asg) : Int := ((term.map fun i => (x i : Int)).min?).getD 0

/-- The greatest of the values of the terms. -/
def minMaxVal (terms : List (List Nat)) (x : Asg) : Int := ((terms.map fun t => termVal t x).max?).getD 0

/-- The value of an expression tree. -/
def nodeVal (x : Asg) : ExprNode → Int
  | .variableN i => x i
  | .constantN c => c
  | .operation true l r => min (nodeVal x l) (nodeVal x r)
  | .operation false l r => max (nodeVal x l) (nodeVal x r)

/-- The variables in the leaves of an expression tree, from left to right. -/
def ExprNode.vars : ExprNode → List Nat
  | .variableN i => [i]
  | .constantN _ => []
  | .operation _ l r => l.vars ++ r.vars

/-- The constants in the leaves. -/
def ExprNode.consts : ExprNode → List Int
  | .variableN _ => []
  | .constantN c => [c]
  | .operation _ l r => l.consts ++ r.consts

end Tsl
end Teddy
