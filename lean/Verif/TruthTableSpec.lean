import Verif.Spec

/-!
# Specification vocabulary for truth tables

Elements of the domain are lists of values, one per variable.
-/

namespace Teddy
namespace Spec

/-- All elements of the domain, in lexicographic order (the last variable changes fastest). -/
def tuples : List Nat → List (List Nat)
  | [] => [[]]
  | d :: ds => (List.range d).flatMap fun k => (tuples ds).map (k :: ·)

/-- `x` has one value of its domain for every variable. -/
def IsTuple (dom x : List Nat) : Prop :=
  x.length = dom.length ∧ ∀ i, i < dom.length → x.getD i 0 < dom.getD i 0

/-- A domain that a table can have: at least one variable, no empty variable domain, and a size that fits
int32 (offsets and indices are int32). -/
structure DomOK (dom : List Nat) : Prop where
  ne : dom ≠ []
  pos : ∀ d ∈ dom, 0 < d
  fits : dom.prod ≤ 2147483647

/-- The matrix has a row for every variable, with an entry for each of its values. -/
def HasRows (dom : List Nat) (ps : List (List Rat)) : Prop :=
  dom.length ≤ ps.length ∧ ∀ i, i < dom.length → dom.getD i 0 ≤ (ps.getD i []).length

/-- Entry `[i][k]` of the matrix. -/
def entry (ps : List (List Rat)) (i k : Nat) : Rat := (ps.getD i []).getD k 0

/-- Number of elements on which `f` has value `v`. -/
def tupleCount (dom : List Nat) (f : List Nat → Int) (v : Int) : Nat :=
  ((tuples dom).filter fun x => decide (f x = v)).length

/-- Probability of an element: component `i` is in state `k` with probability `P i k`, independently. -/
def tupleWeight (P : Nat → Nat → Rat) : Nat → List Nat → Rat
  | _, [] => 1
  | i, x :: xs => P i x * tupleWeight P (i + 1) xs

/-- Probability that an element satisfies `φ`. -/
def tupleProb (dom : List Nat) (P : Nat → Nat → Rat) (φ : List Nat → Bool) : Rat :=
  (((tuples dom).filter φ).map (tupleWeight P 0)).sum

/-- `x` is not the best element, `f` is below `s` on it, and every improvement of one component by one
reaches `s`. -/
def TupleMinCut (dom : List Nat) (f : List Nat → Int) (s : Int) (x : List Nat) : Prop :=
  (∃ i, i < dom.length ∧ x.getD i 0 + 1 < dom.getD i 0) ∧ f x < s ∧
    ∀ i, i < dom.length → x.getD i 0 + 1 < dom.getD i 0 → s ≤ f (x.set i (x.getD i 0 + 1))

/-- `x` is not the worst element, `f` reaches `s` on it, and every degradation of one component by one
drops below `s`. -/
def TupleMinPath (dom : List Nat) (f : List Nat → Int) (s : Int) (x : List Nat) : Prop :=
  (∃ i, i < dom.length ∧ 0 < x.getD i 0) ∧ s ≤ f x ∧
    ∀ i, i < dom.length → 0 < x.getD i 0 → f (x.set i (x.getD i 0 - 1)) < s

/-- `x ≤ y` in every component. -/
def TupleLe (dom x y : List Nat) : Prop := ∀ i, i < dom.length → x.getD i 0 ≤ y.getD i 0

instance (dom x y : List Nat) : Decidable (TupleLe dom x y) := by unfold TupleLe; infer_instance

/-- A better state of the components never makes the system worse. -/
def TupleMonotone (dom : List Nat) (f : List Nat → Int) : Prop :=
  ∀ x y, IsTuple dom x → IsTuple dom y → TupleLe dom x y → f x ≤ f y

instance (dom : List Nat) (f : List Nat → Int) (s : Int) (x : List Nat) :
    Decidable (TupleMinCut dom f s x) := by unfold TupleMinCut; infer_instance

instance (dom : List Nat) (f : List Nat → Int) (s : Int) (x : List Nat) :
    Decidable (TupleMinPath dom f s x) := by unfold TupleMinPath; infer_instance

end Spec
end Teddy
