import Verif.Spec

/-!
# Specification vocabulary for systems of independent components
-/

namespace Teddy
namespace Spec

/-- Probability that a system of `n` components with two states works: the sum, over the states of the components in
which it works, of the products of `p i` for working components and `1 - p i` for the others. -/
def binaryReliability (n : Nat) (p : Nat → Rat) (works : Asg → Bool) : Rat :=
  (((allAsg n fun _ => 2).filter works).map fun x =>
    ((List.range n).map fun i => if x i = 1 then p i else 1 - p i).prod).sum

/-- The probabilities `pr` with row `i` replaced. -/
def setRow (pr : Nat → Nat → Rat) (i : Nat) (row : Nat → Rat) : Nat → Nat → Rat :=
  fun j k => if j = i then row k else pr j k

/-- The component is in state `v` for certain. -/
def certain (v : Nat) : Nat → Rat := fun k => if k = v then 1 else 0

/-- A better state of the components never makes the system worse. -/
def Monotone (n : Nat) (dom : Nat → Nat) (f : Asg → Int) : Prop :=
  ∀ x y, InDomain n dom x → InDomain n dom y → (∀ i, i < n → x i ≤ y i) → f x ≤ f y

end Spec
end Teddy
