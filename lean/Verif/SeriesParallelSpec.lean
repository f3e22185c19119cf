import Verif.BinarySpec

/-!
# Specification vocabulary for Fussell-Vesely importance
-/

namespace Teddy
namespace Spec

/-- Systems built of components by series and parallel connections. -/
inductive Structure where
  | component (i : Nat)
  | series (a b : Structure)
  | parallel (a b : Structure)

namespace Structure

/-- The components, from left to right. -/
def components : Structure → List Nat
  | component i => [i]
  | series a b => a.components ++ b.components
  | parallel a b => a.components ++ b.components

/-- The state of the system: of a series connection the worse, of a parallel connection the better of the two states. -/
def value (x : Asg) : Structure → Int
  | component i => (x i : Int)
  | series a b => min (a.value x) (b.value x)
  | parallel a b => max (a.value x) (b.value x)

end Structure

/-- `x` lies below a minimal cut vector for state `s` in which component `i` is just below state `v`. -/
def BelowCut (n : Nat) (dom : Nat → Nat) (f : Asg → Int) (s : Int) (i v : Nat) (x : Asg) : Prop :=
  ∃ m ∈ allAsg n dom, MinCut n dom f s m ∧ m i + 1 = v ∧ ∀ j, j < n → x j ≤ m j

instance (n : Nat) (dom : Nat → Nat) (f : Asg → Int) (s : Int) (i v : Nat) (x : Asg) :
    Decidable (BelowCut n dom f s i v x) := by
  unfold BelowCut; infer_instance

/-- Fussell-Vesely importance of state `v` of component `i` for state `s` of the system: the probability of lying below a
minimal cut vector in which the component is just below `v`, divided by the probability of being below `s`. -/
def fussellVeselyImportance (n : Nat) (dom : Nat → Nat) (pr : Nat → Nat → Rat) (f : Asg → Int) (s : Int) (i v : Nat) : Rat :=
  probability n dom pr (fun x => decide (BelowCut n dom f s i v x)) /
    probability n dom pr (fun x => decide (f x < s))

end Spec
end Teddy
