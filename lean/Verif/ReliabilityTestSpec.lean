import Verif.ReliabilityTests
import Verif.TestSpec

/-!
# Seeds of the tests of reliability functions
-/

namespace Teddy
namespace Tests

open Tsl

/-- The number of values of a component. -/
def System.dom : System → Nat → Nat
  | .bss, _ => 2
  | .mss, _ => 3
  | .imss doms, i => doms.getD i 0
  | .ifmss doms, i => doms.getD i 0

/-- The classes whose domains are not fixed at compile time. -/
def System.mixed : System → Bool
  | .bss => false
  | .mss => false
  | .imss _ => true
  | .ifmss _ => true

/-- Values that random number generators can deliver: the domains have 2 or 3 values, the order is a shuffle of all
variables, and the denominators drawn for the sizes of subexpressions are at least 2. -/
structure SystemSeed (f : System) (order : List Nat) (ch : Nat → Choice) : Prop where
  doms : ∀ doms, f = .imss doms ∨ f = .ifmss doms → doms.length = 15 ∧ ∀ d ∈ doms, 2 ≤ d ∧ d ≤ 3
  order : order.Perm (List.range f.vars)
  tree : ∀ p, 2 ≤ (ch p).denom

/-- The numbers drawn for the states of a component are not all 0, so that they can be scaled to sum up to 1. -/
def Scalable (f : System) (draw : Nat → Nat → Rat) : Prop :=
  ∀ i < f.vars, ((List.range (f.dom i)).map (draw i)).sum ≠ 0

/-- The numbers drawn for the states of a component are not negative, the one for state 0 is positive, so that every component
can fail. -/
def CanFail (f : System) (draw : Nat → Nat → Rat) : Prop :=
  ∀ i < f.vars, (∀ k < f.dom i, 0 ≤ draw i k) ∧ 0 < draw i 0

end Tests
end Teddy
