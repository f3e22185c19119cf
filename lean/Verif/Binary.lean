import Verif.World

/-!
# Overloads of `reliability_manager` for binary systems

They exist for managers whose nodes have two sons (`details::is_bss`); each one forwards to a member modelled in
`Verif.Reliability`.  The assertion in `prob_vector_wrap_proxy` (that the value is 0 or 1, probabilities.hpp:36)
is not modelled: the members ask for values below the number of sons only.
-/

namespace Teddy

/-- reliability_manager.hpp:533-544 `calculate_probabilities(probs, diagram)` with a vector. -/
def Call.bssProbabilities (p : Nat → Rat) (a : Nat) : Call := .calculateProbabilities (probVectorWrap p) a

/-- reliability_manager.hpp:557-569 `calculate_probability(probs, diagram)` with a vector. -/
def Call.bssProbability (p : Nat → Rat) (a : Nat) : Call := .calculateProbability 1 (probVectorWrap p) a

/-- reliability_manager.hpp:592-604 `calculate_availability(probs, diagram)` with a vector. -/
def Call.bssAvailability (p : Nat → Rat) (a : Nat) : Call := .calculateAvailability 1 (probVectorWrap p) a

/-- reliability_manager.hpp:656-664 `calculate_unavailability(probs, diagram)`: with a matrix, unlike the others. -/
def Call.bssUnavailability (P : Nat → Nat → Rat) (a : Nat) : Call := .calculateUnavailability 1 P a

/-- reliability_manager.hpp:627-634 `get_availability()`. -/
def bssGetAvailability : M Rat := do
  match ← getTerminal 1 with
  | some p => getData p
  | none => pure 0

/-- reliability_manager.hpp:689-695 `get_unavailability()`. -/
def bssGetUnavailability : M Rat := getUnavailability 1

end Teddy
