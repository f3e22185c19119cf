import Verif.WorldSpec

/-!
# Questions about one diagram

The calls of the API that traverse one diagram with the marks of its nodes.
-/

namespace Teddy

/-- The diagram the call asks about: `satisfy_count`, the dependency set, the number of nodes
(libteddy/details/diagram_manager.hpp:1418-1432, 1833-1888) and the probabilities and frequencies
(libteddy/details/reliability_manager.hpp:535-790, 960-990) traverse it with marks. -/
def Call.asks : Call → Option Nat
  | .satisfyCount _ a | .dependencySet a | .nodeCountOf a | .calculateProbability _ _ a | .calculateProbabilities _ a |
    .calculateAvailability _ _ a | .calculateUnavailability _ _ a | .satisfyCountData _ a | .stateFrequency _ a |
    .structuralImportance a | .birnbaumImportance _ a => some a
  | _ => none

end Teddy
