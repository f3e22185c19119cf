import Verif.World

/-! # Handles as keys

A program may keep diagrams in `std::unordered_map` and `std::unordered_set`, which use `std::hash` and `std::equal_to`
(diagram.hpp:184-207). -/

namespace Teddy

/-- The handle `a` is written by the call: it is assigned to, moved from, destroyed or swapped. -/
def Call.writes : Call → Nat → Prop
  | .assign b _, a => a = b
  | .drop b, a => a = b
  | .move b d, a => a = b ∨ a = d
  | .swap b d, a => a = b ∨ a = d
  | _, _ => False

end Teddy
