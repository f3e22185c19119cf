import Verif.Basic

/-!
# Specification: chains of pointers

What it means to follow pointers from one node to the next until there is none.
-/

namespace Teddy

/-- Starting at `cur` and following `next`, the nodes of the list are met, in this order, and then the walk ends. -/
inductive Walk (next : Ptr → Option Ptr) : Option Ptr → List Ptr → Prop
  | stop : Walk next none []
  | step {p : Ptr} {l : List Ptr} : Walk next (next p) l → Walk next (some p) (p :: l)

end Teddy
