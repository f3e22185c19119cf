import Verif.Basic

/-!
# The packed word of a node

`node::bits_` (node.hpp:188-195) is a 32-bit word: mark flag, used flag, leaf flag and 29 bits of
reference count.  `NodeManager.lean` keeps these as separate fields; this file models the word itself.
-/

namespace Teddy
namespace Bits

/-- `uint32` (types.hpp). -/
abbrev Word := BitVec 32

/-- node.hpp:175 -/
def MarkM : Word := 1#32 <<< (8 * 4 - 1)
/-- node.hpp:176 -/
def UsedM : Word := 1#32 <<< (8 * 4 - 2)
/-- node.hpp:177 -/
def LeafM : Word := 1#32 <<< (8 * 4 - 3)
/-- node.hpp:178 -/
def RefsM : Word := ~~~(MarkM ||| UsedM ||| LeafM)
/-- node.hpp:179 -/
def RefsMax : Word := RefsM + 1

/-- node.hpp:199-205: the word of a new terminal node. -/
def newTerminal : Word := LeafM ||| UsedM
/-- node.hpp:207-213: the word of a new internal node. -/
def newInternal : Word := UsedM

/-- node.hpp:305-308 `is_used` -/
def isUsed (b : Word) : Bool := b &&& UsedM != 0
/-- node.hpp:317-320 `is_marked` -/
def isMarked (b : Word) : Bool := b &&& MarkM != 0
/-- node.hpp:299-302 `is_terminal` -/
def isTerminal (b : Word) : Bool := isUsed b && b &&& LeafM != 0
/-- node.hpp:293-296 `is_internal` -/
def isInternal (b : Word) : Bool := isUsed b && !isTerminal b
/-- node.hpp:379-382 `is_or_was_internal` -/
def isOrWasInternal (b : Word) : Bool := !(b &&& LeafM != 0)
/-- node.hpp:341-344 `get_ref_count`: the word converted to `int32`. -/
def getRefCount (b : Word) : Int := (b &&& RefsM).toInt

/-- The member functions that change the word. -/
inductive NodeOp where
  | setUnused
  | setMarked
  | setNotmarked
  | toggleMarked
  | incRefCount
  | decRefCount

/-- node.hpp:311-361.  `asserts` says whether assertions are compiled in. -/
def step (asserts : Bool) : NodeOp → Word → Except Err Word
  | .setUnused, b => .ok (b &&& ~~~UsedM)
  | .toggleMarked, b => .ok (b ^^^ MarkM)
  | .setMarked, b => .ok (b ||| MarkM)
  | .setNotmarked, b => .ok (b &&& ~~~MarkM)
  | .incRefCount, b =>
      if asserts && !decide (getRefCount b < RefsMax.toInt) then .error .assertion else .ok (b + 1)
  | .decRefCount, b =>
      if asserts && !decide (getRefCount b > 0) then .error .assertion else .ok (b - 1)

/-- Several calls. -/
def steps (asserts : Bool) : List NodeOp → Word → Except Err Word
  | [], b => .ok b
  | o :: os, b => match step asserts o b with
    | .ok b' => steps asserts os b'
    | .error e => .error e

/-! ### Specification: four independent fields -/

/-- The flags and the count as separate fields. -/
structure Fields where
  mark : Bool
  used : Bool
  leaf : Bool
  refs : Int
deriving DecidableEq

/-- What the member functions say about a word. -/
def view (b : Word) : Fields := ⟨isMarked b, isUsed b, !isOrWasInternal b, getRefCount b⟩

/-- Each member function changes one field. -/
def Fields.step : NodeOp → Fields → Fields
  | .setUnused, f => { f with used := false }
  | .setMarked, f => { f with mark := true }
  | .setNotmarked, f => { f with mark := false }
  | .toggleMarked, f => { f with mark := !f.mark }
  | .incRefCount, f => { f with refs := f.refs + 1 }
  | .decRefCount, f => { f with refs := f.refs - 1 }

/-- The count stays between 0 and 2^29 - 1. -/
def Fields.Counts : List NodeOp → Fields → Prop
  | [], _ => True
  | o :: os, f => 0 ≤ (f.step o).refs ∧ (f.step o).refs < 2 ^ 29 ∧ Counts os (f.step o)

end Bits
end Teddy
