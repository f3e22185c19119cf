import Verif.Basic

/-!
# `utils::sort` (tools.hpp:227-279), a heapsort

The vector is a map from positions to elements together with its size.  Positions are unbounded
naturals: the code uses `uint32`, i.e. assumes fewer than 2^31 elements.
-/

namespace Teddy

/-- tools.hpp:211-219 `utils::swap(xs[i], xs[j])`. -/
def swapAt {α : Type} (xs : Nat → α) (i j : Nat) : Nat → α :=
  fun k => if k = i then xs j else if k = j then xs i else xs k

/-- tools.hpp:241-253: which of `parent`, `left`, `right` should be on top. -/
def siftPick {α : Type} (cmp : α → α → Bool) (xs : Nat → α) (parent size : Nat) : Nat :=
  let left := 2 * parent + 1
  let right := left + 1
  let s1 := if cmp (xs parent) (xs left) then left else parent
  if right < size && cmp (xs s1) (xs right) then right else s1

/-- tools.hpp:235-262 `sift_down`; the fuel bounds the number of iterations. -/
def siftDown {α : Type} (cmp : α → α → Bool) : Nat → (Nat → α) → Nat → Nat → (Nat → α)
  | 0, xs, _, _ => xs
  | f + 1, xs, parent, size =>
      if 2 * parent + 1 < size then
        let s := siftPick cmp xs parent size
        if s = parent then xs
        else siftDown cmp f (swapAt xs parent s) s size
      else xs

/-- tools.hpp:266-271 make-heap: `i - 1, …, 0`. -/
def makeHeap {α : Type} (cmp : α → α → Bool) (size : Nat) : Nat → (Nat → α) → (Nat → α)
  | 0, xs => xs
  | i + 1, xs => makeHeap cmp size i (siftDown cmp size xs i size)

/-- tools.hpp:273-278 pop-heap: `last, …, 1`. -/
def popHeap {α : Type} (cmp : α → α → Bool) : Nat → (Nat → α) → (Nat → α)
  | 0, xs => xs
  | last + 1, xs =>
      popHeap cmp last (siftDown cmp (last + 1) (swapAt xs (last + 1) 0) 0 (last + 1))

/-- tools.hpp:227-279 on a vector of `size` elements. -/
def heapSort {α : Type} (cmp : α → α → Bool) (size : Nat) (xs : Nat → α) : Nat → α :=
  if size = 0 then xs
  else popHeap cmp (size - 1) (makeHeap cmp size (size / 2 + 1) xs)

end Teddy
