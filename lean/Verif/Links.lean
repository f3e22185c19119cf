import Verif.Table

/-!
# The chains of the unique tables (`libteddy/details/hash_tables.hpp`), pointer by pointer

A bucket of a `unique_table` points to the first node of its chain, every node points to the next one through
`node::next_`.  `Table.buckets` (`Verif/Table.lean`) is the list of nodes a chain is meant to hold; what the program does
follows the pointers below.  Every walk along pointers is given `fuel`; running out of it stands for a walk that does not
end.
-/

namespace Teddy

/-- The pointers that make up the chains. -/
structure Links where
  /-- `node::next_` (node.hpp:189) -/
  next : Ptr → Option Ptr
  /-- `buckets_[b]` of the unique table of variable `i` (hash_tables.hpp:247) -/
  head : Nat → Nat → Option Ptr
  /-- `next` as it was when `swap_variable_with_next` was entered last; the program has no such variable -/
  saved : Ptr → Option Ptr

namespace Links

/-- node.hpp:252-256 `set_next`. -/
def setNext (L : Links) (p : Ptr) (v : Option Ptr) : Links := { L with next := upd L.next p v }

/-- Write bucket `b` of the table of variable `i`. -/
def setHead (L : Links) (i b : Nat) (v : Option Ptr) : Links :=
  { L with head := upd L.head i (upd (L.head i) b v) }

/-- hash_tables.hpp:638-652 `insert_impl`: `next_` is written only if the bucket is not empty. -/
def insert (L : Links) (i b : Nat) (p : Ptr) : Links :=
  match L.head i b with
  | some q => (L.setNext p (some q)).setHead i b (some p)
  | none => L.setHead i b (some p)

/-- hash_tables.hpp:671-678: walk from `prev` to the node before `p` and take `p` out. -/
def eraseWalk (p : Ptr) : Nat → Option Ptr → Links → Except Err Links
  | 0, _, _ => .error .fuel
  | _ + 1, none, _ => .error .nullDeref
  | f + 1, some prev, L =>
      if L.next prev = some p then .ok ((L.setNext prev (L.next p)).setNext p none)
      else eraseWalk p f (L.next prev) L

/-- hash_tables.hpp:654-679 `erase_impl`. -/
def erase (fuel i b : Nat) (p : Ptr) (L : Links) : Except Err Links :=
  if L.head i b = some p then .ok ((L.setHead i b (L.next p)).setNext p none)
  else eraseWalk p fuel (L.head i b) L

/-- hash_tables.hpp:484-494, the loop of `find`; `eq` is `node_equals` (693-706). -/
def findWalk (next : Ptr → Option Ptr) (eq : Ptr → Bool) : Nat → Option Ptr → Except Err (Option Ptr)
  | 0, _ => .error .fuel
  | _ + 1, none => .ok none
  | f + 1, some p => if eq p then .ok (some p) else findWalk next eq f (next p)

/-- hash_tables.hpp:613-622 the inner loop of `rehash`, and 506-513 the loop of `merge` within one bucket: the next node is
read, `next_` is reset, the node is inserted into the table of variable `i` with `cap` buckets.  `h` is the hash of the
sons of a node. -/
def relinkChain (h : Ptr → Nat) (i cap : Nat) : Nat → Option Ptr → Links → Except Err Links
  | 0, _, _ => .error .fuel
  | _ + 1, none, L => .ok L
  | f + 1, some p, L => relinkChain h i cap f (L.next p) ((L.setNext p none).insert i (h p % cap) p)

/-- The same for the buckets `bs` of an array of buckets. -/
def relinkAll (h : Ptr → Nat) (i cap fuel : Nat) (buckets : Nat → Option Ptr) :
    List Nat → Links → Except Err Links
  | [], L => .ok L
  | b :: bs, L =>
    match relinkChain h i cap fuel (buckets b) L with
    | .ok L => relinkAll h i cap fuel buckets bs L
    | .error e => .error e

/-- hash_tables.hpp:561-570 `clear`; also the fresh array of 608. -/
def clear (L : Links) (i : Nat) : Links := { L with head := upd L.head i (fun _ => none) }

/-- hash_tables.hpp:596-630 `rehash` of the table of variable `i` from `oldCap` to `newCap` buckets. -/
def rehash (h : Ptr → Nat) (i oldCap newCap fuel : Nat) (L : Links) : Except Err Links :=
  relinkAll h i newCap fuel (L.head i) (List.range oldCap) (L.clear i)

/-- hash_tables.hpp:543-553 `adjust_capacity` of the table of variable `i`. -/
def adjust (h : Ptr → Nat) (i : Nat) (t : Table) (fuel : Nat) (L : Links) : Except Err Links :=
  if t.grows then L.rehash h i t.cap (gteCapacity (t.size * 4 / 3)) fuel else .ok L

/-- node_manager.hpp:996-1012 `adjust_tables`, for the variables `is`. -/
def adjustAll (h : Ptr → Nat) (T : Nat → Table) (fuel : Nat) : List Nat → Links → Except Err Links
  | [], L => .ok L
  | i :: is, L =>
    match L.adjust h i (T i) fuel with
    | .ok L => adjustAll h T fuel is L
    | .error e => .error e

/-- hash_tables.hpp:499-514 `merge` of `other`, whose array of buckets is `buckets`, into the table of variable `i`. -/
def merge (h : Ptr → Nat) (i : Nat) (t other : Table) (buckets : Nat → Option Ptr) (fuel : Nat) (L : Links) :
    Except Err Links :=
  match L.adjust h i { t with size := t.size + other.size } fuel with
  | .ok L =>
      relinkAll h i (({ t with size := t.size + other.size } : Table).adjustCapacity h).cap fuel buckets
        (List.range other.cap) L
  | .error e => .error e

/-- The nodes met by following `next_` (hash_tables.hpp:376-386, the iterator within one bucket). -/
def follow (next : Ptr → Option Ptr) : Nat → Option Ptr → Except Err (List Ptr)
  | 0, _ => .error .fuel
  | _ + 1, none => .ok []
  | f + 1, some p =>
    match follow next f (next p) with
    | .ok l => .ok (p :: l)
    | .error e => .error e

/-- The nodes met by iterating over the buckets `bs` (hash_tables.hpp:354-435). -/
def followAll (next : Ptr → Option Ptr) (fuel : Nat) (buckets : Nat → Option Ptr) : List Nat → Except Err (List Ptr)
  | [] => .ok []
  | b :: bs =>
    match follow next fuel (buckets b) with
    | .ok l =>
        match followAll next fuel buckets bs with
        | .ok l' => .ok (l ++ l')
        | .error e => .error e
    | .error e => .error e

end Links

end Teddy
