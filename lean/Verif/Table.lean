import Verif.Basic

/-!
# Hash tables (`libteddy/details/hash_tables.hpp`)

`Table` models `unique_table`, `Cache` models `apply_cache`.

`Table.buckets` lists the nodes each chain is meant to hold; the pointers (`buckets_`, `node::next_`), and what
the program does with them, are in `Verif/Links.lean`.  Simplifications: the 64-bit hash of a son tuple / of a cache key is an arbitrary function given from outside
(it depends on run-time addresses).  `size_` of the cache is dropped: it only feeds
`get_load_factor`, which is debug output.
-/

namespace Teddy

/-- `hash_tables.hpp:23-28`. -/
def Capacities : List Nat :=
  [307, 617, 1237, 2477, 4957, 9923, 19853, 39709, 79423, 158849,
   317701, 635413, 1270849, 2541701, 5083423,
   10166857, 20333759, 40667527, 81335063, 162670129,
   325340273, 650680571, 1301361143, 2602722289]

/-- `hash_tables.hpp:340-350` `table_base::get_gte_capacity`. -/
def gteCapacity (desired : Nat) : Nat :=
  match Capacities.find? (fun c => c > desired) with
  | some c => c
  | none => Capacities.getLast (by decide)

/-- `hash_tables.hpp:70-243` `unique_table`; `buckets i` is the chain of bucket `i`, head first. -/
structure Table where
  size : Nat
  cap : Nat
  buckets : Nat → List Ptr

namespace Table

/-- `hash_tables.hpp:439-449` constructor. -/
def make (desired : Nat) : Table :=
  { size := 0, cap := gteCapacity desired, buckets := fun _ => [] }

/-- The nodes in iteration order (`hash_tables.hpp:354-435` iterator: bucket by bucket,
each chain from its head). -/
def nodes (t : Table) : List Ptr := (List.range t.cap).flatMap t.buckets

/-- `hash_tables.hpp:480-497` `find`: walk the chain of `hash % capacity`, return the first node
whose sons are equal (`node_equals`, 693-706).  `sonsOf` reads the sons of a node. -/
def find (t : Table) (sonsOf : Ptr → List Ptr) (hash : Nat) (sons : List Ptr) : Option Ptr :=
  (t.buckets (hash % t.cap)).find? (fun p => sonsOf p == sons)

/-- `hash_tables.hpp:638-652` `insert_impl`: push at the head of the chain. -/
def insertImpl (t : Table) (p : Ptr) (hash : Nat) : Table :=
  { t with buckets := upd t.buckets (hash % t.cap) (p :: t.buckets (hash % t.cap)) }

/-- `hash_tables.hpp:516-524` `insert`. -/
def insert (t : Table) (p : Ptr) (hash : Nat) : Table :=
  { t.insertImpl p hash with size := t.size + 1 }

/-- `p` taken out of bucket `b`. -/
def remove (t : Table) (b : Nat) (p : Ptr) : Table :=
  { t with size := t.size - 1, buckets := upd t.buckets b ((t.buckets b).erase p) }

/-- `hash_tables.hpp:654-679` `erase_impl` on bucket `b`.  If `p` is not in the chain the walk
dereferences null. -/
def eraseAt (t : Table) (b : Nat) (p : Ptr) : Except Err Table :=
  if p ∈ t.buckets b then .ok (t.remove b p) else .error .nullDeref

/-- `hash_tables.hpp:534-541` `erase(node)`: the bucket comes from the hash of the sons. -/
def erase (t : Table) (p : Ptr) (hash : Nat) : Except Err Table :=
  t.eraseAt (hash % t.cap) p

/-- Insert all nodes of a list in order (`insert_impl` for each). -/
def insertAll (h : Ptr → Nat) : List Ptr → Table → Table
  | [], t => t
  | p :: l, t => insertAll h l (t.insertImpl p (h p))

/-- `hash_tables.hpp:596-630` `rehash`: fresh bucket array, nodes re-inserted in iteration order.
`h` gives the hash of the sons of a node. -/
def rehash (t : Table) (h : Ptr → Nat) (newCap : Nat) : Table :=
  insertAll h t.nodes { size := t.size, cap := newCap, buckets := fun _ => [] }

/-- `hash_tables.hpp:546-549`: `adjust_capacity` calls `rehash`. -/
def grows (t : Table) : Bool := decide (gteCapacity (t.size * 4 / 3) > t.cap)

/-- `hash_tables.hpp:543-553` `adjust_capacity`; `LOAD_THRESHOLD = 0.75`
(`hash_tables.hpp:241`), division in exact arithmetic. -/
def adjustCapacity (t : Table) (h : Ptr → Nat) : Table :=
  let newCap := gteCapacity (t.size * 4 / 3)
  if newCap > t.cap then t.rehash h newCap else t

/-- `hash_tables.hpp:561-570` `clear`. -/
def clear (t : Table) : Table := { t with size := 0, buckets := fun _ => [] }

/-- `hash_tables.hpp:499-514` `merge`. -/
def merge (t other : Table) (h : Ptr → Nat) : Table :=
  insertAll h other.nodes (({ t with size := t.size + other.size } : Table).adjustCapacity h)

/-- `hash_tables.hpp:502-503`: `adjust_capacity` within `merge` calls `rehash`. -/
def mergeGrows (t other : Table) : Bool := ({ t with size := t.size + other.size } : Table).grows

end Table

/-- `hash_tables.hpp:260-266` `apply_cache::cache_entry`; an all-zero entry is `none`. -/
structure CacheEntry where
  op : Nat
  lhs : Ptr
  rhs : Ptr
  res : Ptr
deriving DecidableEq, Repr

/-- `hash_tables.hpp:254-335` `apply_cache`. -/
structure Cache where
  cap : Nat
  slots : Nat → Option CacheEntry

namespace Cache

/-- `hash_tables.hpp:726-733` constructor. -/
def make (desired : Nat) : Cache := { cap := gteCapacity desired, slots := fun _ => none }

/-- `hash_tables.hpp:751-764` `find`. -/
def find (c : Cache) (hash : Nat → Ptr → Ptr → Nat) (op : Nat) (lhs rhs : Ptr) : Option Ptr :=
  match c.slots (hash op lhs rhs % c.cap) with
  | some e => if e.op = op ∧ e.lhs = lhs ∧ e.rhs = rhs then some e.res else none
  | none => none

/-- `hash_tables.hpp:766-785` `put`. -/
def put (c : Cache) (hash : Nat → Ptr → Ptr → Nat) (e : CacheEntry) : Cache :=
  { c with slots := upd c.slots (hash e.op e.lhs e.rhs % c.cap) (some e) }

/-- `hash_tables.hpp:797-814` `remove_unused`. -/
def removeUnused (c : Cache) (used : Ptr → Bool) : Cache :=
  { c with slots := fun i =>
      match c.slots i with
      | some e => if used e.lhs && used e.rhs && used e.res then some e else none
      | none => none }

/-- `hash_tables.hpp:816-824` `clear`. -/
def clear (c : Cache) : Cache := { c with slots := fun _ => none }

/-- Put the entries found in slots `is` of `old`. -/
def putAll (hash : Nat → Ptr → Ptr → Nat) (old : Nat → Option CacheEntry) :
    List Nat → Cache → Cache
  | [], c => c
  | i :: is, c =>
    match old i with
    | some e => putAll hash old is (c.put hash e)
    | none => putAll hash old is c

/-- `hash_tables.hpp:833-864` `rehash`. -/
def rehash (c : Cache) (hash : Nat → Ptr → Ptr → Nat) (newCap : Nat) : Cache :=
  putAll hash c.slots (List.range c.cap) { cap := newCap, slots := fun _ => none }

/-- `hash_tables.hpp:790-791`: `grow_capacity` calls `rehash`. -/
def grows (c : Cache) (approx : Nat) : Bool := decide (gteCapacity approx > c.cap)

/-- `hash_tables.hpp:787-795` `grow_capacity`. -/
def growCapacity (c : Cache) (hash : Nat → Ptr → Ptr → Nat) (approx : Nat) : Cache :=
  let newCap := gteCapacity approx
  if newCap > c.cap then c.rehash hash newCap else c

end Cache

end Teddy
