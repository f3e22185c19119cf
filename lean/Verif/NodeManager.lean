import Verif.Links
import Verif.Sort

/-!
# `node`, `node_pool` and `node_manager`

Model of `libteddy/details/{node,node_pool,node_manager}.hpp`.

A node's fields are kept in parallel maps from addresses (`kind`, `refs`, `mark`, `used`, `data`).
The packed word `bits_` is modelled separately in `Verif/Bits.lean`; here the reference count
is an unbounded natural number.  Reading or writing a node whose used bit is off is the outcome
`useAfterFree` (stricter than the code, which only asserts it for some accessors).
-/

namespace Teddy

/-- node.hpp:159-168: the union `internal_` / `terminal_`.  For `degrees::fixed` nodes of a manager
with mixed domains the unused tail of the son array is not represented. -/
inductive Kind where
  | leaf (value : Int)
  | inner (index : Nat) (sons : List Ptr)
deriving DecidableEq, Repr

/-- What is allocated: son arrays of nodes and node pools.  The arrays are those of
`degrees::mixed`, where `son_container` is `node**` (node.hpp:100-110); nodes of `degrees::fixed`
hold their sons themselves, for them the arrays below are fictitious. -/
structure Mem where
  /-- arrays allocated by `make_son_container` and not yet freed -/
  live : List Nat
  /-- `internal_.sons_` (node.hpp:162), the array of a node that is or was internal -/
  arr : Ptr → Nat
  /-- a node has been constructed in this slot of a pool and not been destructed -/
  built : Ptr → Bool
  /-- the list `pools_` (node_pool.hpp:42-46, 66): first slot and number of slots -/
  pools : List (Nat × Nat)
  /-- `mainPoolSize_` (node_pool.hpp:69) -/
  mainSize : Nat

/-- The memory of the tables: the arrays obtained by `calloc` in `callocate_buckets` (hash_tables.hpp:708-715) and
`callocate_entries` (866-873).  The copy of a table that `swap_variable_with_next` makes and destroys is left out. -/
structure Heap where
  /-- arrays allocated and not yet freed -/
  live : List Nat
  /-- `buckets_` of the unique table of each variable (hash_tables.hpp:247) -/
  tab : Nat → Nat
  /-- `entries_` of the apply cache (hash_tables.hpp:335) -/
  cache : Nat
  /-- how often `rehash` has been called; the program has no such counter -/
  rehashes : Nat

/-- An array that is not allocated. -/
def Heap.fresh (h : Heap) : Nat := h.live.foldr max 0 + 1

/-- hash_tables.hpp:608-610, in `unique_table::rehash` (596-630): a new array is allocated; the old one, which has no
other name than the local variable `oldBuckets`, is not freed. -/
def Heap.rehashTable (h : Heap) (i : Nat) : Heap :=
  { h with live := h.fresh :: h.live, tab := upd h.tab i h.fresh, rehashes := h.rehashes + 1 }

/-- hash_tables.hpp:845-848, in `apply_cache::rehash` (833-864): the same. -/
def Heap.rehashCache (h : Heap) : Heap :=
  { h with live := h.fresh :: h.live, cache := h.fresh, rehashes := h.rehashes + 1 }

/-- Template parameters and run-time constants of a manager. -/
structure Cfg where
  /-- `varCount_` -/
  n : Nat
  /-- `domains_[index]` -/
  dom : Nat → Nat
  /-- `some M` for `domains::fixed<M>`, `none` for `domains::mixed` -/
  fixedDom : Option Nat
  /-- `assert` enabled (no `NDEBUG`) -/
  asserts : Bool
  /-- `extraPoolSize_` (node_pool.hpp:71) -/
  extra : Nat
  /-- hash of a son tuple, `unique_table::node_hash` (hash_tables.hpp:681-691) -/
  hash : List Ptr → Nat
  /-- hash of a cache key, `utils::pack_hash(opId, lhs, rhs)` (hash_tables.hpp:757,773) -/
  chash : Nat → Ptr → Ptr → Nat
  /-- machine address of a node, compared by `rhs < lhs` (node_manager.hpp:802,825) -/
  addr : Ptr → Nat

/-- node_manager.hpp:240-256 and node_pool.hpp:66-72. -/
structure Mgr where
  kind : Ptr → Kind
  refs : Ptr → Nat
  mark : Ptr → Bool
  used : Ptr → Bool
  /-- `data_`; `none` = indeterminate (node.hpp:199-213 does not initialise it) -/
  data : Ptr → Option Rat
  tables : Nat → Table
  terminals : List (Option Ptr)
  /-- `specials_` has at most one element, for `Undefined` -/
  special : Option Ptr
  idx2lvl : Nat → Nat
  lvl2idx : Nat → Nat
  nodeCount : Nat
  adjCount : Nat
  /-- `cacheRatio_` and `gcRatio_` as fractions -/
  cacheRatio : Nat × Nat
  gcRatio : Nat × Nat
  autoReorder : Bool
  deferred : Bool
  cache : Cache
  /-- the chain `freeNodes_` -/
  free : List Ptr
  /-- `nextPoolNode_` -/
  next : Nat
  /-- end of the pool `nextPoolNode_` points into -/
  poolEnd : Nat
  /-- `availableNodeCount_` -/
  avail : Nat
  mem : Mem
  heap : Heap
  link : Links

abbrev M (α : Type) := SM Mgr α

namespace Mgr

/-- `get_sons()` of an internal node; `[]` for a terminal. -/
def sonsOf (s : Mgr) (p : Ptr) : List Ptr :=
  match s.kind p with
  | .inner _ sons => sons
  | .leaf _ => []

end Mgr

/-! ### node.hpp -/

/-- Guard of every node access. -/
def chkUsed (p : Ptr) : M Unit := do
  let s ← get
  if s.used p then pure () else throw .useAfterFree

/-- node.hpp:257-262, 265-270, 283-306: `is_terminal`, `get_value`, `get_index`, `get_sons`. -/
def getKind (p : Ptr) : M Kind := do
  chkUsed p
  let s ← get
  pure (s.kind p)

/-- node.hpp:326-330 -/
def setMarked (p : Ptr) : M Unit := do
  chkUsed p
  modify fun s => { s with mark := upd s.mark p true }

/-- node.hpp:332-336 -/
def setNotMarked (p : Ptr) : M Unit := do
  chkUsed p
  modify fun s => { s with mark := upd s.mark p false }

/-- node.hpp:320-324 -/
def toggleMarked (p : Ptr) : M Unit := do
  chkUsed p
  modify fun s => { s with mark := upd s.mark p (!s.mark p) }

/-- node.hpp:314-318 -/
def isMarked (p : Ptr) : M Bool := do
  chkUsed p
  let s ← get
  pure (s.mark p)

/-- node.hpp:344-349 -/
def incRef (p : Ptr) : M Unit := do
  chkUsed p
  modify fun s => { s with refs := upd s.refs p (s.refs p + 1) }

/-- node.hpp:351-356 (with the assertion `get_ref_count() > 0`) -/
def decRef (p : Ptr) : M Unit := do
  chkUsed p
  let s ← get
  if s.refs p = 0 then throw .refUnderflow
  else set { s with refs := upd s.refs p (s.refs p - 1) }

/-- node.hpp:231-246 `get_data()` read as an rvalue. -/
def getData (p : Ptr) : M Rat := do
  chkUsed p
  let s ← get
  match s.data p with
  | some q => pure q
  | none => throw .uninit

/-- node.hpp:231-237 `get_data() = q`. -/
def setData (p : Ptr) (q : Rat) : M Unit := do
  chkUsed p
  modify fun s => { s with data := upd s.data p (some q) }

/-- An array that is not allocated. -/
def Mem.fresh (m : Mem) : Nat := m.live.foldr max 0 + 1

/-- node.hpp:100-105 `make_son_container`. -/
def mallocSons : M Nat := do
  let s ← get
  set { s with mem := { s.mem with live := s.mem.fresh :: s.mem.live } }
  pure s.mem.fresh

/-- node.hpp:107-110 `delete_son_container`. -/
def freeSons (a : Nat) : M Unit := do
  let s ← get
  if a ∈ s.mem.live then set { s with mem := { s.mem with live := s.mem.live.erase a } }
  else throw .doubleFree

/-- node.hpp:215-227 `~node`; `is_or_was_internal` reads the leaf bit, which `set_unused` leaves
alone. -/
def nodeDtor (p : Ptr) : M Unit := do
  let s ← get
  if s.mem.built p then do
    match s.kind p with
    | .inner _ _ => freeSons (s.mem.arr p)
    | .leaf _ => pure ()
    modify fun s => { s with mem := { s.mem with built := upd s.mem.built p false } }
  else throw .unbuilt

/-- node.hpp:199-213, the constructors.  The array of an internal node comes from the caller, who
allocated it before the sons were computed; here it is allocated when the node takes it. -/
def nodeCtor (p : Ptr) (k : Kind) : M Unit := do
  match k with
  | .inner _ _ => do
      let a ← mallocSons
      modify fun s => { s with mem := { s.mem with arr := upd s.mem.arr p a } }
  | .leaf _ => pure ()
  modify fun s => { s with
    kind := upd s.kind p k
    refs := upd s.refs p 0
    mark := upd s.mark p false
    used := upd s.used p true
    data := upd s.data p none
    mem := { s.mem with built := upd s.mem.built p true }
    link := s.link.setNext p none }

/-- node.hpp:272-281 `set_sons` with node.hpp:364-369 `set_index` and the assertion `is_internal()`.
The new array comes from the caller; here it is allocated when the node takes it. -/
def setSons (p : Ptr) (i : Nat) (sons : List Ptr) : M Unit := do
  match ← getKind p with
  | .leaf _ => throw .assertion
  | .inner _ _ => do
      let s ← get
      freeSons (s.mem.arr p)
      let a ← mallocSons
      modify fun s => { s with
        kind := upd s.kind p (.inner i sons)
        mem := { s.mem with arr := upd s.mem.arr p a } }

/-! ### node_pool.hpp -/

/-- node_pool.hpp:145-166 `create`.  `freeNodes_` is the head of `free`; the code goes on with `get_next` of the node it
takes (155), which must be the next one of the list. -/
def poolCreate (k : Kind) : M Ptr := do
  let s ← get
  if s.avail = 0 then throw .poolOverrun
  match s.free with
  | p :: rest =>
      if s.link.next p = rest.head? then do
        set { s with avail := s.avail - 1, free := rest }
        nodeDtor p
        nodeCtor p k
        pure p
      else throw .badChain
  | [] =>
      if s.next < s.poolEnd then do
        set { s with avail := s.avail - 1, next := s.next + 1 }
        nodeCtor s.next k
        pure s.next
      else throw .poolOverrun

/-- node_pool.hpp:168-174 `destroy`. -/
def poolDestroy (p : Ptr) : M Unit :=
  modify fun s => { s with
    avail := s.avail + 1
    free := p :: s.free
    link := s.link.setNext p s.free.head? }

/-- node_pool.hpp:176-190 `grow`: a fresh region of `extra` addresses becomes the current pool;
whatever was left of the previous one is never handed out again. -/
def poolGrow (c : Cfg) : M Unit :=
  modify fun s => { s with
    next := s.poolEnd
    poolEnd := s.poolEnd + c.extra
    avail := s.avail + c.extra
    mem := { s.mem with pools := (s.poolEnd, c.extra) :: s.mem.pools } }

/-- node_pool.hpp:204-219 `deallocate_pool`: destructs the nodes before `last` and frees the pool;
a null pointer is dereferenced. -/
def deallocatePool (last : Nat) : M Unit := do
  let s ← get
  match s.mem.pools with
  | [] => throw .nullDeref
  | (base, _) :: rest => do
      forL nodeDtor (List.range' base (last - base))
      modify fun s => { s with mem := { s.mem with pools := rest } }

/-- node_pool.hpp:116-123: the loop over the extra pools, `fuel` bounding the iterations. -/
def deallocateExtra (c : Cfg) : Nat → M Unit
  | 0 => throw .fuel
  | fuel + 1 => do
      let s ← get
      match s.mem.pools with
      | (base, _) :: _ :: _ => do
          deallocatePool (base + c.extra)
          deallocateExtra c fuel
      | _ => pure ()

/-- node_pool.hpp:106-131 `~node_pool`. -/
def poolDtor (c : Cfg) : M Unit := do
  let s ← get
  deallocatePool s.next
  deallocateExtra c (s.mem.pools.length + 1)
  let s ← get
  match s.mem.pools with
  | (base, _) :: _ => deallocatePool (base + s.mem.mainSize)
  | [] => pure ()

/-! ### hash_tables.hpp, destructors -/

/-- `std::free` of an array of a table. -/
def freeArray (a : Nat) : M Unit := do
  let s ← get
  if a ∈ s.heap.live then set { s with heap := { s.heap with live := s.heap.live.erase a } }
  else throw .doubleFree

/-- hash_tables.hpp:474-478 `~unique_table`, of the table of a variable. -/
def tableDtor (i : Nat) : M Unit := do
  let s ← get
  freeArray (s.heap.tab i)

/-- hash_tables.hpp:745-749 `~apply_cache`. -/
def cacheDtor : M Unit := do
  let s ← get
  freeArray s.heap.cache

/-- node_manager.hpp:110, the defaulted destructor: `uniqueTables_`, `pool_` and `opCache_` (240-242) in this order. -/
def mgrDtor (c : Cfg) : M Unit := do
  forL tableDtor (List.range c.n)
  poolDtor c
  cacheDtor

/-! ### node_manager.hpp -/

/-- node_manager.hpp:528-541 `get_level(node)`. -/
def Mgr.levelOf (c : Cfg) (s : Mgr) (p : Ptr) : Nat :=
  match s.kind p with
  | .leaf _ => c.n
  | .inner i _ => s.idx2lvl i

/-- node_manager.hpp:535-541 -/
def getLevel (c : Cfg) (p : Ptr) : M Nat := do
  chkUsed p
  let s ← get
  pure (s.levelOf c p)

/-- node_manager.hpp:549-555 `get_index(level)` with its assertion. -/
def getIndex (c : Cfg) (level : Nat) : M Nat := do
  let s ← get
  if level < c.n then pure (s.lvl2idx level) else throw .outOfRange

/-- node.hpp:265-270 `get_son(k)`. -/
def getSon (p : Ptr) (k : Nat) : M Ptr := do
  match ← getKind p with
  | .inner _ sons =>
      match sons[k]? with
      | some q => pure q
      | none => throw .outOfRange
  | .leaf _ => throw .outOfRange

/-- node_manager.hpp:980-994 `is_redundant`: adjacent sons are compared. -/
def isRedundant : List Ptr → Bool
  | a :: b :: l => a == b && isRedundant (b :: l)
  | _ => true

/-- node_manager.hpp:1229-1233 `can_be_gced`. -/
def Mgr.canBeGced (s : Mgr) (p : Ptr) : Bool := s.refs p == 0 && !s.mark p

/-- node_manager.hpp:1073-1080 `delete_node`. -/
def deleteNode (p : Ptr) : M Unit := do
  chkUsed p
  let s ← get
  if s.mark p then throw .assertion
  set { s with nodeCount := s.nodeCount - 1, used := upd s.used p false }
  poolDestroy p

/-- An operation on the pointers of the chains. -/
def onLinks (f : Links → Except Err Links) : M Unit := do
  let s ← get
  match f s.link with
  | .ok L => set { s with link := L }
  | .error e => throw e

/-- Erase `p` from bucket `b` of the unique table of variable `i` (hash_tables.hpp:654-679 `erase_impl`). -/
def eraseBucket (i b : Nat) (p : Ptr) : M Unit := do
  let s ← get
  onLinks (Links.erase (s.next + 1) i b p)
  modify fun s => { s with tables := upd s.tables i ((s.tables i).remove b p) }

/-- One iteration of the inner loop of `collect_garbage`, node_manager.hpp:643-656. -/
def collectNode (i b : Nat) (p : Ptr) : M Unit := do
  chkUsed p
  let s ← get
  if s.canBeGced p then
    forL decRef (s.sonsOf p)
    eraseBucket i b p
    deleteNode p
  else pure ()

/-- node_manager.hpp:641-656 within one bucket.  The iterator `erase` hands back has been advanced before the node is taken
out of its chain (hash_tables.hpp:659-660), and `++` (node_manager.hpp:655) comes after a node that stays. -/
def sweepChain (i b : Nat) : Nat → Option Ptr → M Unit
  | 0, _ => throw .fuel
  | _ + 1, none => pure ()
  | f + 1, some p => do
      let s ← get
      collectNode i b p
      sweepChain i b f (s.link.next p)

/-- node_manager.hpp:639-656: sweep the unique table of variable `i`, bucket after bucket. -/
def collectTable (i : Nat) : M Unit := do
  let s ← get
  forL (fun b => do
    let s ← get
    sweepChain i b (s.next + 1) (s.link.head i b)) (List.range (s.tables i).cap)

/-- node_manager.hpp:659-666, one terminal. -/
def collectTerminal (v : Nat) : M Unit := do
  let s ← get
  match s.terminals[v]? with
  | some (some p) => do
      chkUsed p
      if s.canBeGced p then do
        deleteNode p
        modify fun s => { s with terminals := s.terminals.set v none }
      else pure ()
  | _ => pure ()

/-- node_manager.hpp:668-675. -/
def collectSpecial : M Unit := do
  let s ← get
  match s.special with
  | some p => do
      chkUsed p
      if s.canBeGced p then do
        deleteNode p
        modify fun s => { s with special := none }
      else pure ()
  | none => pure ()

/-- node_manager.hpp:628-686 `collect_garbage`. -/
def collectGarbage (c : Cfg) : M Unit := do
  forL (fun level => do
    let s ← get
    collectTable (s.lvl2idx level)) (List.range c.n)
  let s ← get
  forL collectTerminal (List.range s.terminals.length)
  collectSpecial

/-- node_manager.hpp:621-626 `force_gc`. -/
def forceGc (c : Cfg) : M Unit := do
  collectGarbage c
  modify fun s => { s with cache := s.cache.removeUnused s.used }

/-- node_manager.hpp:996-1012 `adjust_tables`. -/
def adjustTables (c : Cfg) : M Unit := do
  let s ← get
  onLinks (Links.adjustAll (fun p => c.hash (s.sonsOf p)) s.tables (s.next + 1) (List.range c.n))
  modify fun s => { s with
    tables := fun i =>
      if i < c.n then (s.tables i).adjustCapacity (fun p => c.hash (s.sonsOf p)) else s.tables i
    heap := (List.range c.n).foldl (fun h i => if (s.tables i).grows then h.rehashTable i else h) s.heap }

/-- node_manager.hpp:1014-1019 `adjust_caches`. -/
def adjustCaches (c : Cfg) : M Unit :=
  modify fun s =>
    let approx := s.cacheRatio.1 * s.nodeCount / s.cacheRatio.2
    { s with
      cache := s.cache.growCapacity c.chash approx
      heap := if s.cache.grows approx then s.heap.rehashCache else s.heap }

/-- node_manager.hpp:1026-1056, first half of `make_new_node`: make room in the pool. -/
def makeRoom (c : Cfg) : M Unit := do
  let s ← get
  if s.autoReorder then
    if s.avail = 0 then
      poolGrow c
      modify fun s => { s with deferred := true }
    else pure ()
  else
    if s.avail = 0 then
      let growThreshold := s.gcRatio.1 * s.nodeCount / s.gcRatio.2
      forceGc c
      let s ← get
      if s.avail < growThreshold then poolGrow c else pure ()
    else pure ()

/-- node_manager.hpp:1058-1067, table and cache adjustment. -/
def adjustAll (c : Cfg) : M Unit := do
  let s ← get
  if s.nodeCount ≥ s.adjCount then
    adjustTables c
    adjustCaches c
    modify fun s => { s with adjCount := 2 * s.adjCount }
  else pure ()

/-- node_manager.hpp:1021-1071 `make_new_node`. -/
def makeNew (c : Cfg) (k : Kind) : M Ptr := do
  makeRoom c
  adjustAll c
  modify fun s => { s with nodeCount := s.nodeCount + 1 }
  poolCreate k

/-- node_manager.hpp:462-480 `make_special_node`. -/
def makeSpecial (c : Cfg) : M Ptr := do
  let s ← get
  match s.special with
  | some p => setMarked p; pure p
  | none =>
      let p ← makeNew c (.leaf Undefined)
      modify fun s => { s with special := some p }
      setMarked p
      pure p

/-- node_manager.hpp:449-452: `terminals_.resize(value + 1, nullptr)`. -/
def resizeTerminals (v : Nat) (l : List (Option Ptr)) : List (Option Ptr) :=
  l ++ List.replicate (v + 1 - l.length) none

/-- node_manager.hpp:439-442: `assert(value < Domain::value)`, fixed domains only. -/
def assertTerminal (c : Cfg) (v : Int) : M Unit :=
  match c.fixedDom with
  | some m => if c.asserts && !decide (v < m) then throw .assertion else pure ()
  | none => pure ()

/-- node_manager.hpp:435-460 `make_terminal_node`.  A negative value is a huge unsigned index. -/
def makeTerminal (c : Cfg) (v : Int) : M Ptr := do
  assertTerminal c v
  if isSpecial v then makeSpecial c
  else if v < 0 then throw .outOfRange
  else do
    let k := v.toNat
    modify fun s => { s with terminals := resizeTerminals k s.terminals }
    let s ← get
    match s.terminals[k]? with
    | some (some p) => setMarked p; pure p
    | _ =>
        let p ← makeNew c (.leaf v)
        modify fun s => { s with terminals := s.terminals.set k (some p) }
        setMarked p
        pure p

/-- hash_tables.hpp:480-497 `find` in the unique table of variable `i`. -/
def tableFind (c : Cfg) (i : Nat) (sons : List Ptr) : M (Option Ptr) := do
  let s ← get
  match Links.findWalk s.link.next (fun p => s.sonsOf p == sons) (s.next + 1)
      (s.link.head i (c.hash sons % (s.tables i).cap)) with
  | .ok r => pure r
  | .error e => throw e

/-- hash_tables.hpp:516-524 `insert` into the unique table of variable `i`. -/
def tableInsert (i : Nat) (p : Ptr) (hash : Nat) : M Unit :=
  modify fun s => { s with
    tables := upd s.tables i ((s.tables i).insert p hash)
    link := s.link.insert i (hash % (s.tables i).cap) p }

/-- node_manager.hpp:489-526 `make_internal_node`.  The array that holds `sons` is allocated by the
caller; here it is allocated where it is released or where the node takes it. -/
def makeInternal (c : Cfg) (i : Nat) (sons : List Ptr) : M Ptr := do
  if isRedundant sons then
    match sons with
    | [] => throw .outOfRange
    | a :: _ => do
        freeSons (← mallocSons)
        pure a
  else
    let s ← get
    match ← tableFind c i sons with
    | some e => do
        freeSons (← mallocSons)
        forL setNotMarked (s.sonsOf e)
        setMarked e
        pure e
    | none => do
        let p ← makeNew c (.inner i sons)
        tableInsert i p (c.hash sons)
        forL incRef sons
        forL setNotMarked sons
        setMarked p
        pure p

/-- node_manager.hpp:802-805, 825-828: operands of a commutative operation are ordered by address. -/
def orderOperands (c : Cfg) (comm : Bool) (lhs rhs : Ptr) : Ptr × Ptr :=
  if comm && decide (c.addr rhs < c.addr lhs) then (rhs, lhs) else (lhs, rhs)

/-- node_manager.hpp:795-813 `cache_find`. -/
def cacheFind (c : Cfg) (op : Nat) (comm : Bool) (lhs rhs : Ptr) : M (Option Ptr) := do
  let s ← get
  let (l, r) := orderOperands c comm lhs rhs
  match s.cache.find c.chash op l r with
  | some p => do
      setMarked p
      pure (some p)
  | none => pure none

/-- node_manager.hpp:815-831 `cache_put`. -/
def cachePut (c : Cfg) (op : Nat) (comm : Bool) (res lhs rhs : Ptr) : M Unit := do
  let (l, r) := orderOperands c comm lhs rhs
  modify fun s => { s with cache := s.cache.put c.chash ⟨op, l, r, res⟩ }

/-- node_manager.hpp:833-837 `cache_clear`. -/
def cacheClear : M Unit := modify fun s => { s with cache := s.cache.clear }

/-! ### Traversals -/

/-- node_manager.hpp:871-892 `traverse_pre_impl`; the visitor threads its captured variables. -/
def traversePreImpl {τ : Type} (op : Ptr → τ → M τ) : Nat → Ptr → τ → M τ
  | 0, _, _ => throw .fuel
  | f + 1, p, t => do
      toggleMarked p
      let t ← op p t
      match ← getKind p with
      | .leaf _ => pure t
      | .inner _ sons =>
          foldL (fun q t => do
            let mp ← isMarked p
            let mq ← isMarked q
            if mp != mq then traversePreImpl op f q t else pure t) sons t

/-- node_manager.hpp:906-927 `traverse_post_impl`. -/
def traversePostImpl {τ : Type} (op : Ptr → τ → M τ) : Nat → Ptr → τ → M τ
  | 0, _, _ => throw .fuel
  | f + 1, p, t => do
      toggleMarked p
      let t ← (do
        match ← getKind p with
        | .leaf _ => pure t
        | .inner _ sons =>
            foldL (fun q t => do
              let mp ← isMarked p
              let mq ← isMarked q
              if mp != mq then traversePostImpl op f q t else pure t) sons t)
      op p t

/-- node_manager.hpp:859-869 `traverse_pre`: a second traversal resets the marks. -/
def traversePre {τ : Type} (c : Cfg) (op : Ptr → τ → M τ) (root : Ptr) (t : τ) : M τ := do
  let t ← traversePreImpl op (c.n + 1) root t
  traversePreImpl (fun _ (u : Unit) => pure u) (c.n + 1) root ()
  pure t

/-- node_manager.hpp:894-904 `traverse_post`. -/
def traversePost {τ : Type} (c : Cfg) (op : Ptr → τ → M τ) (root : Ptr) (t : τ) : M τ := do
  let t ← traversePostImpl op (c.n + 1) root t
  traversePostImpl (fun _ (u : Unit) => pure u) (c.n + 1) root ()
  pure t

/-- node_manager.hpp:950-959: push the unvisited sons of `p` into their buckets. -/
def levelPushSons (c : Cfg) (p : Ptr) (sons : List Ptr) (buckets : Nat → List Ptr) :
    M (Nat → List Ptr) :=
  foldL (fun q bs => do
    let mq ← isMarked q
    let mp ← isMarked p
    if mq != mp then do
      let l ← getLevel c q
      toggleMarked q
      pure (upd bs l (bs l ++ [q]))
    else pure bs) sons buckets

/-- node_manager.hpp:929-971 `traverse_level`.  The bucket of a level only grows while a smaller
level is being processed, so the range-for over a bucket sees all of it. -/
def traverseLevel (c : Cfg) (op : Ptr → M Unit) (root : Ptr) : M Unit := do
  let rootLevel ← getLevel c root
  toggleMarked root
  let _ ← foldL (fun level bs =>
      foldL (fun p bs => do
        op p
        match ← getKind p with
        | .leaf _ => pure bs
        | .inner _ sons => levelPushSons c p sons bs) (bs level) bs)
    (List.range (c.n + 1)) (upd (fun _ => []) rootLevel [root])
  traversePreImpl (fun _ (u : Unit) => pure u) (c.n + 1) root ()

/-- node_manager.hpp:580-587 `get_node_count(node)`. -/
def nodeCountOf (c : Cfg) (p : Ptr) : M Nat :=
  traversePre c (fun _ n => pure (n + 1)) p 0

/-! ### Variable reordering -/

/-- node_manager.hpp:1307-1341 `dec_ref_try_gc`. -/
def decRefTryGc (c : Cfg) : Nat → Ptr → M Unit
  | 0, _ => throw .fuel
  | f + 1, p => do
      decRef p
      let s ← get
      if s.canBeGced p then
        match s.kind p with
        | .inner i sons => do
            forL (decRefTryGc c f) sons
            let s ← get
            eraseBucket i (c.hash sons % (s.tables i).cap) p
            deleteNode p
        | .leaf v => do
            if isSpecial v then
              -- `specials_[as_uindex(special_to_index(Undefined))]`: index 2^31 of a
              -- one-element vector
              throw .outOfRange
            else
              modify fun s => { s with terminals := s.terminals.set v.toNat none }
            deleteNode p
      else pure ()

/-- node_manager.hpp:1263-1273: entry `[nk][sk]` of the cofactor matrix. -/
def cofactorEntry (nextIndex : Nat) (son : Ptr) (sk : Nat) : M Ptr := do
  match ← getKind son with
  | .inner i sons =>
      if i = nextIndex then
        match sons[sk]? with
        | some q => pure q
        | none => throw .outOfRange
      else pure son
  | .leaf _ => pure son

/-- node_manager.hpp:1235-1305 `swap_node_with_next`.  The copy of the old sons, allocated first in the
code, is allocated and released at the end. -/
def swapNodeWithNext (c : Cfg) (p : Ptr) : M Unit := do
  match ← getKind p with
  | .leaf _ => throw .assertion
  | .inner i oldSons => do
      let s ← get
      let j ← getIndex c (1 + s.idx2lvl i)
      let matrix ← mapL (fun son => mapL (cofactorEntry j son) (List.range (c.dom j))) oldSons
      let outer ← mapL (fun k => do
        let inner ← mapL (fun row : List Ptr =>
          match row[k]? with
          | some q => pure q
          | none => throw .outOfRange) matrix
        makeInternal c i inner) (List.range (c.dom j))
      setSons p j outer
      forL (fun q => do
        incRef q
        setNotMarked q) outer
      forL (decRefTryGc c (c.n + 1)) oldSons
      freeSons (← mallocSons)

/-- A range-for over one chain: `++` reads `next_` after the body (hash_tables.hpp:376-386). -/
def walkChain (body : Ptr → M Unit) : Nat → Option Ptr → M Unit
  | 0, _ => throw .fuel
  | _ + 1, none => pure ()
  | f + 1, some p => do
      body p
      let s ← get
      walkChain body f (s.link.next p)

/-- node_manager.hpp:1343-1367 `swap_variable_with_next`.  `tmp` and `copy` are the local copy of the table
(hash_tables.hpp:451-463 copies the array of buckets, the nodes are shared). -/
def swapVariableWithNext (c : Cfg) (i : Nat) : M Unit := do
  let s ← get
  let level := s.idx2lvl i
  let j ← getIndex c (1 + level)
  let tmp := s.tables i
  let copy := s.link.head i
  set { s with
    tables := upd s.tables i (s.tables i).clear
    link := { s.link.clear i with saved := s.link.next } }
  forL (fun b => walkChain (swapNodeWithNext c) (s.next + 1) (copy b)) (List.range tmp.cap)
  let s ← get
  onLinks (Links.adjust (fun p => c.hash (s.sonsOf p)) i (s.tables i) (s.next + 1))
  modify fun s => { s with
    tables := upd s.tables i ((s.tables i).adjustCapacity (fun p => c.hash (s.sonsOf p)))
    heap := if (s.tables i).grows then s.heap.rehashTable i else s.heap }
  let s ← get
  onLinks (Links.merge (fun p => c.hash (s.sonsOf p)) j (s.tables j) tmp copy (s.next + 1))
  modify fun s => { s with
    tables := upd s.tables j ((s.tables j).merge tmp (fun p => c.hash (s.sonsOf p)))
    heap := if (s.tables j).mergeGrows tmp then s.heap.rehashTable j else s.heap }
  modify fun s => { s with
    lvl2idx := upd (upd s.lvl2idx level (s.lvl2idx (1 + level))) (1 + level) (s.lvl2idx level)
    idx2lvl := upd (upd s.idx2lvl i (s.idx2lvl i + 1)) j (s.idx2lvl j - 1) }

/-- node_manager.hpp:1379-1393 `determine_sift_order`: indices by number of nodes, descending. -/
def siftOrder (c : Cfg) (s : Mgr) : List Nat :=
  let counts : Nat → Nat × Nat := fun i => (i, (s.tables i).size)
  (List.range c.n).map fun k =>
    (heapSort (fun (a b : Nat × Nat) => decide (a.2 > b.2)) c.n counts k).1

/-- Local variables of `place_variable`. -/
structure Place where
  level : Nat
  optLevel : Nat
  optCount : Nat

/-- node_manager.hpp:1421-1425, 1433-1437. -/
def placeUpdate (pl : Place) (level count : Nat) : Place :=
  if count < pl.optCount then ⟨level, level, count⟩ else { pl with level := level }

/-- node_manager.hpp:1417-1426, sift down; the fuel counts the remaining levels. -/
def siftDownVar (c : Cfg) (i : Nat) : Nat → Place → M Place
  | 0, pl => if pl.level = c.n - 1 then pure pl else throw .fuel
  | f + 1, pl =>
      if pl.level = c.n - 1 then pure pl
      else do
        swapVariableWithNext c i
        let s ← get
        siftDownVar c i f (placeUpdate pl (pl.level + 1) s.nodeCount)

/-- node_manager.hpp:1400-1405 `move_var_up`. -/
def moveVarUp (c : Cfg) (i : Nat) : M Unit := do
  let s ← get
  let prev ← getIndex c (s.idx2lvl i - 1)
  swapVariableWithNext c prev

/-- node_manager.hpp:1429-1438, sift up. -/
def siftUpVar (c : Cfg) (i : Nat) : Nat → Place → M Place
  | 0, pl => if pl.level = 0 then pure pl else throw .fuel
  | f + 1, pl =>
      if pl.level = 0 then pure pl
      else do
        moveVarUp c i
        let s ← get
        siftUpVar c i f (placeUpdate pl (pl.level - 1) s.nodeCount)

/-- node_manager.hpp:1441-1445, restore the best position. -/
def siftRestore (c : Cfg) (i : Nat) (opt : Nat) : Nat → Nat → M Unit
  | 0, level => if level = opt then pure () else throw .fuel
  | f + 1, level =>
      if level = opt then pure ()
      else do
        swapVariableWithNext c i
        siftRestore c i opt f (level + 1)

/-- node_manager.hpp:1409-1446 `place_variable`. -/
def placeVariable (c : Cfg) (i : Nat) : M Unit := do
  let s ← get
  let level := s.idx2lvl i
  let pl ← siftDownVar c i c.n ⟨level, level, s.nodeCount⟩
  let pl ← siftUpVar c i c.n pl
  siftRestore c i pl.optLevel c.n pl.level

/-- node_manager.hpp:1369-1471 `sift_variables`. -/
def siftVariables (c : Cfg) : M Unit := do
  let s ← get
  forL (placeVariable c) (siftOrder c s)
  modify fun s => { s with deferred := false }

/-- node_manager.hpp:848-857 `run_deferred`. -/
def runDeferred (c : Cfg) : M Unit := do
  let s ← get
  if s.deferred then
    collectGarbage c
    cacheClear
    siftVariables c
  else pure ()

/-! ### Construction -/

/-- node_manager.hpp:379-402: initial capacity requested for the unique table of variable `i`,
with the floating point formula evaluated exactly:
`c = 0.71 (n - 1)`, `fc = 0.05 * pool`;
`fc * i / c` up to the peak `i <= c`, `fc * (n - 1 - i) / (n - 1 - c)` after it. -/
def initialTableSize (n pool i : Nat) : Nat :=
  if i ≤ 71 * (n - 1) / 100 then
    pool * 5 * i / (71 * (n - 1))
  else
    pool * 5 * (n - 1 - i) / (29 * (n - 1))

/-- node_manager.hpp:1206-1227 `check_distinct`. -/
def checkDistinct : List Nat → Bool
  | [] => true
  | a :: l => !l.contains a && checkDistinct l

/-- node_manager.hpp:365-370: `indexToLevel_` from `levelToIndex_`. -/
def invertOrder : List Nat → Nat → (Nat → Nat) → (Nat → Nat)
  | [], _, f => f
  | i :: l, level, f => invertOrder l (level + 1) (upd f i level)

/-- The state the constructor builds when nothing goes wrong. -/
def Mgr.init (c : Cfg) (pool : Nat) (order : List Nat) : Mgr where
  kind := fun _ => .leaf 0
  refs := fun _ => 0
  mark := fun _ => false
  used := fun _ => false
  data := fun _ => none
  tables := fun i => Table.make (initialTableSize c.n pool i)
  terminals := []
  special := none
  idx2lvl := invertOrder order 0 (fun _ => 0)
  lvl2idx := fun l => order.getD l 0
  nodeCount := 0
  adjCount := 230
  cacheRatio := (1, 1)
  gcRatio := (1, 5)
  autoReorder := false
  deferred := false
  cache := Cache.make pool
  free := []
  next := 0
  poolEnd := pool
  avail := pool
  mem := { live := [], arr := fun _ => 0, built := fun _ => false, pools := [(0, pool)], mainSize := pool }
  heap := { live := List.range (c.n + 1), tab := id, cache := c.n, rehashes := 0 }
  link := { next := fun _ => none, head := fun _ _ => none, saved := fun _ => none }

/-- node_manager.hpp:323-403, the constructor.  For one variable `c = 0.0` and the table capacity is
computed as `0.0 / 0.0` and converted to an integer; for none the loop still creates a
table for variable 0 (`static_cast<int32>(-0.71) = 0`) and calls `get_domain(0)`. -/
def construct (c : Cfg) (pool : Nat) (order : List Nat) : Except Err Mgr :=
  if c.asserts && (order.length != c.n || !checkDistinct order) then .error .assertion
  else if order.any (fun i => decide (c.n ≤ i)) then .error .outOfRange
  else if c.n = 0 then
    if c.asserts then .error .assertion
    else if c.fixedDom.isNone then .error .outOfRange
    else .ok (Mgr.init c pool order)
  else if c.n = 1 then .error .divZero
  else .ok (Mgr.init c pool order)

end Teddy
