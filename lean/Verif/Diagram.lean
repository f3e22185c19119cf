import Verif.NodeManager
import Verif.Ops
import Verif.Arith

/-!
# `diagram` and `diagram_manager`

Model of `libteddy/details/{diagram,diagram_manager}.hpp`.  A `diagram_t` is the address of its
root node; the model's functions return the address and have already counted the handle.
Reference counting of temporaries is explicit (`copyHandle`, `dropHandle`).
-/

namespace Teddy

/-! ### diagram.hpp -/

/-- diagram.hpp:131-135 `diagram(root)`. -/
def mkDiagram (p : Ptr) : M Ptr := do
  incRef p
  setNotMarked p
  pure p

/-- diagram.hpp:137-141 copy constructor of a non-empty handle. -/
def copyHandle (p : Ptr) : M Ptr := do
  incRef p
  pure p

/-- diagram.hpp:149-156 destructor of a non-empty handle. -/
def dropHandle (p : Ptr) : M Unit := decRef p

/-- Lift an error-only computation. -/
def liftE {σ α : Type} (e : Except Err α) : SM σ α :=
  match e with
  | .ok a => pure a
  | .error x => throw x

/-! ### Creation -/

/-- node_manager.hpp:557-563 `get_domain(index)`; the index is out of range otherwise. -/
def getDomain (c : Cfg) (i : Nat) : M Nat :=
  if i < c.n then pure (c.dom i) else throw .outOfRange

/-- diagram_manager.hpp:842-847 `constant`. -/
def constant (c : Cfg) (v : Int) : M Ptr := do
  let p ← makeTerminal c v
  mkDiagram p

/-- diagram_manager.hpp:1175-1186 `variable_impl`. -/
def variableImpl (c : Cfg) (i : Nat) : M Ptr := do
  let d ← getDomain c i
  let sons ← mapL (fun (v : Nat) => makeTerminal c v) (List.range d)
  makeInternal c i sons

/-- diagram_manager.hpp:849-854 `variable`. -/
def variableD (c : Cfg) (i : Nat) : M Ptr := do
  let p ← variableImpl c i
  mkDiagram p

/-- diagram_manager.hpp:856-866 `variable_not` (BDDs only). -/
def variableNot (c : Cfg) (i : Nat) : M Ptr := do
  let t1 ← makeTerminal c 1
  let t0 ← makeTerminal c 0
  if i < c.n then
    let p ← makeInternal c i [t1, t0]
    mkDiagram p
  else throw .outOfRange

/-- diagram_manager.hpp:892-905 `variables`. -/
def variables (c : Cfg) (is : List Nat) : M (List Ptr) := mapL (variableD c) is

/-! ### apply -/

/-- diagram_manager.hpp:1199-1202: `MAX` becomes `MAXB<Domain::value>` for a fixed domain. -/
def opType (c : Cfg) (op : BinOp) : BinOp :=
  match c.fixedDom with
  | some m => if op.id = Op.MAX.id then Op.MAXB m else op
  | none => op

/-- diagram_manager.hpp:1231-1232: the value of a terminal, `Nondetermined` otherwise. -/
def valueOrND (p : Ptr) : M Int := do
  match ← getKind p with
  | .leaf v => pure v
  | .inner _ _ => pure Nondetermined

/-- diagram_manager.hpp:1250-1254: cofactor of an operand when it is at the top level. -/
def sonAtTop (p : Ptr) (level top k : Nat) : M Ptr :=
  if level = top then getSon p k else pure p

/-- diagram_manager.hpp:1213-1260 `apply_impl`. -/
def applyImpl (c : Cfg) (op : BinOp) : Nat → Ptr → Ptr → M Ptr
  | 0, _, _ => throw .fuel
  | f + 1, lhs, rhs => do
      match ← cacheFind c op.id op.comm lhs rhs with
      | some p => pure p
      | none => do
          let lv ← valueOrND lhs
          let rv ← valueOrND rhs
          let v ← liftE (op.fn lv rv)
          if v ≠ Nondetermined then do
            let r ← makeTerminal c v
            cachePut c op.id op.comm r lhs rhs
            pure r
          else do
            let ll ← getLevel c lhs
            let rl ← getLevel c rhs
            let top := min ll rl
            let i ← getIndex c top
            let sons ← mapL (fun k => do
              let a ← sonAtTop lhs ll top k
              let b ← sonAtTop rhs rl top k
              applyImpl c op f a b) (List.range (c.dom i))
            let r ← makeInternal c i sons
            cachePut c op.id op.comm r lhs rhs
            pure r

/-- diagram_manager.hpp:1188-1211 `apply`. -/
def apply (c : Cfg) (op : BinOp) (lhs rhs : Ptr) : M Ptr := do
  let r ← applyImpl c (opType c op) (c.n + 1) lhs rhs
  runDeferred c
  mkDiagram r

/-- The direct-mapped result cache of `apply_n_impl` (`std::vector<node_pack<N>>`). -/
abbrev NCache := Nat → Option (List Ptr × Ptr)

/-- diagram_manager.hpp:1295-1298: `pack_equals`. -/
def NCache.look (cap : Nat) (m : NCache) (h : Nat) (ps : List Ptr) : Option Ptr :=
  match m (h % cap) with
  | some (qs, r) => if qs = ps then some r else none
  | none => none

/-- diagram_manager.hpp:1311: `utils::pack_min(levels...)`. -/
def packMin : List Nat → Nat
  | [] => 0
  | [l] => l
  | l :: ls => min l (packMin ls)

/-- diagram_manager.hpp:1284-1329 `apply_n_impl`; `op` is applied to the values of the operands.
The capacity of the result cache is 100'000. -/
def applyNImpl (c : Cfg) (op : List Int → Except Err Int) :
    Nat → List Ptr → NCache → M (Ptr × NCache)
  | 0, _, _ => throw .fuel
  | f + 1, ps, m => do
      match NCache.look 100000 m (c.hash ps) ps with
      | some r => pure (r, m)
      | none => do
          let vs ← mapL valueOrND ps
          let v ← liftE (op vs)
          if v ≠ Nondetermined then do
            let r ← makeTerminal c v
            pure (r, upd m (c.hash ps % 100000) (some (ps, r)))
          else do
            let ls ← mapL (getLevel c) ps
            let top := packMin ls
            let i ← getIndex c top
            let (sons, m) ← mapAccL (fun k m => do
              let qs ← mapL (fun p => do
                let l ← getLevel c p
                sonAtTop p l top k) ps
              applyNImpl c op f qs m) (List.range (c.dom i)) m
            let r ← makeInternal c i sons
            pure (r, upd m (c.hash ps % 100000) (some (ps, r)))

/-- diagram_manager.hpp:1262-1282 `apply_n`.  As written the vector is given `node_t*` as its
allocator type, so the template cannot be instantiated; the model is of the evident intent. -/
def applyN (c : Cfg) (op : BinOp) (ps : List Ptr) : M Ptr := do
  let (r, _) ← applyNImpl c (opType c op).nary (c.n + 1) ps (fun _ => none)
  runDeferred c
  mkDiagram r

/-! ### Folds -/

/-- diagram_manager.hpp:1349-1353: the loop of `left_fold`; `result = apply(result, *first)` drops
the previous handle after the new one is made. -/
def leftFoldLoop (c : Cfg) (op : BinOp) : List Ptr → Ptr → M Ptr
  | [], r => pure r
  | d :: ds, r => do
      let r' ← apply c op r d
      dropHandle r
      leftFoldLoop c op ds r'

/-- diagram_manager.hpp:1339-1356 `left_fold`; `*first` on an empty range is undefined. -/
def leftFold (c : Cfg) (op : BinOp) : List Ptr → M Ptr
  | [] => throw .emptyRange
  | d :: ds => do
      let r ← copyHandle d
      leftFoldLoop c op ds r

/-- Assigning a new handle to a slot of a range drops what the slot held (`diagram::operator=`,
diagram.hpp:158-163); a moved-from slot is empty. -/
def assignSlot (xs : List (Option Ptr)) (i : Nat) (p : Option Ptr) : M (List (Option Ptr)) := do
  match xs[i]? with
  | some (some old) => do
      dropHandle old
      pure (xs.set i p)
  | some none => pure (xs.set i p)
  | none => throw .outOfRange

/-- Read a slot that must hold a diagram. -/
def readSlot (xs : List (Option Ptr)) (i : Nat) : M Ptr :=
  match xs[i]? with
  | some (some p) => pure p
  | some none => throw .nullDeref
  | none => throw .outOfRange

/-- diagram_manager.hpp:1382-1386: the pairs of one step of `tree_fold`. -/
def treePairs (c : Cfg) (op : BinOp) : List Nat → List (Option Ptr) → M (List (Option Ptr))
  | [], xs => pure xs
  | i :: is, xs => do
      let a ← readSlot xs (2 * i)
      let b ← readSlot xs (2 * i + 1)
      let r ← apply c op a b
      let xs ← assignSlot xs i (some r)
      treePairs c op is xs

/-- diagram_manager.hpp:1388-1392: move `xs[j]` into `xs[i]`.  Move construction of the by-value
parameter of `operator=` empties `xs[j]` first; when `i = j` the slot gets its value back. -/
def moveSlot (xs : List (Option Ptr)) (i j : Nat) : M (List (Option Ptr)) := do
  match xs[j]? with
  | some v => do
      let xs := xs.set j none
      assignSlot xs i v
  | none => throw .outOfRange

/-- diagram_manager.hpp:1376-1393: the steps of `tree_fold`. -/
def treeSteps (c : Cfg) (op : BinOp) : Nat → Nat → List (Option Ptr) → M (List (Option Ptr))
  | 0, _, xs => pure xs
  | steps + 1, count, xs => do
      let odd := count % 2
      let count' := count / 2 + odd
      let pairCount := count' - odd
      let xs ← treePairs c op (List.range pairCount) xs
      let xs ← if odd = 1 then moveSlot xs (count' - 1) (2 * (count' - 1)) else pure xs
      treeSteps c op steps count' xs

/-- `ceil(log2(count))` for `count ≥ 1` (exact; the code computes it in `double`). -/
def ceilLog2 (count : Nat) : Nat := if count ≤ 1 then 0 else Nat.log2 (count - 1) + 1

/-- diagram_manager.hpp:1365-1396 `tree_fold`.  The range is overwritten; its first element is moved
out.  On an empty range `log2(0)` is converted to an integer and `*first` is read. -/
def treeFold (c : Cfg) (op : BinOp) (xs : List (Option Ptr)) : M (Ptr × List (Option Ptr)) := do
  if xs.isEmpty then throw .emptyRange
  let xs ← treeSteps c op (ceilLog2 xs.length) xs.length xs
  let r ← readSlot xs 0
  pure (r, xs.set 0 none)

/-! ### Evaluation and counting -/

/-- diagram_manager.hpp:1398-1415 `evaluate`.  A value outside the domain of its variable reads past
the sons (and fails the assertion). -/
def evalNode : Nat → Ptr → Asg → M Int
  | 0, _, _ => throw .fuel
  | f + 1, p, x => do
      match ← getKind p with
      | .leaf v => pure v
      | .inner i _ => do
          let q ← getSon p (x i)
          evalNode f q x

/-- diagram_manager.hpp:1398-1415 -/
def evaluate (c : Cfg) (p : Ptr) (x : Asg) : M Int := evalNode (c.n + 1) p x

/-- node_manager.hpp:711-734 `domain_product(levelFrom, levelTo)`. -/
def domainProduct (c : Cfg) (lfrom lto : Nat) : M Int := do
  let s ← get
  liftE (domainProductOf c.fixedDom
    ((List.range (lto - lfrom)).map fun k => c.dom (s.lvl2idx (lfrom + k))))

/-- The `assert(value < Domain::value)` of the `satisfy_*` family
(diagram_manager.hpp:1423-1426, 1494-1497, 1558-1561). -/
def assertValue (c : Cfg) (v : Int) : M Unit :=
  match c.fixedDom with
  | some m => if c.asserts && !decide (v < m) then throw .assertion else pure ()
  | none => pure ()

/-- diagram_manager.hpp:1459-1479: the visitor of `satisfy_count`; `m` is the map `data`
(default value 0). -/
def satCountVisit (c : Cfg) (value : Int) (p : Ptr) (m : Ptr → Int) : M (Ptr → Int) := do
  match ← getKind p with
  | .leaf v => pure (upd m p (if v = value then 1 else 0))
  | .inner i sons => do
      let s ← get
      let level := s.idx2lvl i
      let total ← foldL (fun son (acc : Int) => do
        let sl ← getLevel c son
        let diff ← domainProduct c (level + 1) sl
        let prod ← liftE (fit64 (m son * diff))
        liftE (fit64 (acc + prod))) sons 0
      pure (upd m p total)

/-- diagram_manager.hpp:1417-1485 `satisfy_count` (the variant with a map; with a data member
of type `double` the same numbers are stored in the nodes). -/
def satisfyCount (c : Cfg) (value : Int) (root : Ptr) : M Int := do
  assertValue c value
  let m ← traversePost c (satCountVisit c value) root (fun _ => 0)
  let l ← getLevel c root
  let d ← domainProduct c 0 l
  liftE (fit64 (m root * d))

/-- diagram_manager.hpp:1525-1533: try the sons in order. -/
def firstSon (try_ : Ptr → Asg → M (Bool × Asg)) (i : Nat) :
    Nat → List Ptr → Asg → M (Bool × Asg)
  | _, [], x => pure (false, x)
  | k, q :: qs, x => do
      let (b, x) ← try_ q (upd x i k)
      if b then pure (true, x) else firstSon try_ i (k + 1) qs x

/-- diagram_manager.hpp:1510-1536 `satisfy_one_impl`. -/
def satOneImpl (value : Int) : Nat → Ptr → Asg → M (Bool × Asg)
  | 0, _, _ => throw .fuel
  | f + 1, p, x => do
      match ← getKind p with
      | .leaf v => pure (v == value, x)
      | .inner i sons => firstSon (satOneImpl value f) i 0 sons x

/-- diagram_manager.hpp:1487-1508 `satisfy_one<std::vector<int32>>`: the vector is value-initialised
(with `std::array` the untested positions stay indeterminate, 1499). -/
def satisfyOne (c : Cfg) (value : Int) (root : Ptr) : M (Option (List Nat)) := do
  assertValue c value
  let (b, x) ← satOneImpl value (c.n + 1) root (fun _ => 0)
  pure (if b then some ((List.range c.n).map x) else none)

/-- diagram_manager.hpp:1487-1508 `satisfy_one<std::array<int32, N>>`: `vars` (1499) is not initialised; `buf` is
what it happens to hold (negative contents are left out).  Copying it into the result (1506) reads all of it. -/
def satisfyOneInto (c : Cfg) (value : Int) (buf : Asg) (root : Ptr) : M (Option (List Nat)) := do
  assertValue c value
  let (b, x) ← satOneImpl value (c.n + 1) root buf
  pure (if b then some ((List.range c.n).map x) else none)

/-- diagram_manager.hpp:1573-1615 `satisfy_all_impl`.  `vars` is one buffer shared by the recursion;
every position is overwritten before it is read.  The output iterator appends. -/
def satAllImpl (c : Cfg) (value : Int) : Nat → Ptr → Nat → Asg → List (List Nat) →
    M (Asg × List (List Nat))
  | 0, _, _, _, _ => throw .fuel
  | f + 1, p, level, x, out => do
      match ← getKind p with
      | .leaf v =>
          if value ≠ v then pure (x, out)
          else if level = c.n then pure (x, out ++ [(List.range c.n).map x])
          else do
            let i ← getIndex c level
            foldL (fun k (t : Asg × List (List Nat)) =>
              satAllImpl c value f p (level + 1) (upd t.1 i k) t.2) (List.range (c.dom i)) (x, out)
      | .inner j sons => do
          -- `level == get_leaf_level()` would read the value of an internal node; an internal
          -- node is never reached at the leaf level
          if level = c.n then throw .assertion
          let s ← get
          if s.idx2lvl j > level then do
            let i ← getIndex c level
            foldL (fun k (t : Asg × List (List Nat)) =>
              satAllImpl c value f p (level + 1) (upd t.1 i k) t.2) (List.range (c.dom i)) (x, out)
          else
            foldL (fun (e : Ptr × Nat) (t : Asg × List (List Nat)) =>
              satAllImpl c value f e.1 (level + 1) (upd t.1 j e.2) t.2)
              (sons.zip (List.range sons.length)) (x, out)

/-- diagram_manager.hpp:1538-1571 `satisfy_all`. -/
def satisfyAll (c : Cfg) (value : Int) (root : Ptr) : M (List (List Nat)) := do
  assertValue c value
  let (_, out) ← satAllImpl c value (c.n + 1) root 0 (fun _ => 0) []
  pure out

/-! ### Cofactors and transformations -/

/-- `std::unordered_map<node_t*, node_t*>`. -/
abbrev Memo := Ptr → Option Ptr

/-- diagram_manager.hpp:1678-1714 `get_cofactor_impl`, one variable. -/
def cofactorImpl (c : Cfg) (var val : Nat) : Nat → Ptr → Memo → M (Ptr × Memo)
  | 0, _, _ => throw .fuel
  | f + 1, p, m => do
      match m p with
      | some r => pure (r, m)
      | none => do
          match ← getKind p with
          | .leaf _ => pure (p, m)
          | .inner i sons =>
              if i = var then do
                let q ← getSon p val
                pure (q, m)
              else do
                let (sons', m) ← mapAccL (cofactorImpl c var val f) sons m
                let r ← makeInternal c i sons'
                pure (r, upd m p (some r))

/-- diagram_manager.hpp:1617-1640 `get_cofactor(diagram, index, value)`. -/
def getCofactor (c : Cfg) (root : Ptr) (var val : Nat) : M Ptr := do
  match ← getKind root with
  | .leaf _ => copyHandle root
  | .inner i _ =>
      if i = var then do
        let q ← getSon root val
        mkDiagram q
      else do
        let (r, _) ← cofactorImpl c var val (c.n + 1) root (fun _ => none)
        let d ← mkDiagram r
        runDeferred c
        pure d

/-- diagram_manager.hpp:1654-1658, 1741-1745: `find_if` by index. -/
def findVar (vars : List (Nat × Nat)) (i : Nat) : Option Nat :=
  match vars.find? (fun v => v.1 == i) with
  | some v => some v.2
  | none => none

/-- diagram_manager.hpp:1716-1771 `get_cofactor_impl`, several variables. -/
def cofactorsImpl (c : Cfg) (vars : List (Nat × Nat)) : Nat → Nat → Ptr → Memo → M (Ptr × Memo)
  | 0, _, _, _ => throw .fuel
  | f + 1, todo, p, m => do
      if todo = 0 then pure (p, m)
      else match m p with
      | some r => pure (r, m)
      | none => do
          match ← getKind p with
          | .leaf _ => pure (p, m)
          | .inner i sons =>
              match findVar vars i with
              | some val => do
                  let q ← getSon p val
                  let (r, m) ← cofactorsImpl c vars f (todo - 1) q m
                  pure (r, upd m p (some r))
              | none => do
                  let (sons', m) ← mapAccL (cofactorsImpl c vars f todo) sons m
                  let r ← makeInternal c i sons'
                  pure (r, upd m p (some r))

/-- diagram_manager.hpp:1642-1676 `get_cofactor(diagram, vars)`. -/
def getCofactors (c : Cfg) (root : Ptr) (vars : List (Nat × Nat)) : M Ptr := do
  match ← getKind root with
  | .leaf _ => copyHandle root
  | .inner i _ => do
      let (start, todo) ← (match findVar vars i with
        | some val => do
            let q ← getSon root val
            pure (q, vars.length - 1)
        | none => pure (root, vars.length) : M (Ptr × Nat))
      let (r, _) ← cofactorsImpl c vars (c.n + 1) todo start (fun _ => none)
      let d ← mkDiagram r
      runDeferred c
      pure d

/-- diagram_manager.hpp:1787-1818 `transform_impl`. -/
def transformImpl (c : Cfg) (g : Int → Int) : Nat → Ptr → Memo → M (Ptr × Memo)
  | 0, _, _ => throw .fuel
  | f + 1, p, m => do
      match m p with
      | some r => pure (r, m)
      | none => do
          match ← getKind p with
          | .leaf v => do
              let r ← makeTerminal c (g v)
              pure (r, m)
          | .inner i sons => do
              let (sons', m) ← mapAccL (transformImpl c g f) sons m
              let r ← makeInternal c i sons'
              pure (r, upd m p (some r))

/-- diagram_manager.hpp:1773-1785 `transform`. -/
def transform (c : Cfg) (g : Int → Int) (root : Ptr) : M Ptr := do
  let (r, _) ← transformImpl c g (c.n + 1) root (fun _ => none)
  runDeferred c
  mkDiagram r

/-- diagram_manager.hpp:1820-1830 `negate` (BDDs only). -/
def negate (c : Cfg) (root : Ptr) : M Ptr := transform c (fun v => 1 - v) root

/-- diagram_manager.hpp:1869-1874 `reduce`. -/
def reduce (c : Cfg) (root : Ptr) : M Ptr := transform c (fun v => v) root

/-- diagram_manager.hpp:1844-1867 `get_dependency_set_g`; state: `memo` and the output. -/
def dependencyVisit (p : Ptr) (t : (Nat → Bool) × List Nat) : M ((Nat → Bool) × List Nat) := do
  match ← getKind p with
  | .leaf _ => pure t
  | .inner i _ =>
      pure (upd t.1 i true, if t.1 i then t.2 else t.2 ++ [i])

/-- diagram_manager.hpp:1832-1842 `get_dependency_set`. -/
def dependencySet (c : Cfg) (root : Ptr) : M (List Nat) := do
  let t ← traversePre c dependencyVisit root (fun _ => false, [])
  pure t.2

/-! ### Truth vectors -/

/-- diagram_manager.hpp:1030-1042: the odometer step of `to_vector_g`; `true` = wrapped around. -/
def odometer (c : Cfg) (s : Mgr) : Nat → Asg → Asg × Bool
  | 0, x => (x, true)
  | level + 1, x =>
      let i := s.lvl2idx level
      if x i + 1 = c.dom i then odometer c s level (upd x i 0)
      else (upd x i (x i + 1), false)

/-- diagram_manager.hpp:1025-1043: the loop of `to_vector_g`. -/
def toVectorLoop (c : Cfg) (root : Ptr) : Nat → Asg → List Int → M (List Int)
  | 0, _, _ => throw .fuel
  | f + 1, x, out => do
      let v ← evaluate c root x
      let s ← get
      let (x', last) := odometer c s c.n x
      if last then pure (out ++ [v]) else toVectorLoop c root f x' (out ++ [v])

/-- diagram_manager.hpp:999-1044 `to_vector`.  The fuel is the number of assignments plus one.
`reserve(domain_product(...))` may overflow. -/
def toVector (c : Cfg) (root : Ptr) : M (List Int) := do
  let _ ← domainProduct c 0 c.n
  if c.n = 0 then do
    match ← getKind root with
    | .leaf v => pure [v]
    | .inner _ _ => throw .assertion
  else
    toVectorLoop c root (((List.range c.n).map c.dom).foldr (· * ·) 1 + 1) (fun _ => 0) []

/-- A frame of the stack of `from_vector` (diagram_manager.hpp:929-933), top of the stack first. -/
abbrev Frame := Ptr × Nat

/-- diagram_manager.hpp:948-953: number of frames on top of the stack with the given level. -/
def countTop (level : Nat) : List Frame → Nat
  | [] => 0
  | fr :: st => if fr.2 = level then countTop level st + 1 else 0

/-- diagram_manager.hpp:936-973 `shrink_stack`. -/
def shrinkStack (c : Cfg) : Nat → List Frame → M (List Frame)
  | 0, _ => throw .fuel
  | f + 1, st => do
      match st with
      | [] => throw .outOfRange
      | (p, level) :: rest =>
          if level = 0 then pure ((p, level) :: rest)
          else do
            let i ← getIndex c (level - 1)
            let d ← getDomain c i
            if countTop level st < d then pure st
            else do
              let r ← makeInternal c i (((st.take d).map (·.1)).reverse)
              shrinkStack c f ((r, level - 1) :: st.drop d)

/-- diagram_manager.hpp:979-982: read `k` values; reading past the end is undefined. -/
def readVals (c : Cfg) : Nat → List Int → M (List Ptr × List Int)
  | 0, vs => pure ([], vs)
  | _ + 1, [] => throw .outOfRange
  | k + 1, v :: vs => do
      let p ← makeTerminal c v
      let (ps, rest) ← readVals c k vs
      pure (p :: ps, rest)

/-- diagram_manager.hpp:975-986: the main loop of `from_vector`; the fuel bounds the iterations. -/
def fromVectorLoop (c : Cfg) (lastIndex lastLevel : Nat) :
    Nat → List Int → List Frame → M (List Frame)
  | 0, vs, st => if vs.isEmpty then pure st else throw .fuel
  | f + 1, vs, st =>
      if vs.isEmpty then pure st
      else do
        let d ← getDomain c lastIndex
        let (sons, rest) ← readVals c d vs
        let p ← makeInternal c lastIndex sons
        let st ← shrinkStack c (c.n + 1) ((p, lastLevel) :: st)
        fromVectorLoop c lastIndex lastLevel f rest st

/-- diagram_manager.hpp:907-990 `from_vector` on a random access range. -/
def fromVector (c : Cfg) (vs : List Int) : M Ptr := do
  if c.n = 0 then
    match vs with
    | [] => throw .emptyRange
    | v :: rest => do
        if c.asserts && !rest.isEmpty then throw .assertion
        let p ← makeTerminal c v
        mkDiagram p
  else do
    let lastIndex ← getIndex c (c.n - 1)
    let count ← domainProduct c 0 c.n
    if c.asserts && (vs.isEmpty || (vs.length : Int) != count) then throw .assertion
    let st ← fromVectorLoop c lastIndex (c.n - 1) vs.length vs []
    if c.asserts && st.length != 1 then throw .assertion
    match st with
    | [] => throw .outOfRange
    | (p, _) :: _ => mkDiagram p

/-! ### Expression trees -/

/-- `expression_node` concept: constants, variables and binary operations. -/
inductive Expr where
  | const (v : Int)
  | var (i : Nat)
  | op (f : Int → Int → Int) (l r : Expr)

/-- diagram_manager.hpp:1159-1166: the operation handed to `apply_n_impl`. -/
def exprOp (f : Int → Int → Int) : List Int → Except Err Int
  | [l, r] => .ok (if l = Nondetermined ∨ r = Nondetermined then Nondetermined else f l r)
  | _ => .error .outOfRange

/-- diagram_manager.hpp:1136-1173 `from_expression_tree_impl`; the result cache is cleared after
every operation. -/
def exprImpl (c : Cfg) : Expr → M Ptr
  | .const v => makeTerminal c v
  | .var i => variableImpl c i
  | .op f l r => do
      let a ← exprImpl c l
      let b ← exprImpl c r
      let (p, _) ← applyNImpl c (exprOp f) (c.n + 1) [a, b] (fun _ => none)
      pure p

/-- diagram_manager.hpp:1123-1134 `from_expression_tree`. -/
def fromExpressionTree (c : Cfg) (e : Expr) : M Ptr := do
  let p ← exprImpl c e
  runDeferred c
  mkDiagram p

/-! ### Small wrappers -/

/-- diagram_manager.hpp:1947-1951 `force_gc`. -/
def forceGcD (c : Cfg) : M Unit := forceGc c

/-- diagram_manager.hpp:1953-1957 `force_reorder`. -/
def forceReorder (c : Cfg) : M Unit := siftVariables c

/-- diagram_manager.hpp:1959-1963 `clear_cache`. -/
def clearCache : M Unit := cacheClear

/-- diagram_manager.hpp:1876-1880 `get_node_count()`. -/
def getNodeCount : M Nat := do
  let s ← get
  pure s.nodeCount

/-- diagram_manager.hpp:1912-1917 `get_order`. -/
def getOrder (c : Cfg) : M (List Nat) := do
  let s ← get
  pure ((List.range c.n).map s.lvl2idx)

/-- node_manager.hpp:413-419 `set_gc_ratio`; the ratio is a fraction. -/
def setGcRatio (c : Cfg) (num den : Nat) : M Unit :=
  if c.asserts && !(decide (num ≤ den)) then throw .assertion
  else modify fun s => { s with gcRatio := (num, den) }

/-- node_manager.hpp:405-411 `set_cache_ratio`. -/
def setCacheRatio (c : Cfg) (num den : Nat) : M Unit :=
  if c.asserts && num == 0 then throw .assertion
  else modify fun s => { s with cacheRatio := (num, den) }

/-- node_manager.hpp:421-426 `set_auto_reorder`. -/
def setAutoReorder (b : Bool) : M Unit :=
  modify fun s => { s with autoReorder := b }

/-- Destroy the handles left in a vector (diagram.hpp:149-156 for each element). -/
def dropAll : List (Option Ptr) → M Unit
  | [] => pure ()
  | none :: l => dropAll l
  | some p :: l => do
      dropHandle p
      dropAll l

end Teddy
