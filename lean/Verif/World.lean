import Verif.Reliability
import Verif.Pla

/-!
# A manager and the diagrams a program holds

The public interface as a transition system.  A `World` is a manager together with the `diagram_t`
variables of the calling program ("slots"); a `Call` is one call of the public API on some of them.
Calls that return a diagram store it in a fresh slot.
-/

namespace Teddy

/-- A manager and the program's handles; `none` is a handle that was destroyed or moved from
(diagram.hpp:143-156). -/
structure World where
  mgr : Mgr
  slots : List (Option Ptr)

/-- Calls of the public interface (diagram_manager.hpp:73-803, diagram.hpp:25-129,
reliability_manager.hpp:34-543). -/
inductive Call where
  /-- `constant(v)` (diagram_manager.hpp:842) -/
  | constant (v : Int)
  /-- `variable(i)` (849) -/
  | variableD (i : Nat)
  /-- `variable_not(i)` (856) -/
  | variableNot (i : Nat)
  /-- `apply<Op>(a, b)` (1188) -/
  | apply (op : BinOp) (a b : Nat)
  /-- `apply_n<Op>(as...)` (1262) -/
  | applyN (op : BinOp) (as : List Nat)
  /-- `left_fold<Op>(range)` (1331) -/
  | leftFold (op : BinOp) (as : List Nat)
  /-- `tree_fold<Op>(range)` (1358) on a vector of copies of the diagrams -/
  | treeFold (op : BinOp) (as : List Nat)
  /-- `transform(d, t)` (1773) -/
  | transform (t : Int → Int) (a : Nat)
  /-- `negate(d)` (1820) -/
  | negate (a : Nat)
  /-- `reduce(d)` (1869) -/
  | reduce (a : Nat)
  /-- `get_cofactor(d, i, v)` (1617) -/
  | cofactor (a i v : Nat)
  /-- `get_cofactor(d, vars)` (1642) -/
  | cofactors (a : Nat) (vars : List (Nat × Nat))
  /-- `from_vector(v)` (913) -/
  | fromVector (vs : List Int)
  /-- `from_expression_tree(e)` (1123) -/
  | fromExpr (e : Expr)
  /-- `from_pla(file, foldType)` (1046) -/
  | fromPla (file : Pla.File) (tree : Bool)
  /-- copy construction of a handle (diagram.hpp:137) -/
  | copy (a : Nat)
  /-- copy assignment `a = b` (diagram.hpp:158-163) -/
  | assign (a b : Nat)
  /-- move assignment `a = std::move(b)` (diagram.hpp:143-147, 158-163) -/
  | move (a b : Nat)
  /-- destruction of a handle (diagram.hpp:149) -/
  | drop (a : Nat)
  /-- `a.swap(b)`, `swap(a, b)` (diagram.hpp:98-102, 165-169) -/
  | swap (a b : Nat)
  /-- `evaluate(d, x)` (1398) -/
  | evaluate (a : Nat) (x : Asg)
  /-- `satisfy_count(v, d)` (1417) -/
  | satisfyCount (v : Int) (a : Nat)
  /-- `satisfy_one(v, d)` (1487) -/
  | satisfyOne (v : Int) (a : Nat)
  /-- `satisfy_all(v, d)` (1538) -/
  | satisfyAll (v : Int) (a : Nat)
  /-- `to_vector(d)` (999) -/
  | toVector (a : Nat)
  /-- `get_dependency_set(d)` (1832) -/
  | dependencySet (a : Nat)
  /-- `get_node_count(d)` (1882) -/
  | nodeCountOf (a : Nat)
  /-- `get_node_count()` (1876) -/
  | nodeCount
  /-- `get_order()` (1912) -/
  | getOrder
  /-- `equals(a, b)` (diagram.hpp:113-129, 171-175) -/
  | equals (a b : Nat)
  /-- `std::hash<diagram_t>` of a handle (diagram.hpp:186-194) -/
  | hashOf (a : Nat)
  /-- `force_gc()` (1947) -/
  | forceGc
  /-- `clear_cache()` (1959) -/
  | clearCache
  /-- `force_reorder()` (1953), followed by `get_order()` (1912) -/
  | forceReorder
  /-- `set_gc_ratio(num / den)` (1933) -/
  | setGcRatio (num den : Nat)
  /-- `set_cache_ratio(num / den)` (1926) -/
  | setCacheRatio (num den : Nat)
  /-- `set_auto_reorder(b)` (1940) -/
  | setAutoReorder (b : Bool)
  /-- `calculate_probability(s, P, d)` (reliability_manager.hpp:571) -/
  | calculateProbability (s : Int) (P : Nat → Nat → Rat) (a : Nat)
  /-- `calculate_probabilities(P, d)` (reliability_manager.hpp:546) -/
  | calculateProbabilities (P : Nat → Nat → Rat) (a : Nat)
  /-- `calculate_availability(s, P, d)` (reliability_manager.hpp:606) -/
  | calculateAvailability (s : Int) (P : Nat → Nat → Rat) (a : Nat)
  /-- `calculate_unavailability(s, P, d)` (reliability_manager.hpp:668) -/
  | calculateUnavailability (s : Int) (P : Nat → Nat → Rat) (a : Nat)
  /-- `satisfy_count(v, d)` of a reliability manager (diagram_manager.hpp:1417) -/
  | satisfyCountData (v : Int) (a : Nat)
  /-- `state_frequency(d, s)` (reliability_manager.hpp:767) -/
  | stateFrequency (s : Int) (a : Nat)
  /-- `structural_importance(d)` (reliability_manager.hpp:959) -/
  | structuralImportance (a : Nat)
  /-- `birnbaum_importance(P, d)` (reliability_manager.hpp:971) -/
  | birnbaumImportance (P : Nat → Nat → Rat) (a : Nat)
  /-- `fussell_vesely_importance(P, d, u, s, i)` (reliability_manager.hpp:981) -/
  | fussellVesely (P : Nat → Nat → Rat) (u : Rat) (s i a : Nat)
  /-- `dpld(change, type, d)` (reliability_manager.hpp:780) -/
  | dpld (vc : VarChange) (ch : Int → Int → Bool) (a : Nat)
  /-- `to_dpld_e(from, var, d)` (reliability_manager.hpp:870) -/
  | toDpldE (varFrom var a : Nat)
  /-- `mcvs(d, s)` (reliability_manager.hpp:1002) -/
  | mcvs (s : Int) (a : Nat)
  /-- `mpvs(d, s)` (reliability_manager.hpp:1014) -/
  | mpvs (s : Int) (a : Nat)
  /-- `mpvs_g(d, s, out)` (reliability_manager.hpp:1053) -/
  | mpvsG (s : Int) (a : Nat)

/-- What a call returns. -/
inductive Out where
  | unit
  /-- the slot of a new diagram -/
  | slot (k : Nat)
  | int (v : Int)
  | nat (k : Nat)
  | bool (b : Bool)
  | nats (l : List Nat)
  | ints (l : List Int)
  | asg (o : Option (List Nat))
  | asgs (l : List (List Nat))
  | rat (q : Rat)

/-- Run a computation of the manager. -/
def onMgr {α : Type} (m : M α) : SM World α := fun w =>
  match m w.mgr with
  | .ok (a, s) => .ok (a, { w with mgr := s })
  | .error e => .error e

/-- The root of the diagram in slot `a` (diagram.hpp:177-181 `unsafe_get_root`); using an empty
handle dereferences null. -/
def rootOf (a : Nat) : SM World Ptr := fun w =>
  match w.slots[a]? with
  | some (some p) => .ok (p, w)
  | some none => .error .nullDeref
  | none => .error .outOfRange

/-- The pointer in slot `a`, which is null in an empty handle (diagram.hpp:177-181 `unsafe_get_root`, where the pointer
is not dereferenced). -/
def ptrOf (a : Nat) : SM World (Option Ptr) := fun w =>
  match w.slots[a]? with
  | some p => .ok (p, w)
  | none => .error .outOfRange

/-- tools.hpp:64-67 `do_hash` of a pointer: the address, shifted; 0 for null. -/
def hashPtr (c : Cfg) : Option Ptr → Nat
  | some p => c.addr p >>> 4
  | none => 0

/-- A new handle of the program. -/
def push (p : Ptr) : SM World Out := fun w =>
  .ok (.slot w.slots.length, { w with slots := w.slots ++ [some p] })

/-- New handles of the program. -/
def pushAll (ps : List Ptr) : SM World Out := fun w =>
  .ok (.nats (List.range' w.slots.length ps.length), { w with slots := w.slots ++ ps.map some })

/-- A call that makes a diagram. -/
def making (m : M Ptr) : SM World Out := do
  let p ← onMgr m
  push p

/-- diagram_manager.hpp:1358-1396: copy the diagrams into a vector, fold it, destroy the vector. -/
def treeFoldCopies (c : Cfg) (op : BinOp) (ps : List Ptr) : M Ptr := do
  let qs ← mapL copyHandle ps
  let (r, rest) ← treeFold c op (qs.map some)
  dropAll rest
  pure r

/-- One call.  `.drop` on an empty handle is fine (the destructor tests for null, diagram.hpp:151). -/
def exec (c : Cfg) : Call → SM World Out
  | .constant v => making (constant c v)
  | .variableD i => making (variableD c i)
  | .variableNot i => making (variableNot c i)
  | .apply op a b => do
      let p ← rootOf a
      let q ← rootOf b
      making (apply c op p q)
  | .applyN op as => do
      let ps ← mapL rootOf as
      making (applyN c op ps)
  | .leftFold op as => do
      let ps ← mapL rootOf as
      making (leftFold c op ps)
  | .treeFold op as => do
      let ps ← mapL rootOf as
      making (treeFoldCopies c op ps)
  | .transform t a => do
      let p ← rootOf a
      making (transform c t p)
  | .negate a => do
      let p ← rootOf a
      making (negate c p)
  | .reduce a => do
      let p ← rootOf a
      making (reduce c p)
  | .cofactor a i v => do
      let p ← rootOf a
      making (getCofactor c p i v)
  | .cofactors a vars => do
      let p ← rootOf a
      making (getCofactors c p vars)
  | .fromVector vs => making (fromVector c vs)
  | .fromExpr e => making (fromExpressionTree c e)
  | .fromPla file tree => do
      let ps ← onMgr (Teddy.fromPla c file tree)
      pushAll ps
  | .copy a => do
      let p ← rootOf a
      making (copyHandle p)
  | .assign a b => do
      let p ← rootOf b
      let q ← onMgr (copyHandle p)
      let w ← get
      let xs ← onMgr (assignSlot w.slots a (some q))
      modify fun w => { w with slots := xs }
      pure .unit
  | .move a b => do
      let w ← get
      let xs ← onMgr (moveSlot w.slots a b)
      modify fun w => { w with slots := xs }
      pure .unit
  | .drop a => do
      let w ← get
      match w.slots[a]? with
      | some (some p) => do
          onMgr (dropHandle p)
          modify fun w => { w with slots := w.slots.set a none }
          pure .unit
      | some none => pure .unit
      | none => throw .outOfRange
  | .swap a b => do
      let p ← ptrOf a
      let q ← ptrOf b
      modify fun w => { w with slots := (w.slots.set a q).set b p }
      pure .unit
  | .evaluate a x => do
      let p ← rootOf a
      let v ← onMgr (evaluate c p x)
      pure (.int v)
  | .satisfyCount v a => do
      let p ← rootOf a
      let k ← onMgr (satisfyCount c v p)
      pure (.int k)
  | .satisfyOne v a => do
      let p ← rootOf a
      let o ← onMgr (satisfyOne c v p)
      pure (.asg o)
  | .satisfyAll v a => do
      let p ← rootOf a
      let l ← onMgr (satisfyAll c v p)
      pure (.asgs l)
  | .toVector a => do
      let p ← rootOf a
      let l ← onMgr (toVector c p)
      pure (.ints l)
  | .dependencySet a => do
      let p ← rootOf a
      let l ← onMgr (dependencySet c p)
      pure (.nats l)
  | .nodeCountOf a => do
      let p ← rootOf a
      let k ← onMgr (nodeCountOf c p)
      pure (.nat k)
  | .nodeCount => do
      let k ← onMgr getNodeCount
      pure (.nat k)
  | .getOrder => do
      let l ← onMgr (getOrder c)
      pure (.nats l)
  | .equals a b => do
      let p ← ptrOf a
      let q ← ptrOf b
      pure (.bool (p == q))
  | .hashOf a => do
      let p ← ptrOf a
      pure (.nat (hashPtr c p))
  | .forceGc => do
      onMgr (forceGcD c)
      pure .unit
  | .clearCache => do
      onMgr clearCache
      pure .unit
  | .forceReorder => do
      onMgr (forceReorder c)
      let l ← onMgr (getOrder c)
      pure (.nats l)
  | .setGcRatio num den => do
      onMgr (setGcRatio c num den)
      pure .unit
  | .setCacheRatio num den => do
      onMgr (setCacheRatio c num den)
      pure .unit
  | .setAutoReorder b => do
      onMgr (setAutoReorder b)
      pure .unit
  | .calculateProbability s P a => do
      let p ← rootOf a
      let r ← onMgr (Teddy.calculateProbability c s P p)
      pure (.rat r)
  | .calculateProbabilities P a => do
      let p ← rootOf a
      onMgr (Teddy.calculateProbabilities c P p)
      pure .unit
  | .calculateAvailability s P a => do
      let p ← rootOf a
      let r ← onMgr (Teddy.calculateAvailability c s P p)
      pure (.rat r)
  | .calculateUnavailability s P a => do
      let p ← rootOf a
      let r ← onMgr (Teddy.calculateUnavailability c s P p)
      pure (.rat r)
  | .satisfyCountData v a => do
      let p ← rootOf a
      let r ← onMgr (Teddy.satisfyCountData c v p)
      pure (.int r)
  | .stateFrequency s a => do
      let p ← rootOf a
      let r ← onMgr (Teddy.stateFrequency c s p)
      pure (.rat r)
  | .structuralImportance a => do
      let p ← rootOf a
      let r ← onMgr (Teddy.structuralImportance c p)
      pure (.rat r)
  | .birnbaumImportance P a => do
      let p ← rootOf a
      let r ← onMgr (Teddy.birnbaumImportance c P p)
      pure (.rat r)
  | .fussellVesely P u s i a => do
      let p ← rootOf a
      let r ← onMgr (Teddy.fussellVesely c P u s i p)
      pure (.rat r)
  | .dpld vc ch a => do
      let p ← rootOf a
      making (Teddy.dpld c vc ch p)
  | .toDpldE varFrom var a => do
      let p ← rootOf a
      making (Teddy.toDpldE c varFrom var p)
  | .mcvs s a => do
      let p ← rootOf a
      let r ← onMgr (Teddy.mcvs c s p)
      pure (.asgs r)
  | .mpvs s a => do
      let p ← rootOf a
      let r ← onMgr (Teddy.mpvs c s p)
      pure (.asgs r)
  | .mpvsG s a => do
      let p ← rootOf a
      let r ← onMgr (Teddy.mpvsG c s p)
      pure (.asgs r)

/-- A program: calls one after another, with what they returned. -/
def execAll (c : Cfg) : List Call → SM World (List Out)
  | [] => pure []
  | k :: ks => do
      let o ← exec c k
      let os ← execAll c ks
      pure (o :: os)

/-- The end of the scope that holds the manager and the handles declared after it: the handles are
destroyed, the last one first, then the manager (diagram_manager.hpp:833 and node_manager.hpp:110, both
defaulted). -/
def endScope (c : Cfg) : SM World Unit := do
  let w ← get
  onMgr (dropAll w.slots.reverse)
  onMgr (mgrDtor c)

end Teddy
