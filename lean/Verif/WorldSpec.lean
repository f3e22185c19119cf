import Verif.Throwing
import Verif.ApiSpec

/-!
# What the API promises

The specification keeps, for each handle of the program, the function its diagram denotes, and the
current variable order.  Nothing here mentions nodes, tables, marks, counters or the pool.

* `Adm`   – what a caller has to respect for a call (preconditions),
* `OutOK` – what the call returns,
* `next`  – how the functions of the handles change.

Four flags record known restrictions of the implementation (see DESIGN.md):
`canon` – no variable reordering so far, or all diagrams were reduced after the last one, `cacheOK` – the apply cache has not become stale through
reordering, `clean` – no call that leaves marks behind so far, `auto` – automatic reordering has been enabled and an
automatic reordering may be due.
-/

namespace Teddy

open Spec

/-- Parameters a manager is created with. -/
structure Setup where
  c : Cfg
  /-- size of the first node pool -/
  pool : Nat
  /-- the variable order given to the constructor -/
  order : List Nat
  /-- the operation meant by each operation id (the apply cache only stores the id) -/
  Γ : Nat → BinOp

/-- The manager is configured sensibly: at least two variables, non-empty domains, `order` lists each
variable once, the first node pool has at least 5 nodes and can be extended. -/
structure Setup.OK (P : Setup) : Prop where
  cfg : CfgOK P.c
  vars : 2 ≤ P.c.n
  perm : P.order.Perm (List.range P.c.n)
  pool : 5 ≤ P.pool
  extra : 0 < P.c.extra

/-- The state of the specification. -/
structure SState where
  /-- the function of each handle; `none` for a destroyed or moved-from handle -/
  slots : List (Option (Asg → Int))
  /-- variable indices from the root level down -/
  order : List Nat
  canon : Bool
  cacheOK : Bool
  clean : Bool
  auto : Bool

/-- A new manager. -/
def SState.init (P : Setup) : SState := ⟨[], P.order, true, true, true, false⟩

namespace SState

/-- Handle `a` holds a diagram of `f`. -/
def Has (σ : SState) (a : Nat) (f : Asg → Int) : Prop := σ.slots[a]? = some (some f)

/-- The handles `as` hold diagrams of `fs`. -/
def HasAll (σ : SState) (as : List Nat) (fs : List (Asg → Int)) : Prop :=
  List.Forall₂ σ.Has as fs

/-- The function of handle `a` (0 for an empty one). -/
def fn (σ : SState) (a : Nat) : Asg → Int :=
  match σ.slots[a]? with
  | some (some f) => f
  | _ => fun _ => 0

end SState

/-- The left fold of the operation over functions. -/
def foldFun (op : BinOp) : List (Asg → Int) → Asg → Int
  | [], _ => 0
  | f :: fs, x => (fs.map fun g => g x).foldl op.val (f x)

/-- The value of an operation on several operands. -/
def naryVal (op : BinOp) (vs : List Int) : Int :=
  match op.nary vs with
  | .ok v => v
  | .error _ => 0

/-- The values of a cube; 3 stands for don't care. -/
def Pla.Cube.vals (asserts : Bool) (cube : Pla.Cube) : List Int :=
  (List.range cube.size.toNat).map fun i : Nat => match cube.get asserts i with
    | .ok v => v
    | .error _ => 3

/-- `get` works on all positions of the cube. -/
def Pla.Cube.Reads (asserts : Bool) (cube : Pla.Cube) : Prop :=
  ∀ i : Nat, i < cube.size.toNat → ∃ v, cube.get asserts i = .ok v

/-- The assignment agrees with the literals 0 and 1 of the cube. -/
def Matches (vs : List Int) (x : Asg) : Prop :=
  ∀ i < vs.length, (vs.getD i 3 = 1 → x i = 1) ∧ (vs.getD i 3 = 0 → x i = 0)

instance (vs : List Int) (x : Asg) : Decidable (Matches vs x) :=
  inferInstanceAs (Decidable (∀ i < vs.length, _))

/-- Output `j` of a PLA: some line with output 1 matches. -/
def plaFun (asserts : Bool) (file : Pla.File) (j : Nat) (x : Asg) : Int :=
  if ∃ l ∈ file.lines, (l.fVals.vals asserts).getD j 3 = 1 ∧ Matches (l.cube.vals asserts) x then 1 else 0

/-- The functions of a PLA. -/
def plaFuns (asserts : Bool) (file : Pla.File) : List (Asg → Int) :=
  match file.lines with
  | [] => []
  | l :: _ => (List.range l.fVals.size.toNat).map (plaFun asserts file)

/-- A file `from_pla` can handle: at least one line; all lines have as many outputs as the first and not
more inputs than the manager has variables; no line with output 1 is without literal. -/
structure PlaOK (asserts : Bool) (n : Nat) (file : Pla.File) : Prop where
  lines : file.lines ≠ []
  outputs : ∀ l ∈ file.lines, ∀ l' ∈ file.lines, l.fVals.size = l'.fVals.size
  inputs : ∀ l ∈ file.lines, l.cube.size ≤ n
  reads : ∀ l ∈ file.lines, l.cube.Reads asserts ∧ l.fVals.Reads asserts
  literals : ∀ l ∈ file.lines, 1 ∈ l.fVals.vals asserts → ∃ v ∈ l.cube.vals asserts, v = 0 ∨ v = 1

/-- The function of the diagram a call makes; `none` for calls that make none. -/
def made (c : Cfg) (σ : SState) : Call → Option (Asg → Int)
  | .constant v => some fun _ => v
  | .variableD i => some fun x => x i
  | .variableNot i => some fun x => 1 - x i
  | .apply op a b => some fun x => (opType c op).val (σ.fn a x) (σ.fn b x)
  | .applyN op as => some fun x => naryVal (opType c op) (as.map fun a => σ.fn a x)
  | .leftFold op as => some (foldFun (opType c op) (as.map σ.fn))
  | .treeFold op as => some (treeFun (opType c op) (as.map σ.fn))
  | .transform t a => some fun x => t (σ.fn a x)
  | .negate a => some fun x => 1 - σ.fn a x
  | .reduce a => some (σ.fn a)
  | .cofactor a i v => some fun x => σ.fn a (upd x i v)
  | .cofactors a vars => some fun x => σ.fn a (updAll x vars)
  | .fromVector vs => some fun x => vs.getD (position c.dom σ.order x) 0
  | .fromExpr e => some fun x => e.val x
  | .copy a => some (σ.fn a)
  | .dpld vc ch a => some fun x =>
      b2i (ch (σ.fn a (upd x vc.index vc.from)) (σ.fn a (upd x vc.index vc.to)))
  | .toDpldE varFrom var a => some fun x => if x var = varFrom then σ.fn a x else Undefined
  | _ => none

/-- The list a call returned. -/
def Out.toNats : Out → List Nat
  | .nats l => l
  | _ => []

/-- The state after a call that returned `o`. -/
def next (c : Cfg) (σ : SState) (k : Call) (o : Out) : SState :=
  match k with
  | .assign a b => { σ with slots := σ.slots.set a (some (σ.fn b)) }
  | .move a b => { σ with slots := (σ.slots.set b none).set a (σ.slots[b]?.join) }
  | .drop a => { σ with slots := σ.slots.set a none }
  | .swap a b => { σ with slots := (σ.slots.set a (σ.slots[b]?.join)).set b (σ.slots[a]?.join) }
  | .clearCache => { σ with cacheOK := true }
  | .forceReorder =>
      { σ with order := o.toNats, canon := false, cacheOK := false }
  | .fromExpr e => { σ with slots := σ.slots ++ [some fun x => e.val x], clean := false }
  | .fromPla file _ => { σ with slots := σ.slots ++ (plaFuns c.asserts file).map some }
  | .setAutoReorder b => { σ with auto := σ.auto || b }
  | k => match made c σ k with
    | some f => { σ with slots := σ.slots ++ [some f] }
    | none => σ

/-- `f` never takes the special value `Undefined`. -/
def Defined (c : Cfg) (f : Asg → Int) : Prop := ∀ x, InDomain c.n c.dom x → f x ≠ Undefined

/-- What the enumeration of minimal vectors needs: some variable has at least two values, terminals
1 and `Undefined` can be made, and the apply cache is valid. -/
def VectorsOK (P : Setup) (σ : SState) : Prop :=
  σ.cacheOK = true ∧ P.Γ Op.PI_CONJ.id = Op.PI_CONJ ∧ TermOK P.c 1 ∧
    TermOK P.c Undefined ∧ ∃ i, i < P.c.n ∧ 2 ≤ P.c.dom i

/-- The caller's obligations. -/
def Adm (P : Setup) (σ : SState) : Call → Prop
  | .constant v => TermOK P.c v
  | .variableD i => i < P.c.n
  | .variableNot i => i < P.c.n ∧ P.c.fixedDom = some 2
  | .apply op a b => σ.cacheOK = true ∧ P.Γ (opType P.c op).id = opType P.c op ∧
      ∃ f g, σ.Has a f ∧ σ.Has b g ∧ OpOK P.c (opType P.c op) (Range P.c f) (Range P.c g)
  | .applyN op as => as ≠ [] ∧ ∃ fs, σ.HasAll as fs ∧
      NOpOK P.c (opType P.c op).nary (fs.map (Range P.c))
  | .leftFold op as => σ.cacheOK = true ∧ P.Γ (opType P.c op).id = opType P.c op ∧
      ∃ f fs, σ.HasAll as (f :: fs) ∧ FoldOK P.c (opType P.c op) f fs
  | .treeFold op as => σ.cacheOK = true ∧ P.Γ (opType P.c op).id = opType P.c op ∧
      as ≠ [] ∧ ∃ fs, σ.HasAll as fs ∧ TreeOK P.c (opType P.c op) (ceilLog2 fs.length) fs
  | .transform t a => ∃ f, σ.Has a f ∧ ∀ v, Range P.c f v → TermOK P.c (t v)
  | .negate a => ∃ f, σ.Has a f ∧ ∀ v, Range P.c f v → TermOK P.c (1 - v)
  | .reduce a => ∃ f, σ.Has a f ∧ ∀ v, Range P.c f v → TermOK P.c v
  | .cofactor a i v => (∃ f, σ.Has a f) ∧ (i < P.c.n → v < P.c.dom i)
  | .cofactors a vars => (∃ f, σ.Has a f) ∧ ∀ v ∈ vars, v.1 < P.c.n → v.2 < P.c.dom v.1
  | .fromVector vs => CountFits P.c ∧ vs.length = ((List.range P.c.n).map P.c.dom).prod ∧
      ∀ v ∈ vs, TermOK P.c v
  | .fromExpr e => e.OK P.c
  | .fromPla file _ => σ.cacheOK = true ∧ P.Γ Op.AND.id = Op.AND ∧ P.Γ Op.OR.id = Op.OR ∧
      P.c.fixedDom = some 2 ∧ PlaOK P.c.asserts P.c.n file
  | .copy a => ∃ f, σ.Has a f
  | .assign a b => a < σ.slots.length ∧ ∃ f, σ.Has b f
  | .move a b => a < σ.slots.length ∧ b < σ.slots.length
  | .drop a => a < σ.slots.length
  | .swap a b => a < σ.slots.length ∧ b < σ.slots.length
  | .evaluate a x => (∃ f, σ.Has a f) ∧ Valid P.c x
  | .satisfyCount v a => σ.clean = true ∧ CountFits P.c ∧ (∃ f, σ.Has a f) ∧
      ∀ m, P.c.fixedDom = some m → P.c.asserts = true → v < m
  | .satisfyOne v a => (∃ f, σ.Has a f) ∧
      ∀ m, P.c.fixedDom = some m → P.c.asserts = true → v < m
  | .satisfyAll v a => (∃ f, σ.Has a f) ∧
      ∀ m, P.c.fixedDom = some m → P.c.asserts = true → v < m
  | .toVector a => (∃ f, σ.Has a f) ∧ CountFits P.c
  | .dependencySet a => σ.clean = true ∧ ∃ f, σ.Has a f
  | .nodeCountOf a => σ.clean = true ∧ ∃ f, σ.Has a f
  | .nodeCount => True
  | .getOrder => True
  | .equals a b => (∃ f, σ.Has a f) ∧ ∃ f, σ.Has b f
  | .hashOf a => ∃ f, σ.Has a f
  | .forceGc => True
  | .clearCache => True
  | .forceReorder => True
  | .setGcRatio num den => 0 < den ∧ num ≤ den ∧ den ≤ num * P.pool
  | .setCacheRatio num _ => 0 < num
  | .setAutoReorder _ => True
  | .calculateProbability s pr a => σ.clean = true ∧ 0 ≤ s ∧ SumsToOne P.c.n P.c.dom pr ∧
      ∃ f, σ.Has a f ∧ Defined P.c f
  | .calculateProbabilities pr a => σ.clean = true ∧ SumsToOne P.c.n P.c.dom pr ∧ ∃ f, σ.Has a f
  | .calculateAvailability _ pr a => σ.clean = true ∧ SumsToOne P.c.n P.c.dom pr ∧
      ∃ f, σ.Has a f ∧ Defined P.c f
  | .calculateUnavailability _ pr a => σ.clean = true ∧ SumsToOne P.c.n P.c.dom pr ∧
      ∃ f, σ.Has a f ∧ Defined P.c f
  | .satisfyCountData v a => σ.clean = true ∧ CountFits P.c ∧ (∃ f, σ.Has a f) ∧
      ∀ m, P.c.fixedDom = some m → P.c.asserts = true → v < m
  | .stateFrequency v a => σ.clean = true ∧ CountFits P.c ∧ (∃ f, σ.Has a f) ∧
      ∀ m, P.c.fixedDom = some m → P.c.asserts = true → v < m
  | .structuralImportance a => σ.clean = true ∧ CountFits P.c ∧ (∃ f, σ.Has a f) ∧
      ∀ m, P.c.fixedDom = some m → P.c.asserts = true → (1 : Int) < m
  | .birnbaumImportance pr a => σ.clean = true ∧ SumsToOne P.c.n P.c.dom pr ∧
      ∃ f, σ.Has a f ∧ Defined P.c f
  | .fussellVesely pr u _ i a => σ.clean = true ∧ σ.canon = true ∧ SumsToOne P.c.n P.c.dom pr ∧ u ≠ 0 ∧
      i < P.c.n ∧ ∃ f, σ.Has a f ∧ (∀ x, InDomain P.c.n P.c.dom x → f x = 0 ∨ f x = 1) ∧
        Layered P.c.n P.c.dom σ.order f
  | .dpld vc _ a => (∃ f, σ.Has a f) ∧ TermOK P.c 1 ∧
      (vc.index < P.c.n → vc.from < P.c.dom vc.index ∧ vc.to < P.c.dom vc.index)
  | .toDpldE _ var a => var < P.c.n ∧ TermOK P.c Undefined ∧ σ.canon = true ∧
      ∃ f, σ.Has a f ∧ ¬ DependsOn P.c.n P.c.dom f var
  | .mcvs _ a => VectorsOK P σ ∧ ∃ f, σ.Has a f
  | .mpvs _ a => VectorsOK P σ ∧ ∃ f, σ.Has a f
  | .mpvsG _ a => VectorsOK P σ ∧ ∃ f, σ.Has a f

/-- Calls that, with automatic reordering enabled, may reorder the variables before their result is registered.
What they return then may be destroyed (see C45). -/
def Call.defers : Call → Bool
  | .apply _ _ _ | .applyN _ _ | .leftFold _ _ | .treeFold _ _ | .transform _ _ | .negate _ | .reduce _ |
    .cofactor _ _ _ | .cofactors _ _ | .fromExpr _ | .fromPla _ _ | .fussellVesely _ _ _ _ _ | .dpld _ _ _ |
    .toDpldE _ _ _ | .mcvs _ _ | .mpvs _ _ | .mpvsG _ _ => true
  | _ => false

/-- Proves the condition on automatic reordering for the calls that do not depend on it, and from a hypothesis for the
others. -/
macro "no_defer" : tactic =>
  `(tactic| first
    | exact fun h => nomatch (show false = true from h)
    | exact fun _ => by assumption
    | exact fun _ => rfl)

/-- The calls that register their result before they reorder. -/
def Call.isCofactor : Call → Bool
  | .cofactor _ _ _ | .cofactors _ _ => true
  | _ => false

/-- Calls that only ask. -/
def Call.isQuery : Call → Bool
  | .evaluate _ _ | .satisfyCount _ _ | .satisfyOne _ _ | .satisfyAll _ _ | .toVector _ |
    .dependencySet _ | .nodeCountOf _ | .nodeCount | .getOrder | .equals _ _ | .hashOf _ => true
  | _ => false

/-- What the call returns. -/
def OutOK (P : Setup) (σ : SState) (o : Out) : Call → Prop
  | .evaluate a x => o = .int (σ.fn a x)
  | .satisfyCount v a => o = .int (countValue P.c.n P.c.dom (σ.fn a) v : Nat)
  | .satisfyOne v a => ∃ r, o = .asg r ∧ (match r with
      | some l => ∃ x, InDomain P.c.n P.c.dom x ∧ σ.fn a x = v ∧ l = toList P.c.n x
      | none => ∀ x, InDomain P.c.n P.c.dom x → σ.fn a x ≠ v) ∧
      (σ.canon = true → r = searchOne P.c.n P.c.dom σ.order v (σ.fn a))
  | .satisfyAll v a =>
      o = .asgs (((assignments P.c.dom σ.order).filter fun x => σ.fn a x = v).map (toList P.c.n))
  | .toVector a => o = .ints (truthVector P.c.dom σ.order (σ.fn a))
  | .dependencySet a => ∃ l, o = .nats l ∧ l.Nodup ∧
      (∀ i, i < P.c.n → DependsOn P.c.n P.c.dom (σ.fn a) i → i ∈ l) ∧
      (σ.canon = true → ∀ i, i ∈ l → i < P.c.n ∧ DependsOn P.c.n P.c.dom (σ.fn a) i)
  | .nodeCountOf a => ∃ k, o = .nat k ∧
      (∃ j, j ≤ k ∧ CountFuns P.c.n P.c.dom (Subfunction P.c.n P.c.dom σ.order (σ.fn a)) j) ∧
      (σ.canon = true → CountFuns P.c.n P.c.dom (Subfunction P.c.n P.c.dom σ.order (σ.fn a)) k)
  | .nodeCount => ∃ k, o = .nat k
  | .getOrder => o = .nats σ.order
  | .forceReorder => ∃ l, o = .nats l ∧ l.Perm (List.range P.c.n)
  | .equals a b => ∃ r, o = .bool r ∧
      (r = true → ∀ x, InDomain P.c.n P.c.dom x → σ.fn a x = σ.fn b x) ∧
      (σ.canon = true → (∀ x, InDomain P.c.n P.c.dom x → σ.fn a x = σ.fn b x) → r = true)
  | .fromPla file _ =>
      o = .nats (List.range' σ.slots.length (plaFuns P.c.asserts file).length)
  | .hashOf _ => ∃ k, o = .nat k
  | .assign _ _ | .move _ _ | .drop _ | .swap _ _ | .forceGc | .clearCache | .setGcRatio _ _ |
    .setCacheRatio _ _ | .setAutoReorder _ | .calculateProbabilities _ _ => o = .unit
  | .calculateProbability s pr a =>
      o = .rat (probability P.c.n P.c.dom pr fun x => decide (σ.fn a x = s))
  | .calculateAvailability s pr a =>
      o = .rat (probability P.c.n P.c.dom pr fun x => decide (σ.fn a x ≥ s))
  | .calculateUnavailability s pr a =>
      o = .rat (probability P.c.n P.c.dom pr fun x => decide (σ.fn a x < s))
  | .satisfyCountData v a => o = .int (countValue P.c.n P.c.dom (σ.fn a) v : Nat)
  | .stateFrequency v a => o = .rat (countValue P.c.n P.c.dom (σ.fn a) v / (allAsg P.c.n P.c.dom).length)
  | .structuralImportance a =>
      o = .rat (countValue P.c.n P.c.dom (σ.fn a) 1 / (allAsg P.c.n P.c.dom).length)
  | .birnbaumImportance pr a =>
      o = .rat (probability P.c.n P.c.dom pr fun x => decide (σ.fn a x = 1))
  | .fussellVesely pr u s i a =>
      o = .rat (((List.range s).map (pr i)).sum *
        probability P.c.n P.c.dom pr (fun x => decide (Covered P.c.n P.c.dom (σ.fn a) x)) / u)
  | .mcvs s a => o = .asgs (((assignments P.c.dom σ.order).filter
      fun x => MinCut P.c.n P.c.dom (σ.fn a) s x).map (toList P.c.n))
  | .mpvs s a => o = .asgs (((assignments P.c.dom σ.order).filter
      fun x => MinCut P.c.n P.c.dom (σ.fn a) s x).map (toList P.c.n))
  | .mpvsG s a => o = .asgs (((assignments P.c.dom σ.order).filter
      fun x => MinPath P.c.n (σ.fn a) s x).map (toList P.c.n))
  | _ => o = .slot σ.slots.length

/-- The calls `d = reduce(d)` for the handles `as`, and `force_gc()`.  The handles that `reduce` returns have the
numbers from `k` on; each is moved to the handle it replaces. -/
def reduceAll (k : Nat) : List Nat → List Call
  | [] => [.forceGc]
  | a :: as => .reduce a :: .move a k :: reduceAll (k + 1) as

/-- The obligations of the caller of `transform(d, g)` with a function that throws where `g` is `none`: those of `transform`
for the values it returns. -/
def AdmThrowing (P : Setup) (σ : SState) (g : Int → Option Int) (a : Nat) : Prop :=
  ∃ f, σ.Has a f ∧ ∀ v, Range P.c f v → ∀ u, g v = some u → TermOK P.c u

/-- Histories: a manager is created and admissible calls are made, in any order and number.

`reduced`: when all diagrams have been replaced by their reductions and garbage has been collected, the effect of
earlier reorderings on the comparison of diagrams is gone, unless one of the unique tables was resized
on the way (see C44).

`cofactor`: `get_cofactor` may be called although automatic reordering is enabled; it registers its result before it
reorders.  The order is then what `get_order` says.

`settled`: when automatic reordering is disabled and the variables are reordered once more, no reordering is due.

`thrown`: the function given to `transform` threw an exception, the program caught it and goes on. -/
inductive Reachable (P : Setup) : World → SState → Prop
  | init {m : Mgr} : construct P.c P.pool P.order = .ok m → Reachable P ⟨m, []⟩ (SState.init P)
  | step {w w' : World} {σ : SState} {k : Call} {o : Out} : Reachable P w σ → Adm P σ k →
      exec P.c k w = .ok (o, w') → (ha : k.defers = true → σ.auto = false := by no_defer) → Reachable P w' (next P.c σ k o)
  | reduced {w w' : World} {σ : SState} {as : List Nat} {os : List Out} : Reachable P w σ →
      σ.clean = true → σ.auto = false → (∀ a f, σ.Has a f → a ∈ as) → (∀ a ∈ as, Adm P σ (.reduce a)) →
      execAll P.c (reduceAll σ.slots.length as) w = .ok (os, w') →
      (∀ i, i < P.c.n → (w'.mgr.tables i).cap = (w.mgr.tables i).cap) →
      Reachable P w' { σ with slots := σ.slots ++ List.replicate as.length none, canon := true }
  | cofactor {w w' w'' : World} {σ : SState} {k : Call} {o : Out} {l : List Nat} : Reachable P w σ →
      k.isCofactor = true → Adm P σ k → exec P.c k w = .ok (o, w') → exec P.c .getOrder w' = .ok (.nats l, w'') →
      Reachable P w' { next P.c σ k o with order := l, canon := false }
  | settled {w w' : World} {σ : SState} {o : Out} {l : List Nat} : Reachable P w σ →
      execAll P.c [.setAutoReorder false, .forceReorder] w = .ok ([o, .nats l], w') →
      Reachable P w' { σ with order := l, canon := false, cacheOK := false, auto := false }
  | thrown {w w' : World} {σ : SState} {g : Int → Option Int} {a : Nat} : Reachable P w σ → AdmThrowing P σ g a →
      execTransform P.c g a w = .ok (none, w') → Reachable P w' { σ with clean := false }

/-- What `evaluate` tells about handle `a`: it returns `f x` for every assignment `x`. -/
def Denotes (P : Setup) (w : World) (a : Nat) (f : Asg → Int) : Prop :=
  ∀ x, InDomain P.c.n P.c.dom x → exec P.c (.evaluate a x) w = .ok (.int (f x), w)

/-- Call `k` succeeds and returns a new diagram of `f`; what `evaluate` says about the other handles
does not change. -/
def Makes (P : Setup) (w : World) (k : Call) (f : Asg → Int) : Prop :=
  ∃ w', exec P.c k w = .ok (.slot w.slots.length, w') ∧ Denotes P w' w.slots.length f ∧
    ∀ j h, Denotes P w j h → Denotes P w' j h

/-- Call `k` succeeds and returns `o`; what `evaluate` says about the handles does not change. -/
def Answers (P : Setup) (w : World) (k : Call) (o : Out) : Prop :=
  ∃ w', exec P.c k w = .ok (o, w') ∧ ∀ j h, Denotes P w j h → Denotes P w' j h

/-- `l` lists the assignments that satisfy `φ`, each once. -/
def ListsExactly (P : Setup) (φ : Asg → Prop) (l : List (List Nat)) : Prop :=
  l.Nodup ∧ ∀ y, y ∈ l ↔ ∃ x, InDomain P.c.n P.c.dom x ∧ φ x ∧ y = toList P.c.n x

end Teddy
