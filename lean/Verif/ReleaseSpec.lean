import Verif.World

/-!
# Specification: the memory of a manager

What it means that everything is released, and once.  A manager obtains memory for its node pools, for one
array of sons per internal node if the variables have different domains, and for the arrays of its hash tables.
-/

namespace Teddy

/-- The error is not one of releasing memory: an array that is not allocated is freed, or a destructor runs
where no node has been constructed. -/
def Err.tame (e : Err) : Prop := e ≠ .doubleFree ∧ e ≠ .unbuilt

/-- A computation on values that does not report an error of releasing memory. -/
class TameE {α : Type} (r : Except Err α) : Prop where
  tame : ∀ e, r = .error e → e.tame

/-- An operation that does not report an error of releasing memory. -/
class TameOp (op : BinOp) : Prop where
  tame : ∀ a b, TameE (op.fn a b)

/-- The operation handed to the call, if any, does not itself report an error of releasing memory. -/
def Call.Tame : Call → Prop
  | .apply op _ _ => TameOp op
  | .applyN op _ => TameOp op
  | .leftFold op _ => TameOp op
  | .treeFold op _ => TameOp op
  | _ => True

/-- Nothing is allocated for nodes: no array of sons, no pool; the destructor of every node has run. -/
def NodesReleased (m : Mgr) : Prop :=
  m.mem.live = [] ∧ m.mem.pools = [] ∧ ∀ p, m.mem.built p = false

/-- Nothing is allocated, not even an array of a hash table. -/
def Released (m : Mgr) : Prop :=
  NodesReleased m ∧ m.heap.live = []

/-- A whole program: the manager is constructed, the calls are executed, the handles and the manager are
destroyed.  The result is the manager after its destructor. -/
def lifetime (c : Cfg) (pool : Nat) (order : List Nat) (ks : List Call) : Except Err Mgr :=
  match construct c pool order with
  | .error e => .error e
  | .ok m => match execAll c ks ⟨m, []⟩ with
    | .error e => .error e
    | .ok (_, w) => match endScope c w with
      | .error e => .error e
      | .ok (_, w') => .ok w'.mgr

end Teddy
