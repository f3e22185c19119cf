import Verif.World

/-!
# How much work apply does

`apply` of `Diagram.lean` with a counter of the calls of `apply_impl`, the recursive function.  Not counted: the work of
`make_internal_node` and `make_terminal_node` (hash tables, garbage collection).
-/

namespace Teddy

/-- diagram_manager.hpp:1213-1260 `apply_impl`; counts this call and the calls it makes. -/
def applySteps (c : Cfg) (op : BinOp) : Nat → Ptr → Ptr → Nat → M (Ptr × Nat)
  | 0, _, _, _ => throw .fuel
  | f + 1, lhs, rhs, t => do
      match ← cacheFind c op.id op.comm lhs rhs with
      | some p => pure (p, t + 1)
      | none => do
          let lv ← valueOrND lhs
          let rv ← valueOrND rhs
          let v ← liftE (op.fn lv rv)
          if v ≠ Nondetermined then do
            let r ← makeTerminal c v
            cachePut c op.id op.comm r lhs rhs
            pure (r, t + 1)
          else do
            let ll ← getLevel c lhs
            let rl ← getLevel c rhs
            let top := min ll rl
            let i ← getIndex c top
            let (sons, t) ← mapAccL (fun k t => do
              let a ← sonAtTop lhs ll top k
              let b ← sonAtTop rhs rl top k
              applySteps c op f a b t) (List.range (c.dom i)) (t + 1)
            let r ← makeInternal c i sons
            cachePut c op.id op.comm r lhs rhs
            pure (r, t)

/-- diagram_manager.hpp:1188-1211 `apply`. -/
def applyCost (c : Cfg) (op : BinOp) (lhs rhs : Ptr) : M (Ptr × Nat) := do
  let (r, t) ← applySteps c (opType c op) (c.n + 1) lhs rhs 0
  runDeferred c
  let d ← mkDiagram r
  pure (d, t)

/-- diagram_manager.hpp:1188-1260: the call, with the number of calls of `apply_impl`; only `apply` is counted. -/
def execApplySteps (c : Cfg) : Call → SM World (Out × Nat)
  | .apply op a b => do
      let p ← rootOf a
      let q ← rootOf b
      let r ← onMgr (applyCost c op p q)
      let o ← push r.1
      pure (o, r.2)
  | k => do
      let o ← exec c k
      pure (o, 0)

end Teddy
