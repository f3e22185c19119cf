import Verif.Cost

/-!
# How much work transform and cofactors do

`transform`, `negate`, `reduce` and `get_cofactor` walk over a diagram with a memo table.  The functions of this file are
those of `Diagram.lean` with a counter of the calls of the recursive function.  The loop over the sons of a node makes one
call for each of them; the calls of a loop are counted when it begins.  The counter is kept beside the memo table.
Not counted: the work of `make_internal_node` and `make_terminal_node` (hash tables, garbage collection).
-/

namespace Teddy

/-- diagram_manager.hpp:1787-1818 `transform_impl`; counts the calls this call makes. -/
def transformSteps (c : Cfg) (g : Int → Int) : Nat → Ptr → Memo × Nat → M (Ptr × (Memo × Nat))
  | 0, _, _ => throw .fuel
  | f + 1, p, t => do
      match t.1 p with
      | some r => pure (r, t)
      | none => do
          match ← getKind p with
          | .leaf v => do
              let r ← makeTerminal c (g v)
              pure (r, t)
          | .inner i sons => do
              let (sons', t) ← mapAccL (transformSteps c g f) sons (t.1, t.2 + sons.length)
              let r ← makeInternal c i sons'
              pure (r, (upd t.1 p (some r), t.2))

/-- diagram_manager.hpp:1773-1785 `transform`; the call for the root is the first. -/
def transformCost (c : Cfg) (g : Int → Int) (root : Ptr) : M (Ptr × Nat) := do
  let (r, t) ← transformSteps c g (c.n + 1) root ((fun _ => none), 1)
  runDeferred c
  let d ← mkDiagram r
  pure (d, t.2)

/-- diagram_manager.hpp:1678-1714 `get_cofactor_impl`, one variable; counts the calls this call makes. -/
def cofactorSteps (c : Cfg) (var val : Nat) : Nat → Ptr → Memo × Nat → M (Ptr × (Memo × Nat))
  | 0, _, _ => throw .fuel
  | f + 1, p, t => do
      match t.1 p with
      | some r => pure (r, t)
      | none => do
          match ← getKind p with
          | .leaf _ => pure (p, t)
          | .inner i sons =>
              if i = var then do
                let q ← getSon p val
                pure (q, t)
              else do
                let (sons', t) ← mapAccL (cofactorSteps c var val f) sons (t.1, t.2 + sons.length)
                let r ← makeInternal c i sons'
                pure (r, (upd t.1 p (some r), t.2))

/-- diagram_manager.hpp:1617-1640 `get_cofactor(diagram, index, value)`. -/
def getCofactorCost (c : Cfg) (root : Ptr) (var val : Nat) : M (Ptr × Nat) := do
  match ← getKind root with
  | .leaf _ => do
      let d ← copyHandle root
      pure (d, 0)
  | .inner i _ =>
      if i = var then do
        let q ← getSon root val
        let d ← mkDiagram q
        pure (d, 0)
      else do
        let (r, t) ← cofactorSteps c var val (c.n + 1) root ((fun _ => none), 1)
        let d ← mkDiagram r
        runDeferred c
        pure (d, t.2)

/-- diagram_manager.hpp:1716-1771 `get_cofactor_impl`, several variables; counts the calls this call makes. -/
def cofactorsSteps (c : Cfg) (vars : List (Nat × Nat)) : Nat → Nat → Ptr → Memo × Nat → M (Ptr × (Memo × Nat))
  | 0, _, _, _ => throw .fuel
  | f + 1, todo, p, t => do
      if todo = 0 then pure (p, t)
      else match t.1 p with
      | some r => pure (r, t)
      | none => do
          match ← getKind p with
          | .leaf _ => pure (p, t)
          | .inner i sons =>
              match findVar vars i with
              | some val => do
                  let q ← getSon p val
                  let (r, t) ← cofactorsSteps c vars f (todo - 1) q (t.1, t.2 + 1)
                  pure (r, (upd t.1 p (some r), t.2))
              | none => do
                  let (sons', t) ← mapAccL (cofactorsSteps c vars f todo) sons (t.1, t.2 + sons.length)
                  let r ← makeInternal c i sons'
                  pure (r, (upd t.1 p (some r), t.2))

/-- diagram_manager.hpp:1642-1676 `get_cofactor(diagram, vars)`. -/
def getCofactorsCost (c : Cfg) (root : Ptr) (vars : List (Nat × Nat)) : M (Ptr × Nat) := do
  match ← getKind root with
  | .leaf _ => do
      let d ← copyHandle root
      pure (d, 0)
  | .inner i _ => do
      let (start, todo) ← (match findVar vars i with
        | some val => do
            let q ← getSon root val
            pure (q, vars.length - 1)
        | none => pure (root, vars.length) : M (Ptr × Nat))
      let (r, t) ← cofactorsSteps c vars (c.n + 1) todo start ((fun _ => none), 1)
      let d ← mkDiagram r
      runDeferred c
      pure (d, t.2)

/-- diagram_manager.hpp:1617-1830, 1869-1874: the call, with the number of calls of the recursive function; only `transform`,
`negate`, `reduce` and `get_cofactor` are counted. -/
def execSteps (c : Cfg) : Call → SM World (Out × Nat)
  | .transform t a => do
      let p ← rootOf a
      let r ← onMgr (transformCost c t p)
      let o ← push r.1
      pure (o, r.2)
  | .negate a => do
      let p ← rootOf a
      let r ← onMgr (transformCost c (fun v => 1 - v) p)
      let o ← push r.1
      pure (o, r.2)
  | .reduce a => do
      let p ← rootOf a
      let r ← onMgr (transformCost c (fun v => v) p)
      let o ← push r.1
      pure (o, r.2)
  | .cofactor a i v => do
      let p ← rootOf a
      let r ← onMgr (getCofactorCost c p i v)
      let o ← push r.1
      pure (o, r.2)
  | .cofactors a vars => do
      let p ← rootOf a
      let r ← onMgr (getCofactorsCost c p vars)
      let o ← push r.1
      pure (o, r.2)
  | k => do
      let o ← exec c k
      pure (o, 0)

end Teddy
