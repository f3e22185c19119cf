import Verif.World

/-!
# A transformer that throws

`transform` calls a function of the user for each value of the diagram (diagram_manager.hpp:1803).  When that function
throws, the exception leaves the recursion where it is: results made so far are not released, and the
node manager keeps the state it has.  The state of `M` is lost together with an error, so an exception is not an error of
`M` here; the functions of this file return `none` when the transformer threw.

Not modelled: on a manager with mixed domains the arrays of sons of the calls that the exception leaves are not released
(`make_son_container` allocates them, nobody else knows them).
-/

namespace Teddy

/-- `mapAccL` with a body that may be left by an exception. -/
def mapAccO {σ α β τ : Type} (f : α → τ → SM σ (Option (β × τ))) : List α → τ → SM σ (Option (List β × τ))
  | [], t => pure (some ([], t))
  | a :: l, t => do
      match ← f a t with
      | none => pure none
      | some (b, t1) => do
          match ← mapAccO f l t1 with
          | none => pure none
          | some (bs, t2) => pure (some (b :: bs, t2))

/-- diagram_manager.hpp:1787-1818 `transform_impl` with a transformer that throws where `g` is `none`. -/
def transformImplO (c : Cfg) (g : Int → Option Int) : Nat → Ptr → Memo → M (Option (Ptr × Memo))
  | 0, _, _ => throw .fuel
  | f + 1, p, m => do
      match m p with
      | some r => pure (some (r, m))
      | none => do
          match ← getKind p with
          | .leaf v => do
              match g v with
              | none => pure none
              | some u => do
                  let r ← makeTerminal c u
                  pure (some (r, m))
          | .inner i sons => do
              match ← mapAccO (transformImplO c g f) sons m with
              | none => pure none
              | some (sons', m) => do
                  let r ← makeInternal c i sons'
                  pure (some (r, upd m p (some r)))

/-- diagram_manager.hpp:1773-1785 `transform` with a transformer that throws where `g` is `none`. -/
def transformO (c : Cfg) (g : Int → Option Int) (root : Ptr) : M (Option Ptr) := do
  match ← transformImplO c g (c.n + 1) root (fun _ => none) with
  | none => pure none
  | some (r, _) => do
      runDeferred c
      let d ← mkDiagram r
      pure (some d)

/-- The call `transform(d, g)` of a program that catches what `g` throws.  `none`: an exception was caught. -/
def execTransform (c : Cfg) (g : Int → Option Int) (a : Nat) : SM World (Option Out) := do
  let p ← rootOf a
  match ← onMgr (transformO c g p) with
  | none => pure none
  | some r => do
      let o ← push r
      pure (some o)

end Teddy
