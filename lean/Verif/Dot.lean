import Verif.DotSpec
import Verif.World

/-!
# `to_dot_graph` (`node_manager.hpp`, `diagram_manager.hpp`)

The graph is collected in the same order as in the code and then printed by `Dot.text`.  The number of a node is its
address (`get_id_str`, node_manager.hpp:1101-1102).
-/

namespace Teddy

open SM

/-- node_manager.hpp:1089-1099 `make_label`. -/
def makeLabel : Kind → String
  | .leaf v => Dot.valueText v
  | .inner i _ => Dot.varText i

/-- node_manager.hpp:1126-1169: the visitor.  `binary` means that the degree is the constant 2
(`std::is_same_v<Degree, degrees::fixed<2>>`). -/
def dotVisit (c : Cfg) (binary : Bool) (p : Ptr) (g : Dot) : M Dot := do
  let level ← getLevel c p
  let k ← getKind p
  let s ← get
  let g := { g with nodes := g.nodes ++ [(c.addr p, makeLabel k, s.refs p)] }
  match k with
  | .leaf _ =>
      pure { g with squares := g.squares ++ [c.addr p]
                    ranks := g.ranks.modify c.n (· ++ [c.addr p]) }
  | .inner _ sons => do
      let g := { g with ranks := g.ranks.modify level (· ++ [c.addr p]) }
      foldL (fun (e : Ptr × Nat) (g : Dot) =>
        pure { g with arcs := g.arcs ++ [(c.addr p, c.addr e.1, Dot.arcText binary e.2)] })
        (sons.zip (List.range sons.length)) g

/-- node_manager.hpp:1119-1123: nothing collected yet. -/
def dotEmpty (c : Cfg) : Dot := ⟨[], [], [], List.replicate (c.n + 1) []⟩

/-- node_manager.hpp:698-709 `to_dot_graph(ost, node)`. -/
def toDot (c : Cfg) (binary : Bool) (root : Ptr) : M String := do
  let g ← traversePre c (dotVisit c binary) root (dotEmpty c)
  pure g.text

/-- The nodes met by iterating over the unique table of variable `i`; `for_each_node` calls `op` on the way, which changes no
chain. -/
def tableNodes (i : Nat) : M (List Ptr) := do
  let s ← get
  match Links.followAll s.link.next (s.next + 1) (s.link.head i) (List.range (s.tables i).cap) with
  | .ok l => pure l
  | .error e => throw e

/-- node_manager.hpp:763-793 `for_each_node`: the tables by index, then the terminals except the special one. -/
def forEachNode {τ : Type} (c : Cfg) (op : Ptr → τ → M τ) (t : τ) : M τ := do
  let s ← get
  let t ← foldL (fun i t => do foldL op (← tableNodes i) t) (List.range c.n) t
  foldL (fun o t => match o with
    | some p => op p t
    | none => pure t) s.terminals t

/-- node_manager.hpp:688-696 `to_dot_graph(ost)`. -/
def toDotAll (c : Cfg) (binary : Bool) : M String := do
  let g ← forEachNode c (dotVisit c binary) (dotEmpty c)
  pure g.text

/-- diagram_manager.hpp:1897-1904 `to_dot_graph(out, diagram)`. -/
def toDotOf (c : Cfg) (binary : Bool) (a : Nat) : SM World String := do
  let p ← rootOf a
  onMgr (toDot c binary p)

/-- diagram_manager.hpp:1890-1895 `to_dot_graph(out)`. -/
def toDotManager (c : Cfg) (binary : Bool) : SM World String := onMgr (toDotAll c binary)

end Teddy
