import Verif.Spec

/-!
# Graphs in the DOT language

What `to_dot_graph` prints, and how a reader finds the value of a function in the picture: start at the node nothing
points to; at a circle labelled `x3` follow the arc for the value of variable 3; a square shows the value.
-/

namespace Teddy

/-- The contents of a printed graph. -/
structure Dot where
  /-- number, label and tooltip -/
  nodes : List (Nat × String × Nat)
  /-- the nodes printed as squares -/
  squares : List Nat
  /-- source, target and attribute -/
  arcs : List (Nat × Nat × String)
  /-- the nodes of each level -/
  ranks : List (List Nat)
deriving DecidableEq

namespace Dot

/-- The text of the graph (node_manager.hpp:1131-1133, 1138-1144, 1153-1164, 1172-1197). -/
def text (g : Dot) : String :=
  "digraph DD {\n" ++
  "    node [shape = square] " ++ " ".intercalate (g.squares.map toString) ++ ";\n" ++
  "    node [shape = circle];\n\n" ++
  "    " ++ "\n    ".intercalate (g.nodes.map fun (id, label, tip) =>
    toString id ++ " [label = \"" ++ label ++ "\", tooltip = \"" ++ toString tip ++ "\"];") ++ "\n\n" ++
  "    " ++ "\n    ".intercalate (g.arcs.map fun (a, b, attr) =>
    toString a ++ " -> " ++ toString b ++ " [" ++ attr ++ "];") ++ "\n\n" ++
  "".intercalate ((g.ranks.filter fun r => !r.isEmpty).map fun r =>
    "    { rank = same; " ++ " ".intercalate (r.map fun id => toString id ++ ";") ++ " }\n") ++
  "\n}\n"

/-- The label of variable `i`. -/
def varText (i : Nat) : String := "x" ++ toString i

/-- The label of a terminal. -/
def valueText (v : Int) : String := if v = Undefined then "*" else toString v

/-- The attribute of the arc for value `k`: dashed and solid lines in binary diagrams, numbers otherwise. -/
def arcText (binary : Bool) (k : Nat) : String :=
  if binary then (if k = 0 then "style = dashed" else "style = solid") else "label = " ++ toString k

/-- The numbers of the nodes. -/
def ids (g : Dot) : List Nat := g.nodes.map fun t => t.1

/-- Following the arcs for the values in `x`, a reader who starts at node `id` ends at a square labelled `l`. -/
inductive Follows (g : Dot) (binary : Bool) (x : Asg) : Nat → String → Prop
  | square {id tip : Nat} {l : String} : (id, l, tip) ∈ g.nodes → id ∈ g.squares → Follows g binary x id l
  | arc {id id' tip i : Nat} {l : String} : (id, varText i, tip) ∈ g.nodes → id ∉ g.squares →
      (id, id', arcText binary (x i)) ∈ g.arcs → Follows g binary x id' l → Follows g binary x id l

/-- `root` is the only node no arc points to. -/
def IsRoot (g : Dot) (root : Nat) : Prop :=
  root ∈ g.ids ∧ ∀ id ∈ g.ids, (∀ a ∈ g.arcs, a.2.1 ≠ id) ↔ id = root

end Dot
end Teddy
