import Verif.NodeManager

/-!
# What sifting is expected to do

The comment in front of `place_variable` (node_manager.hpp:1407-1408) says: tries to place the variable on
each level; in the end, restores the position with the lowest total number of nodes.
-/

namespace Teddy

/-- `Moves c i s l t`: variable `i` is moved from level to level, starting from the manager `s`; `l` lists the
managers after each move, and `t` is the last of them.  A move exchanges the variable with the one below it or
with the one above it (node_manager.hpp:1396-1405). -/
inductive Moves (c : Cfg) (i : Nat) : Mgr → List Mgr → Mgr → Prop
  | stop {s} : Moves c i s [] s
  | down {s t l e} : swapVariableWithNext c i s = .ok ((), t) → t.idx2lvl i = s.idx2lvl i + 1 →
      Moves c i t l e → Moves c i s (t :: l) e
  | up {s t l e} : swapVariableWithNext c (s.lvl2idx (s.idx2lvl i - 1)) s = .ok ((), t) →
      s.idx2lvl i = t.idx2lvl i + 1 → Moves c i t l e → Moves c i s (t :: l) e

/-- Variable `i` has been tried on each level, starting with the one it was on, and has got the position with
the lowest number of nodes; with several such positions, the one that was tried first.  `l` lists the managers
met on the way, with `s` itself; after it the variable is moved to the position of `best`. -/
def Placed (c : Cfg) (i : Nat) (s s' : Mgr) : Prop :=
  ∃ l e back, Moves c i s l e ∧ Moves c i e back s' ∧
    (∀ level, level < c.n → ∃ t ∈ s :: l, t.idx2lvl i = level) ∧
    ∃ before best after, s :: l = before ++ best :: after ∧
      (∀ t ∈ before, best.nodeCount < t.nodeCount) ∧ (∀ t ∈ after, best.nodeCount ≤ t.nodeCount) ∧
      ∀ k, k < c.n → s'.idx2lvl k = best.idx2lvl k

/-- The variables of a list are placed one after another. -/
inductive PlacedAll (c : Cfg) : List Nat → Mgr → Mgr → Prop
  | nil {s} : PlacedAll c [] s s
  | cons {i is s t u} : Placed c i s t → PlacedAll c is t u → PlacedAll c (i :: is) s u

end Teddy
