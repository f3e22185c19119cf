import Verif.World

/-!
# How much work the queries do

The documentation states how long `evaluate`, `satisfy_count`, `satisfy_one` and `satisfy_all` take
(diagram_manager.hpp:410, 426, 438, 456, 478).  The functions of this file are those of `Diagram.lean` with a counter:
the nodes `evaluate` looks at, the nodes `satisfy_count` computes a number for, the calls of `satisfy_one_impl` and
the calls of `satisfy_all_impl`.  A loop over sons or values makes one call in each iteration, so that it is counted as well.
Not counted: the computation of `domain_product` in `satisfy_count`, which is a loop over the skipped levels.
-/

namespace Teddy

/-- diagram_manager.hpp:1398-1415 `evaluate`; counts the nodes it looks at. -/
def evalCost : Nat → Ptr → Asg → M (Int × Nat)
  | 0, _, _ => throw .fuel
  | f + 1, p, x => do
      match ← getKind p with
      | .leaf v => pure (v, 1)
      | .inner i _ => do
          let q ← getSon p (x i)
          let r ← evalCost f q x
          pure (r.1, r.2 + 1)

/-- diagram_manager.hpp:1417-1485 `satisfy_count`; counts the calls of the visitor (1459-1479). -/
def satisfyCountCost (c : Cfg) (value : Int) (root : Ptr) : M (Int × Nat) := do
  assertValue c value
  let t ← traversePost c (fun p (t : (Ptr → Int) × Nat) => do
    let m ← satCountVisit c value p t.1
    pure (m, t.2 + 1)) root ((fun _ => 0), 0)
  let l ← getLevel c root
  let d ← domainProduct c 0 l
  let r ← liftE (fit64 (t.1 root * d))
  pure (r, t.2)

/-- diagram_manager.hpp:1525-1533: the loop of `satisfy_one_impl`; `n` calls have been made so far. -/
def firstSonCost (try_ : Ptr → Asg → Nat → M ((Bool × Asg) × Nat)) (i : Nat) :
    Nat → List Ptr → Asg → Nat → M ((Bool × Asg) × Nat)
  | _, [], x, n => pure ((false, x), n)
  | k, q :: qs, x, n => do
      let r ← try_ q (upd x i k) n
      if r.1.1 then pure ((true, r.1.2), r.2) else firstSonCost try_ i (k + 1) qs r.1.2 r.2

/-- diagram_manager.hpp:1510-1536 `satisfy_one_impl`; counts its calls, `n` have been made before this one. -/
def satOneCost (value : Int) : Nat → Ptr → Asg → Nat → M ((Bool × Asg) × Nat)
  | 0, _, _, _ => throw .fuel
  | f + 1, p, x, n => do
      match ← getKind p with
      | .leaf v => pure ((v == value, x), n + 1)
      | .inner i sons => firstSonCost (satOneCost value f) i 0 sons x (n + 1)

/-- diagram_manager.hpp:1487-1508 `satisfy_one<std::vector<int32>>`. -/
def satisfyOneCost (c : Cfg) (value : Int) (root : Ptr) : M (Option (List Nat) × Nat) := do
  assertValue c value
  let r ← satOneCost value (c.n + 1) root (fun _ => 0) 0
  pure (if r.1.1 then some ((List.range c.n).map r.1.2) else none, r.2)

/-- diagram_manager.hpp:1573-1615 `satisfy_all_impl`; counts its calls, `n` have been made before this one. -/
def satAllCost (c : Cfg) (value : Int) : Nat → Ptr → Nat → Asg → List (List Nat) → Nat →
    M ((Asg × List (List Nat)) × Nat)
  | 0, _, _, _, _, _ => throw .fuel
  | f + 1, p, level, x, out, n => do
      match ← getKind p with
      | .leaf v =>
          if value ≠ v then pure ((x, out), n + 1)
          else if level = c.n then pure ((x, out ++ [(List.range c.n).map x]), n + 1)
          else do
            let i ← getIndex c level
            foldL (fun k (t : (Asg × List (List Nat)) × Nat) =>
              satAllCost c value f p (level + 1) (upd t.1.1 i k) t.1.2 t.2) (List.range (c.dom i)) ((x, out), n + 1)
      | .inner j sons => do
          if level = c.n then throw .assertion
          let s ← get
          if s.idx2lvl j > level then do
            let i ← getIndex c level
            foldL (fun k (t : (Asg × List (List Nat)) × Nat) =>
              satAllCost c value f p (level + 1) (upd t.1.1 i k) t.1.2 t.2) (List.range (c.dom i)) ((x, out), n + 1)
          else
            foldL (fun (e : Ptr × Nat) (t : (Asg × List (List Nat)) × Nat) =>
              satAllCost c value f e.1 (level + 1) (upd t.1.1 j e.2) t.1.2 t.2)
              (sons.zip (List.range sons.length)) ((x, out), n + 1)

/-- diagram_manager.hpp:1538-1571 `satisfy_all`. -/
def satisfyAllCost (c : Cfg) (value : Int) (root : Ptr) : M (List (List Nat) × Nat) := do
  assertValue c value
  let r ← satAllCost c value (c.n + 1) root 0 (fun _ => 0) [] 0
  pure (r.1.2, r.2)

/-- The call, with the number of its steps; only the four queries are counted. -/
def execCost (c : Cfg) : Call → SM World (Out × Nat)
  | .evaluate a x => do
      let p ← rootOf a
      let r ← onMgr (evalCost (c.n + 1) p x)
      pure (.int r.1, r.2)
  | .satisfyCount v a => do
      let p ← rootOf a
      let r ← onMgr (satisfyCountCost c v p)
      pure (.int r.1, r.2)
  | .satisfyOne v a => do
      let p ← rootOf a
      let r ← onMgr (satisfyOneCost c v p)
      pure (.asg r.1, r.2)
  | .satisfyAll v a => do
      let p ← rootOf a
      let r ← onMgr (satisfyAllCost c v p)
      pure (.asgs r.1, r.2)
  | k => do
      let o ← exec c k
      pure (o, 0)

end Teddy
