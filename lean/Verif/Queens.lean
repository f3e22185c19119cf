import Verif.MakeDiagram

/-!
# The n-queens example (`examples/n_queens.cpp`)

The program is modelled call by call.  Field `(i, j)` of the board is variable `i * n + j`; the handle of its diagram
has the same number, because the handles of the board are the first ones (`board.push_back` moves a temporary into
the vector, which we do not model as two handles).
-/

namespace Teddy
namespace Queens

open SM Tsl

/-- `tmp = manager.apply<Op>(tmp, d)` (e.g. n_queens.cpp:48): the result is moved to `tmp` and the temporary
destroyed. -/
def assignApply (c : Cfg) (op : BinOp) (tmp d : Nat) : SM World Unit := do
  let e ← newSlot c (.apply op tmp d)
  let _ ← exec c (.move tmp e)
  let _ ← exec c (.drop e)

/-- `tmp = manager.apply<Op>(tmp, manager.negate(board[i]))` (e.g. n_queens.cpp:38-41). -/
def assignApplyNot (c : Cfg) (op : BinOp) (tmp i : Nat) : SM World Unit := do
  let d ← newSlot c (.negate i)
  assignApply c op tmp d
  let _ ← exec c (.drop d)

/-- The body of the loops over the fields (n_queens.cpp:34-48, 57-72, 81-98, 107-124): a queen on field `q` excludes
queens on the fields `others`. -/
def constraint (c : Cfg) (result : Nat) (others : List Nat) (q : Nat) : SM World Unit := do
  let tmp ← newSlot c (.constant 1)
  forL (assignApplyNot c Op.AND tmp) others
  assignApplyNot c Op.OR tmp q
  assignApply c Op.AND result tmp
  let _ ← exec c (.drop tmp)

/-- n_queens.cpp:35-43: the other fields of the row. -/
def rowOf (n i j : Nat) : List Nat := ((List.range n).filter fun k => j ≠ k).map fun k => i * n + k

/-- n_queens.cpp:58-67: the other fields of the column. -/
def colOf (n i j : Nat) : List Nat := ((List.range n).filter fun k => i ≠ k).map fun k => k * n + j

/-- n_queens.cpp:82-93: the other fields of the rising diagonal. -/
def risingOf (n i j : Nat) : List Nat :=
  ((List.range n).filter fun k => j + k ≥ i ∧ j + k < n + i ∧ k ≠ i).map fun k => k * n + (j + k - i)

/-- n_queens.cpp:108-119: the other fields of the falling diagonal. -/
def fallingOf (n i j : Nat) : List Nat :=
  ((List.range n).filter fun k => j + i ≥ k ∧ j + i < n + k ∧ k ≠ i).map fun k => k * n + (j + i - k)

/-- The fields of the board, by rows (the loops over `i` and `j`, n_queens.cpp:30-32). -/
def fields (n : Nat) : List (Nat × Nat) := (List.range n).flatMap fun i => (List.range n).map fun j => (i, j)

/-- The fields of the board, by columns (n_queens.cpp:53-55). -/
def fieldsByCol (n : Nat) : List (Nat × Nat) := (List.range n).flatMap fun j => (List.range n).map fun i => (i, j)

/-- n_queens.cpp:130-137: one queen in row `i`. -/
def placeRow (c : Cfg) (n result i : Nat) : SM World Unit := do
  let tmp ← newSlot c (.constant 0)
  forL (fun j => assignApply c Op.OR tmp (i * n + j)) (List.range n)
  assignApply c Op.AND result tmp
  let _ ← exec c (.drop tmp)

/-- n_queens.cpp:15-138: the settings, the board, and the diagram of all solutions; returns its handle. -/
def solve (c : Cfg) (n : Nat) : SM World Nat := do
  let _ ← exec c (.setCacheRatio 2 1)
  let _ ← exec c (.setGcRatio 30 100)
  let _ ← variablesD c (List.range (n * n))
  let result ← newSlot c (.constant 1)
  forL (fun t => constraint c result (rowOf n t.1 t.2) (t.1 * n + t.2)) (fields n)
  forL (fun t => constraint c result (colOf n t.1 t.2) (t.1 * n + t.2)) (fieldsByCol n)
  forL (fun t => constraint c result (risingOf n t.1 t.2) (t.1 * n + t.2)) (fields n)
  forL (fun t => constraint c result (fallingOf n t.1 t.2) (t.1 * n + t.2)) (fields n)
  forL (placeRow c n result) (List.range n)
  pure result

/-- n_queens.cpp:146-151: the two numbers printed. -/
def report (c : Cfg) (n : Nat) : SM World (Out × Out) := do
  let result ← solve c n
  let nodes ← exec c (.nodeCountOf result)
  let solutions ← exec c (.satisfyCount 1 result)
  pure (nodes, solutions)

end Queens
end Teddy
