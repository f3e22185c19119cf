import Verif.Demo
import Verif.ProgramSpec

/-!
# Properties that do not hold

Complete programs, evaluated by the kernel, on which the code (and the model) violates a property.
Each theorem states what the program returns; the comment says what it ought to return.
-/

namespace Teddy

deriving instance DecidableEq for Out
deriving instance DecidableEq for Except

namespace Properties

open Spec

/-- A `bdd_manager` of two variables. -/
def bdd2 (pool extra : Nat) : Setup where
  c := { n := 2, dom := fun _ => 2, fixedDom := some 2, asserts := true, extra := extra
         hash := List.sum, chash := fun a b d => a + b + d, addr := id }
  pool := pool
  order := [0, 1]
  Γ := shipped 2

/-- **C20.** `apply<PLUS<2>>(x0, 1)` and then `apply<PLUS<3>>(x0, 1)`: the second is answered with the
cached result of the first.  At x0 = 1 the second diagram ought to have value (1 + 1) mod 3 = 2; it
evaluates to 0. -/
theorem C20_violated :
    run mdd3 [.variableD 0, .constant 1, .apply (Op.PLUS 2) 0 1, .apply (Op.PLUS 3) 0 1,
      .evaluate 3 (fun _ => 1)] = .ok [.slot 0, .slot 1, .slot 2, .slot 3, .int 0] ∧
    (Op.PLUS 3).val 1 1 = 2 := by decide +kernel

/-- Alone, the second call is right. -/
theorem C20_violated_alone :
    run mdd3 [.variableD 0, .constant 1, .apply (Op.PLUS 3) 0 1,
      .evaluate 2 (fun _ => 1)] = .ok [.slot 0, .slot 1, .slot 2, .int 2] := by decide +kernel

/-- **C21.** `apply<PLUS<2>>(x0, x1)` overflows a signed integer. -/
theorem C21_violated :
    run mdd3 [.variableD 0, .variableD 1, .apply (Op.PLUS 2) 0 1] = .error .overflow := by
  decide +kernel

/-- **C24.** `from_expression_tree` leaves marks on operands; a later `satisfy_count` of x0 ∧ x1 then
answers 0 instead of 1. -/
theorem C24_violated :
    run (bdd2 100 50) [.variableD 0, .variableD 1, .apply Op.AND 0 1,
      .fromExpr (.op min (.var 1) (.const 0)), .satisfyCount 1 2] =
      .ok [.slot 0, .slot 1, .slot 2, .slot 3, .int 0] ∧
    countValue 2 (fun _ => 2) (fun x => Op.AND.val (x 0) (x 1)) 1 = 1 := by decide +kernel

/-- The same without the expression tree. -/
theorem C24_violated_alone :
    run (bdd2 100 50) [.variableD 0, .variableD 1, .apply Op.AND 0 1, .satisfyCount 1 2] =
      .ok [.slot 0, .slot 1, .slot 2, .int 1] := by decide +kernel

/-- A `from_expression_tree` call on a manager that already holds x0, x1 and x0 ∧ x1. -/
def marksProgram (k : Call) : List Call :=
  [.variableD 0, .variableD 1, .apply Op.AND 0 1, .fromExpr (.op min (.var 1) (.const 0)), k]

/-- The same without the `from_expression_tree` call. -/
def marksProgramAlone (k : Call) : List Call := [.variableD 0, .variableD 1, .apply Op.AND 0 1, k]

/-- **C08.** After `from_expression_tree`, `satisfy_count` of x0 ∧ x1 answers 0 instead of 1. -/
theorem C08_violated :
    run (bdd2 100 50) (marksProgram (.satisfyCount 1 2)) =
      .ok [.slot 0, .slot 1, .slot 2, .slot 3, .int 0] ∧
    countValue 2 (fun _ => 2) (fun x => Op.AND.val (x 0) (x 1)) 1 = 1 := by decide +kernel

/-- **C22.** … `get_dependency_set` of x0 ∧ x1 misses x1. -/
theorem C22_violated :
    run (bdd2 100 50) (marksProgram (.dependencySet 2)) =
      .ok [.slot 0, .slot 1, .slot 2, .slot 3, .nats [0]] ∧
    run (bdd2 100 50) (marksProgramAlone (.dependencySet 2)) =
      .ok [.slot 0, .slot 1, .slot 2, .nats [0, 1]] := by decide +kernel

/-- **C23.** … `get_node_count` of x0 ∧ x1 answers 2 instead of 4. -/
theorem C23_violated :
    run (bdd2 100 50) (marksProgram (.nodeCountOf 2)) =
      .ok [.slot 0, .slot 1, .slot 2, .slot 3, .nat 2] ∧
    run (bdd2 100 50) (marksProgramAlone (.nodeCountOf 2)) =
      .ok [.slot 0, .slot 1, .slot 2, .nat 4] := by decide +kernel

/-- **C16.** The only handle is destroyed and garbage collected, but three nodes stay in use. -/
theorem C16_violated :
    run (bdd2 100 50) [.fromExpr (.op min (.var 1) (.const 0)), .drop 0, .forceGc, .nodeCount] =
      .ok [.slot 0, .unit, .unit, .nat 3] := by decide +kernel

/-- **C36.** … `structural_importance` of x0 ∧ x1 reads data never written instead of answering 1/4. -/
theorem C36_violated :
    run (bdd2 100 50) (marksProgram (.structuralImportance 2)) = .error .uninit ∧
    run (bdd2 100 50) (marksProgramAlone (.structuralImportance 2)) =
      .ok [.slot 0, .slot 1, .slot 2, .rat (1 / 4)] := by decide +kernel

/-- **C37.** `bdd_manager(2, 4)`: a pool of 4 nodes, extra pools of 2.  The garbage collection
threshold is `4 / 5 = 0` nodes, so the pool is never extended and a fifth node overruns it. -/
theorem C37_violated :
    run (bdd2 4 2) [.variableD 0, .variableD 1, .apply Op.XOR 0 1] = .error .poolOverrun := by
  decide +kernel

/-- **C43.** A manager with one variable. -/
theorem C43_violated_one (c : Cfg) (pool : Nat) (h : c.n = 1) :
    construct c pool [0] = .error .divZero := by
  unfold construct
  simp [h, checkDistinct]

/-- **C43.** A manager with no variables, assertions enabled. -/
theorem C43_violated_none (c : Cfg) (pool : Nat) (h : c.n = 0) (ha : c.asserts = true) :
    construct c pool [] = .error .assertion := by
  unfold construct
  simp [h, ha, checkDistinct]

/-- A `bdd_manager` of five variables. -/
def bdd5 (pool extra : Nat) : Setup where
  c := { n := 5, dom := fun _ => 2, fixedDom := some 2, asserts := true, extra := extra
         hash := List.sum, chash := fun a b d => a + b + d, addr := id }
  pool := pool
  order := [0, 1, 2, 3, 4]
  Γ := shipped 2

/-- **C19.** `f = x1 xor x2`, `g = x0 xor f`, `f` is destroyed, `force_reorder()` frees its node and
gives it to another function, and then `apply<XOR>(x1, x2)` is answered from the operation cache,
which still names that node.  At x1 = 1, x2 = 0 the answer ought to be 1; it is 0. -/
theorem C19_violated :
    run { bdd3 with order := [0, 1, 2] }
      [.variableD 0, .variableD 1, .variableD 2, .apply Op.XOR 1 2, .apply Op.XOR 0 3, .drop 3,
        .forceReorder, .apply Op.XOR 1 2, .evaluate 5 (fun i => if i = 1 then 1 else 0)] =
      .ok [.slot 0, .slot 1, .slot 2, .slot 3, .slot 4, .unit, .nats [1, 0, 2], .slot 5, .int 0] ∧
    Op.XOR.val 1 0 = 1 := by decide +kernel

/-- With `clear_cache()` after the reordering the answer is right. -/
theorem C19_violated_cleared :
    run { bdd3 with order := [0, 1, 2] }
      [.variableD 0, .variableD 1, .variableD 2, .apply Op.XOR 1 2, .apply Op.XOR 0 3, .drop 3,
        .forceReorder, .clearCache, .apply Op.XOR 1 2,
        .evaluate 5 (fun i => if i = 1 then 1 else 0)] =
      .ok [.slot 0, .slot 1, .slot 2, .slot 3, .slot 4, .unit, .nats [1, 0, 2], .unit, .slot 5,
        .int 1] := by decide +kernel

/-- **C73.** `satisfy_one<std::array<int, 3>>(1, x0)`: the array, here full of sevens, is not initialised; the
positions of x1 and x2, which are Boolean, stay as they were. -/
theorem C73_violated :
    (match construct bdd3.c bdd3.pool bdd3.order with
     | .ok m => match (do
         let _ ← exec bdd3.c (.variableD 0)
         let p ← rootOf 0
         onMgr (satisfyOneInto bdd3.c 1 (fun _ => 7) p) : SM World _) ⟨m, []⟩ with
       | .ok (r, _) => r
       | .error _ => none
     | .error _ => none) = some [1, 7, 7] := by decide +kernel

/-- The program of `C45_violated`: x2 xor x3 is computed, destroyed and computed again; in between
`variable(4)` extends the node pool and so schedules a reordering, which runs inside the last
`apply`, between the computation of the result and the creation of its handle. -/
def autoProgram (b : Bool) : List Call :=
  [.setAutoReorder b, .variableD 0, .variableD 1, .variableD 2, .variableD 3, .apply Op.XOR 2 3,
    .apply Op.AND 1 4, .apply Op.OR 0 5, .drop 4, .drop 5, .variableD 4, .apply Op.XOR 2 3,
    .evaluate 8 (fun i => if i = 2 then 1 else 0)]

/-- **C45.** With automatic reordering the result of `apply<XOR>(x2, x3)` is freed before it gets a
handle.  At x2 = 1, x3 = 0 it ought to be 1; it is 0. -/
theorem C45_violated :
    run (bdd5 10 5) (autoProgram true) =
      .ok [.unit, .slot 0, .slot 1, .slot 2, .slot 3, .slot 4, .slot 5, .slot 6, .unit, .unit,
        .slot 7, .slot 8, .int 0] ∧
    Op.XOR.val 1 0 = 1 := by decide +kernel

/-- The same program without automatic reordering. -/
theorem C45_violated_off :
    run (bdd5 10 5) (autoProgram false) =
      .ok [.unit, .slot 0, .slot 1, .slot 2, .slot 3, .slot 4, .slot 5, .slot 6, .unit, .unit,
        .slot 7, .slot 8, .int 1] := by decide +kernel

/-- Equal probabilities of two values. -/
def half : Nat → Nat → Rat := fun _ _ => 1 / 2

/-- **C29.** The terminal `Undefined` is not reset by `calculate_probability`, its data member is read
although nothing was ever written to it. -/
theorem C29_violated :
    run { mdd3 with c := { mdd3.c with dom := fun _ => 2 } }
      [.variableD 0, .dpld ⟨0, 1, 0⟩ (Dpld.basic 1 0) 0, .toDpldE 1 0 1,
        .calculateProbability 1 half 2] = .error .uninit := by decide +kernel

/-- **C29.** Probability of a negative state (it ought to be zero): the table of terminals is indexed
out of range. -/
theorem C29_violated_negative :
    run { mdd3 with c := { mdd3.c with dom := fun _ => 2 } }
      [.variableD 0, .calculateProbability (-1) half 0] = .error .outOfRange := by decide +kernel

/-- Construct a manager, run a program on it and then read something. -/
def runThen (P : Setup) (ks : List Call) (m : M Rat) : Except Err Rat :=
  match construct P.c P.pool P.order with
  | .ok s => match execAll P.c ks ⟨s, []⟩ with
    | .ok (_, w) => match onMgr m w with
      | .ok (q, _) => .ok q
      | .error e => .error e
    | .error e => .error e
  | .error e => .error e

/-- **C31.** A terminal made after `calculate_probabilities` has no data yet; `get_availability(0)` reads
it.  Without the call of `constant` the answer is 1. -/
theorem C31_violated :
    runThen { mdd3 with c := { mdd3.c with dom := fun _ => 2 } }
      [.variableD 0, .calculateProbabilities half 0, .constant 2] (getAvailability 0) =
      .error .uninit ∧
    runThen { mdd3 with c := { mdd3.c with dom := fun _ => 2 } }
      [.variableD 0, .calculateProbabilities half 0] (getAvailability 0) = .ok 1 := by decide +kernel

/-- **C30.** `satisfy_count` between `calculate_probabilities` and `get_probability` overwrites the
probabilities: the probability of x0 = 1 ought to be 1/2. -/
theorem C30_violated :
    runThen { mdd3 with c := { mdd3.c with dom := fun _ => 2 } }
      [.variableD 0, .calculateProbabilities half 0, .satisfyCountData 1 0] (getProbability 1) =
      .ok 1 := by decide +kernel

/-- **C33.** On a manager with a fixed domain and assertions enabled, `to_dpld_e` fails the assertion of
`make_terminal_node`, which tests the value before it tests whether it is special. -/
theorem C33_violated :
    run bdd3 [.variableD 0, .dpld ⟨0, 1, 0⟩ (Dpld.basic 1 0) 0, .toDpldE 1 0 1] =
      .error .assertion := by decide +kernel

/-- **C33.** `to_dpld_e(0, 0, x0)`: the diagram tests the variable itself.  At x0 = 1 the result ought
to be undefined; it is 1. -/
theorem C33_violated_dependent :
    run mdd3 [.variableD 0, .toDpldE 0 0 0, .evaluate 1 (fun _ => 1)] =
      .ok [.slot 0, .slot 1, .int 1] := by decide +kernel

/-- **C34.** `mcvs` on a manager with a fixed domain and assertions enabled. -/
theorem C34_violated :
    run bdd3 [.variableD 0, .mcvs 1 0] = .error .assertion := by decide +kernel

/-- **C35.** `mpvs(max(x0, x1), 1)` returns the minimal cut vector 0, 0, 1.  The minimal path vectors
are 1, 0, 0 and 0, 1, 0. -/
theorem C35_violated :
    run mdd3 [.variableD 0, .variableD 1, .apply Op.MAX 0 1, .mpvs 1 2] =
      .ok [.slot 0, .slot 1, .slot 2, .asgs [[0, 0, 1]]] ∧
    ((allAsg 3 mdd3.c.dom).filter fun x => MinPath 3 (fun x => Op.MAX.val (x 0) (x 1)) 1 x).map
      (toList 3) = [[0, 1, 0], [1, 0, 0]] := by decide +kernel

/-- The function that does write them is right. -/
theorem C35_violated_other :
    run mdd3 [.variableD 0, .variableD 1, .apply Op.MAX 0 1, .mpvsG 1 2] =
      .ok [.slot 0, .slot 1, .slot 2, .asgs [[0, 1, 0], [1, 0, 0]]] := by decide +kernel

/-- **C35.** The only minimal path vector of a constant 1 is 0, 0, 0; it is not listed. -/
theorem C35_violated_worst :
    run mdd3 [.constant 1, .mpvsG 1 0] = .ok [.slot 0, .asgs []] := by decide +kernel

/-- **C26.** `from_pla` on a file with one line, two don't cares and output 1: the product of no literals
is folded over an empty range.  The diagram ought to be the constant 1. -/
theorem C26_violated :
    Pla.loadFile true (some (".i 2\n.o 1\n.p 1\n-- 1\n").toList) =
      .ok (some ⟨[⟨⟨2, [⟨3, 3, 0, 0⟩]⟩, ⟨1, [⟨1, 0, 0, 0⟩]⟩⟩], [], []⟩) ∧
    run (bdd2 100 50) [.fromPla ⟨[⟨⟨2, [⟨3, 3, 0, 0⟩]⟩, ⟨1, [⟨1, 0, 0, 0⟩]⟩⟩], [], []⟩ false] =
      .error .emptyRange := by decide +kernel

/-- **C26.** `from_pla` on a file without lines reads the first element of an empty vector. -/
theorem C26_violated_lines :
    run (bdd2 100 50) [.fromPla ⟨[], [], []⟩ false] = .error .emptyRange := by decide +kernel

/-- A `bdd_manager` of `n` variables in the order 0, 1, …. -/
def bddN (n pool extra : Nat) : Setup where
  c := { n := n, dom := fun _ => 2, fixedDom := some 2, asserts := true, extra := extra
         hash := List.sum, chash := fun a b d => a + b + d, addr := id }
  pool := pool
  order := List.range n
  Γ := shipped 2

/-- **C08.** The constant 0 in a manager of 64 binary variables has no assignment with value 1, yet
`satisfy_count(1, d)` computes 1 << 64. -/
theorem C08_violated_shift :
    run (bddN 64 100 50) [.constant 0, .satisfyCount 1 0] = .error .overflow := by decide +kernel

/-- The structure function x1 x2 ∨ x3 x1 ∨ x3 x0. -/
def sys4 : List Int := [0, 0, 0, 0, 0, 1, 1, 1, 0, 1, 0, 1, 0, 1, 1, 1]

/-- The derivative of `sys4` with respect to the change of x3 from 1 to 0. -/
def sys4' : Asg → Int := fun x => if (x 1 = 1 ∨ x 0 = 1) ∧ ¬(x 1 = 1 ∧ x 2 = 1) then 1 else 0

/-- **C54.** `fussell_vesely_importance` of a coherent system: the derivative with respect to the change of
x3 from 1 to 0 is `sys4'`, the vectors below one where it is 1 are those with x1 = 0 or x2 = 0, 3/4 of all.
The answer ought to be 1/2 · 3/4 / 1 = 3/8; it is 5/16. -/
theorem C54_violated :
    run (bddN 4 200 100) [.fromVector sys4, .dpld ⟨3, 1, 0⟩ (Dpld.basic 1 0) 0, .toVector 1,
      .fussellVesely half 1 1 3 1] =
      .ok [.slot 0, .slot 1, .ints (truthVector (fun _ => 2) [0, 1, 2, 3] sys4'), .rat (5 / 16)] ∧
    probability 4 (fun _ => 2) half (fun x => decide (Covered 4 (fun _ => 2) sys4' x)) = 3 / 4 := by
  decide +kernel

/-- A function of six variables. -/
def sys6 : Asg → Int := fun x =>
  if x 0 = 0 then (if x 2 = 0 ∧ x 3 = 0 ∧ x 5 = 0 then 1 else 0)
  else if x 1 = 0 ∧ (x 2 = 1 ∨ (x 3 = 0 ∧ x 4 = 1 ∧ x 5 = 0)) then 1 else 0

/-- **C54.** `fussell_vesely_importance` of `sys6` reads data never written: the transformation of the
diagram leaves marks on nodes it drops. -/
theorem C54_violated_marks :
    run (bddN 6 200 100) [.fromVector (truthVector (fun _ => 2) (List.range 6) sys6),
      .fussellVesely half (1 / 2) 1 0 0] = .error .uninit := by decide +kernel

/-- **C59.** x1, x0 ∧ x1 and ¬x1 have 5 nodes with the order 0, 1.  `force_reorder()` chooses the order 1, 0 with 6
nodes, and 6 are needed: reducing all diagrams and collecting garbage does not help. -/
theorem C59_violated :
    run (bdd2 100 50) ([.variableD 1, .fromVector [0, 0, 0, 1], .negate 0, .forceGc, .nodeCount, .forceReorder,
        .nodeCount] ++ reduceAll 3 [0, 1, 2] ++ [.nodeCount]) =
      .ok [.slot 0, .slot 1, .slot 2, .unit, .nat 5, .nats [1, 0], .nat 6,
        .slot 3, .unit, .slot 4, .unit, .slot 5, .unit, .unit, .nat 6] := by decide +kernel

/-- **C59.** x1 and x0 ∧ x1 have 4 nodes.  `force_reorder()` leaves the order as it is, but there are 5 nodes
afterwards: the node of x1 has become a redundant node above a new one. -/
theorem C59_violated_same_order :
    run (bdd2 100 50) [.variableD 1, .fromVector [0, 0, 0, 1], .forceGc, .nodeCount, .nodeCountOf 0, .forceReorder,
        .forceGc, .nodeCount, .nodeCountOf 0] =
      .ok [.slot 0, .slot 1, .unit, .nat 4, .nat 3, .nats [0, 1], .unit, .nat 5, .nat 4] := by decide +kernel

end Properties
end Teddy
