import Verif.WorldSpec

/-! # Whole programs

Programs without reordering: which are admissible, and when two runs give the same answers. -/

namespace Teddy

open Spec

/-- Construct a manager and run a program on it. -/
def run (P : Setup) (ks : List Call) : Except Err (List Out) :=
  match construct P.c P.pool P.order with
  | .ok m => match execAll P.c ks ⟨m, []⟩ with
    | .ok (os, _) => .ok os
    | .error e => .error e
  | .error e => .error e

/-- The caller's obligations for a program of calls other than `force_reorder`, which is run in state `σ`.  None of
these calls has an effect on the state that depends on its answer, hence `.unit`. -/
def AdmAll (P : Setup) : SState → List Call → Prop
  | _, [] => True
  | σ, k :: ks => k ≠ .forceReorder ∧ (Adm P σ k ∧ (k.defers = true → σ.auto = false)) ∧ AdmAll P (next P.c σ k .unit) ks

/-- The managers have the same variables, domains and order, and both check assertions or both do not.  They may
differ in the sizes of the node pools, in the hash functions of the unique tables and of the cache, and in the
addresses of the nodes. -/
structure SameManager (P P' : Setup) : Prop where
  n : P.c.n = P'.c.n
  dom : P.c.dom = P'.c.dom
  fixedDom : P.c.fixedDom = P'.c.fixedDom
  asserts : P.c.asserts = P'.c.asserts
  order : P.order = P'.order
  ops : P.Γ = P'.Γ

/-- `o` and `o'` are the same answer to call `k`: equal, except that a dependency set may be listed in another order,
that `get_node_count()` counts nodes not collected yet, and that a hash depends on addresses. -/
def SameAnswer (k : Call) (o o' : Out) : Prop :=
  match k with
  | .dependencySet _ => ∃ l l', o = .nats l ∧ o' = .nats l' ∧ l.Perm l'
  | .nodeCount | .hashOf _ => ∃ m m', o = .nat m ∧ o' = .nat m'
  | _ => o = o'

/-- The answers of two runs of the program `ks` are the same, call by call. -/
def SameAnswers : List Call → List Out → List Out → Prop
  | [], [], [] => True
  | k :: ks, o :: os, o' :: os' => SameAnswer k o o' ∧ SameAnswers ks os os'
  | _, _, _ => False

/-- Calls that concern the memory of the manager only: `force_gc()`, `clear_cache()` and the ratios. -/
def Call.isHousekeeping : Call → Bool
  | .forceGc | .clearCache | .setGcRatio _ _ | .setCacheRatio _ _ => true
  | _ => false

/-- The calls other than housekeeping. -/
def essential (ks : List Call) : List Call := ks.filter fun k => !k.isHousekeeping

/-- The answers to the calls other than housekeeping. -/
def essentialAnswers : List Call → List Out → List Out
  | k :: ks, o :: os => if k.isHousekeeping then essentialAnswers ks os else o :: essentialAnswers ks os
  | _, _ => []

end Teddy
