import Verif.Proofs.CostApply
import Verif.Properties.Diagrams
import Verif.Properties.Violations

/-!
# C88: how many calls apply makes

A step is a call of the recursive function, `apply_impl`.
-/

namespace Teddy
namespace Properties

open SM Spec

variable {P : Setup} {w w' : World} {σ : SState} {o : Out}

/-- The counter of steps changes nothing: a call with the counter succeeds whenever the call without it does, with the same
result and the same effect. -/
theorem C88_counter (c : Cfg) (k : Call) (w w' : World) (o : Out) :
    exec c k w = .ok (o, w') ↔ ∃ n, execApplySteps c k w = .ok ((o, n), w') :=
  ⟨of_fst (execApplySteps_fst c k), fun ⟨_, e⟩ => to_fst (execApplySteps_fst c k) e⟩

private theorem treeSize_eq (D : Nat) : ∀ f, treeSize D f = ((List.range f).map (D ^ ·)).sum
  | 0 => rfl
  | f + 1 => by
      rw [treeSize, treeSize_eq D f, List.range_succ_eq_map, List.map_cons, List.sum_cons, List.map_map,
        ← List.sum_map_mul_left, Nat.pow_zero]
      simp [Function.comp_def, Nat.pow_succ']

/-- `apply<Op>(a, b)` makes at most 1 + D + D² + … + Dⁿ steps, where `n` is the number of variables and `D` bounds the
domains; with automatic reordering or without.

Missing for the full property: the bound by the product of the numbers of nodes, which is false (`C88_violated`). -/
theorem C88_apply_partial (hP : P.OK) (h : Reachable P w σ) (hcache : σ.cacheOK = true) {op : BinOp}
    (hΓ : P.Γ (opType P.c op).id = opType P.c op) {a b : Nat} {f g : Asg → Int}
    (ha : Denotes P w a f) (hb : Denotes P w b g) (hop : OpOK P.c (opType P.c op) (Range P.c f) (Range P.c g))
    (e : exec P.c (.apply op a b) w = .ok (o, w')) :
    ∃ m, execApplySteps P.c (.apply op a b) w = .ok ((o, m), w') ∧
      ∀ D, (∀ i, i < P.c.n → P.c.dom i ≤ D) → m ≤ ((List.range (P.c.n + 1)).map (D ^ ·)).sum := by
  have R := reachable_rel hP h
  obtain ⟨f', hf, e1⟩ := R.of_denotes ha
  obtain ⟨g', hg, e2⟩ := R.of_denotes hb
  obtain ⟨p, hp, hd⟩ := R.has a f' hf
  obtain ⟨q, hq, hd'⟩ := R.has b g' hg
  obtain ⟨m, em⟩ := (C88_counter _ _ _ _ _).1 e
  refine ⟨m, em, fun D hD => ?_⟩
  rw [← treeSize_eq]
  simp only [execApplySteps] at em
  rw [bind_ok (rootOf_ok hp), bind_ok (rootOf_ok hq)] at em
  obtain ⟨d, s', e3⟩ := making_count em
  refine applyCost_le (E := envOf P σ) (ext := extW w) (op := op) hΓ hcache hD R.good
    (.root (.inr (.inl (extL_pos hp)))) (.root (.inr (.inl (extL_pos hq)))) ?_ e3
  refine hop.mono (fun v hv => ?_) (fun v hv => ?_)
  · rw [← e1.range]; exact (leafVal_iff R.good (R.used hp) hd).1 hv
  · rw [← e2.range]; exact (leafVal_iff R.good (R.used hq) hd').1 hv

/-- x0 xor x1, in a manager that already holds x0, x1 and x0 ∧ x1: at most 15 steps. -/
example : ∃ w σ o w' m, Reachable bdd3 w σ ∧ execApplySteps bdd3.c (.apply Op.XOR 0 1) w = .ok ((o, m), w') ∧ m ≤ 15 := by
  obtain ⟨w, h⟩ := bdd3_world
  have R := reachable_rel bdd3_ok h
  have hop := opOK_XOR (c := bdd3.c) term1_bdd3 (bits_x (P := bdd3) (i := 0) (by decide) rfl)
    (bits_x (P := bdd3) (i := 1) (by decide) rfl)
  obtain ⟨w', e, -⟩ := C01_apply_partial bdd3_ok h rfl rfl (op := Op.XOR) rfl (R.denotes (a := 0) rfl) (R.denotes (a := 1) rfl) hop
  obtain ⟨m, em, hm⟩ := C88_apply_partial bdd3_ok h rfl (op := Op.XOR) rfl (R.denotes (a := 0) rfl) (R.denotes (a := 1) rfl) hop e
  exact ⟨w, _, _, w', m, h, em, hm 2 fun _ _ => Nat.le_refl 2⟩

/-- A `bdd_manager` of five variables whose nodes lie at addresses that all belong to one slot of the cache of `apply`. -/
def oneSlot : Setup where
  c := { (bddN 5 100 50).c with chash := fun _ _ _ => 0 }
  pool := 100
  order := List.range 5
  Γ := shipped 2

/-- x0 xor x1 xor x2 xor x3 xor x4, then the constant 1: slots 8 and 9. -/
def parityCalls : List Call :=
  [.variableD 0, .variableD 1, .variableD 2, .variableD 3, .variableD 4, .apply Op.XOR 0 1, .apply Op.XOR 5 2, .apply Op.XOR 6 3, .apply Op.XOR 7 4,
    .constant 1]

/-- The numbers of nodes of the two diagrams and the number of steps of `apply<XOR>` on them. -/
def parityCost (P : Setup) : Option (Nat × Nat × Nat) :=
  match construct P.c P.pool P.order with
  | .error _ => none
  | .ok m => match execAll P.c parityCalls ⟨m, []⟩ with
    | .error _ => none
    | .ok (_, w) => match exec P.c (.nodeCountOf 8) w, exec P.c (.nodeCountOf 9) w,
        execApplySteps P.c (.apply Op.XOR 8 9) w with
      | .ok (.nat k, _), .ok (.nat l, _), .ok ((_, m), _) => some (k, l, m)
      | _, _, _ => none

/-- **C88.** Diagrams with 11 nodes and 1 node, binary variables, 63 steps: more than 1 + 2 · 11 · 1, and as many as
`C88_apply_partial` allows.  The cache of `apply` keeps one result in each slot; every result overwrites the one before. -/
theorem C88_violated : parityCost oneSlot = some (11, 1, 63) ∧ 1 + 2 * (11 * 1) < 63 ∧
    63 = ((List.range (oneSlot.c.n + 1)).map (2 ^ ·)).sum := by decide +kernel

/-- With addresses that belong to different slots the same call takes 17 steps, those that find a result in the cache
included. -/
theorem C88_apart : parityCost (bddN 5 100 50) = some (11, 1, 17) := by decide +kernel

end Properties
end Teddy
