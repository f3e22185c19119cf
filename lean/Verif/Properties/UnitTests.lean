import Verif.Proofs.UnitTests
import Verif.Proofs.AutoVarSift
import Verif.Properties.Managers
import Verif.Properties.Iterators

/-!
# The unit tests of the library
-/

namespace Teddy
namespace Properties

open SM Spec Tsl Tests

/-! ### The fixtures -/

/-- The operations that the tests use. -/
def tested (M : Nat) : Nat → BinOp
  | 17 => Op.PLUSwrap 4
  | 18 => Op.MULTIPLIESwrap 4
  | k => shipped M k

/-- The manager of a fixture can be used for the tests. -/
theorem suitable_fixed (env : Surroundings) {M n pool : Nat} {order : List Nat} (hM : 2 ≤ M) (hM' : (M : Int) ≤ Nondetermined)
    (hP : Setup.OK ⟨fixedCfg env M n (pool / 2), pool, order, tested M⟩) (hc : CountFits (fixedCfg env M n (pool / 2))) :
    Suitable ⟨fixedCfg env M n (pool / 2), pool, order, tested M⟩ := by
  refine ⟨hP, fun _ _ => hM, fun _ _ => hM', hc, fun op h => ?_⟩
  simp only [List.mem_cons, List.not_mem_nil, or_false] at h
  rcases h with rfl | rfl | rfl | rfl | rfl | rfl | rfl | rfl | rfl | rfl | rfl | rfl | rfl <;> rfl

theorem suitable_mixed (env : Surroundings) {doms : List Nat} {pool : Nat} {order : List Nat}
    (hd : ∀ d ∈ doms, 2 ≤ d ∧ d ≤ 3) (hl : doms.length = 15)
    (hP : Setup.OK ⟨mixedCfg env doms 15 (pool / 2), pool, order, tested 3⟩) :
    Suitable ⟨mixedCfg env doms 15 (pool / 2), pool, order, tested 3⟩ := by
  have hi : ∀ i < 15, 2 ≤ doms.getD i 0 ∧ doms.getD i 0 ≤ 3 := by
    intro i hi
    have hi' : i < doms.length := by omega
    have e : doms.getD i 0 = doms[i] := by simp [hi']
    rw [e]
    exact hd _ (List.getElem_mem hi')
  refine ⟨hP, fun i h => (hi i h).1, fun i h => ?_, ?_, fun op h => ?_⟩
  · have := (hi i h).2
    show ((doms.getD i 0 : Nat) : Int) ≤ Nondetermined
    rw [nd_val]; omega
  · show ((List.range 15).map fun i => doms.getD i 0).prod ≤ 9223372036854775807
    have := List.prod_le_pow_card ((List.range 15).map fun i => doms.getD i 0) 3 (by
      intro x hx
      obtain ⟨i, h, rfl⟩ := List.mem_map.1 hx
      exact (hi i (List.mem_range.1 h)).2)
    simp only [List.length_map, List.length_range] at this
    omega
  · simp only [List.mem_cons, List.not_mem_nil, or_false] at h
    rcases h with rfl | rfl | rfl | rfl | rfl | rfl | rfl | rfl | rfl | rfl | rfl | rfl | rfl <;> rfl

/-- What a fixture provides. -/
structure Provides (env : Surroundings) (f : Fixture) (order : List Nat) (draw : Nat → Nat) (P : Setup)
    (terms : List (List Nat)) : Prop where
  suitable : Suitable P
  expr : MinMaxOK P.c.n terms
  drawn : f.expr env draw = .ok terms
  vars : P.c.n = f.vars
  dom : P.c.dom = f.dom
  fixed : ∀ m, P.c.fixedDom = some m → f.maxValue ≤ m
  builds : Builds (f.manager env order) P

theorem fixture_ok (env : Surroundings) {f : Fixture} {order : List Nat} {draw : Nat → Nat} (hs : Seed f order draw) :
    ∃ P terms, Provides env f order draw P terms := by
  have hv : 1 ≤ f.vars := by cases f <;> simp [Fixture.vars]
  obtain ⟨terms, e, hl, ht⟩ := C57_minmax env.asserts hv hs.draw 20 5
  have ht : MinMaxOK f.vars terms := by
    refine ⟨fun h => by simp [h] at hl, fun t h => ⟨fun h' => ?_, (ht t h).2⟩⟩
    have := (ht t h).1
    simp [h'] at this
  have ho := hs.order
  cases f with
  | bdd =>
      have B := C43_bdd_partial env (tested 2) (n := 21) (pool := 5000) (overflow := none) (by decide)
        ⟨by decide, nofun⟩ (.inr ho)
      exact ⟨_, terms, suitable_fixed env (by decide) (by decide) B.1 (show 21 < 63 by decide), ht, e, rfl, rfl,
        (fun m h => by cases h; decide), B⟩
  | mdd =>
      have B := C43_mdd_partial env (tested 3) (M := 3) (n := 15) (pool := 5000) (overflow := none) (by decide) (by decide)
        ⟨by decide, nofun⟩ (.inr ho)
      exact ⟨_, terms, suitable_fixed env (by decide) (by decide) B.1 (show 3 ^ 15 ≤ 2147483647 by decide), ht, e, rfl, rfl,
        (fun m h => by cases h; decide), B⟩
  | imdd doms =>
      obtain ⟨h1, h2⟩ := hs.doms doms (.inl rfl)
      have B := C43_imdd_partial env (tested 3) (n := 15) (pool := 5000) (overflow := none) (doms := doms) h1
        (fun d h => by have := h2 d h; omega) (by decide) ⟨by decide, nofun⟩ (.inr ho)
      exact ⟨_, terms, suitable_mixed env h2 h1 B.1, ht, e, rfl, rfl, (fun m h => by cases h), B⟩
  | ifmdd doms =>
      obtain ⟨h1, h2⟩ := hs.doms doms (.inr rfl)
      have B := C43_ifmdd_partial env (tested 3) (M := 3) (n := 15) (pool := 5000) (overflow := none) (doms := doms) h1
        (fun d h => by have := h2 d h; omega) (by decide) ⟨by decide, nofun⟩ (.inr ho)
      exact ⟨_, terms, suitable_mixed env h2 h1 B.1, ht, e, rfl, rfl, (fun m h => by cases h), B⟩

theorem runOn_of {r : Except Err (Cfg × Mgr)} {P : Setup} (hB : Builds r P) {t : Cfg → SM World Bool} {b : Bool}
    (h : Reports P (t P.c) b) : runOn r t = .ok b := by
  obtain ⟨-, m, e, e', -⟩ := hB
  obtain ⟨m', w, e2, e3⟩ := h
  rw [e'] at e2
  obtain rfl := Except.ok.inj e2
  rw [e, runOn]
  simp only [e3]

theorem runOn_error {r : Except Err (Cfg × Mgr)} {P : Setup} (hB : Builds r P) {t : Cfg → SM World Bool} {x : Err}
    (h : ∃ m, construct P.c P.pool P.order = .ok m ∧ t P.c ⟨m, []⟩ = .error x) : runOn r t = .error x := by
  obtain ⟨-, m, e, e', -⟩ := hB
  obtain ⟨m', e2, e3⟩ := h
  rw [e'] at e2
  obtain rfl := Except.ok.inj e2
  rw [e, runOn]
  simp only [e3]

theorem run_of {env : Surroundings} {f : Fixture} {order : List Nat} {draw : Nat → Nat} {P : Setup} {terms : List (List Nat)}
    (hp : Provides env f order draw P terms) {t : Cfg → List (List Nat) → SM World Bool} {b : Bool}
    (h : Reports P (t P.c terms) b) : run env f order draw t = .ok b := by
  unfold run
  rw [hp.drawn]
  exact runOn_of hp.builds h

theorem run_error {env : Surroundings} {f : Fixture} {order : List Nat} {draw : Nat → Nat} {P : Setup}
    {terms : List (List Nat)} (hp : Provides env f order draw P terms) {t : Cfg → List (List Nat) → SM World Bool} {x : Err}
    (h : ∃ m, construct P.c P.pool P.order = .ok m ∧ t P.c terms ⟨m, []⟩ = .error x) :
    run env f order draw t = .error x := by
  unfold run
  rw [hp.drawn]
  exact runOn_error hp.builds h

/-! ### C76 the unit tests pass

For every fixture, whatever the random numbers: the order of the variables, their domains and the expression; with and
without assertions, for every hash function and every address. -/

variable {env : Surroundings} {f : Fixture} {order : List Nat} {draw : Nat → Nat}

theorem C76_evaluate (hs : Seed f order draw) : run env f order draw Tests.evaluate = .ok true := by
  obtain ⟨P, terms, hp⟩ := fixture_ok env hs
  exact run_of hp (evaluate_passes hp.suitable hp.expr)

theorem C76_fold (hs : Seed f order draw) : run env f order draw Tests.fold = .ok true := by
  obtain ⟨P, terms, hp⟩ := fixture_ok env hs
  exact run_of hp (fold_passes hp.suitable hp.expr)

theorem C76_gc (hs : Seed f order draw) : run env f order draw Tests.gc = .ok true := by
  obtain ⟨P, terms, hp⟩ := fixture_ok env hs
  exact run_of hp (gc_passes hp.suitable hp.expr)

theorem C76_satisfy_count (hs : Seed f order draw) : run env f order draw Tests.satisfyCount = .ok true := by
  obtain ⟨P, terms, hp⟩ := fixture_ok env hs
  exact run_of hp (satisfyCount_passes hp.suitable hp.expr)

theorem C76_satisfy_all (hs : Seed f order draw) : run env f order draw Tests.satisfyAll = .ok true := by
  obtain ⟨P, terms, hp⟩ := fixture_ok env hs
  exact run_of hp (satisfyAll_passes hp.suitable hp.expr)

theorem C76_one_var_sift (hs : Seed f order draw) : run env f order draw Tests.oneVarSift = .ok true := by
  obtain ⟨P, terms, hp⟩ := fixture_ok env hs
  exact run_of hp (oneVarSift_passes hp.suitable hp.expr)

/-- The test of automatic reordering, if the same diagram can be made without automatic reordering so that some nodes of the
initial pool stay unused.

Missing: seeds whose diagrams use up the pool.  Then sifting is run in the middle of `make_diagram`, and may destroy
results (`C45_violated`). -/
theorem C76_auto_var_sift_partial (hs : Seed f order draw) {terms : List (List Nat)} (ht : f.expr env draw = .ok terms)
    (hroom : LeavesRoom (f.manager env order) (fun c => makeDiagram c false terms)) :
    run env f order draw Tests.autoVarSift = .ok true := by
  obtain ⟨P, terms', hp⟩ := fixture_ok env hs
  obtain rfl : terms = terms' := Except.ok.inj (ht.symm.trans hp.drawn)
  refine run_of hp (autoVarSift_passes hp.suitable hp.expr fun m em d w e => ?_)
  obtain ⟨-, m', e1, e2, -⟩ := hp.builds
  obtain rfl := Except.ok.inj (e2.symm.trans em)
  exact hroom _ _ e1 d w e

/-- Surroundings for an example. -/
def autoEnv : Surroundings := ⟨false, List.sum, fun a b c => a + b + c, id⟩

/-- The hypotheses of `C76_auto_var_sift_partial` hold for binary diagrams of an expression whose terms are all
x3 ∧ x7 ∧ x11 ∧ x15 ∧ x19. -/
example : ∃ terms, Seed .bdd (List.range 21) (fun k => 4 * (k % 5) + 3) ∧
    Fixture.bdd.expr autoEnv (fun k => 4 * (k % 5) + 3) = .ok terms ∧
    LeavesRoom (Fixture.bdd.manager autoEnv (List.range 21)) (fun c => makeDiagram c false terms) := by
  refine ⟨List.replicate 20 [3, 7, 11, 15, 19], ⟨(fun d h => by rcases h with h | h <;> cases h), .refl _, fun k => ?_⟩,
    by decide +kernel, fun c m em d w e => ?_⟩
  · have := Nat.mod_lt k (show 5 > 0 by decide)
    show _ < 21
    omega
  · have hc : (match Fixture.bdd.manager autoEnv (List.range 21) with
      | .ok (c, m) => match makeDiagram c false (List.replicate 20 [3, 7, 11, 15, 19]) ⟨m, []⟩ with
        | .ok (_, w) => decide (w.mgr.poolEnd = m.poolEnd) && decide (w.mgr.next < w.mgr.poolEnd)
        | .error _ => false
      | .error _ => false) = true := by decide +kernel
    simp only [em, e, Bool.and_eq_true, decide_eq_true_eq] at hc
    exact hc

theorem C76_from_vector (hs : Seed f order draw) : run env f order draw Tests.fromVector = .ok true := by
  obtain ⟨P, terms, hp⟩ := fixture_ok env hs
  exact run_of hp (fromVector_passes hp.suitable hp.expr)

theorem C76_to_vector (hs : Seed f order draw) : run env f order draw Tests.toVector = .ok true := by
  obtain ⟨P, terms, hp⟩ := fixture_ok env hs
  exact run_of hp (toVector_passes hp.suitable hp.expr)

/-- The test of `from_expression_tree`, whatever tree is drawn. -/
theorem C76_from_expression (hs : Seed f order draw) {ch : Nat → Choice} (hc : ∀ p, 2 ≤ (ch p).denom) :
    runOn (f.manager env order) (fun c => Tests.fromExpression c ch) = .ok true := by
  obtain ⟨P, terms, hp⟩ := fixture_ok env hs
  exact runOn_of hp.builds (fromExpression_passes hp.suitable hc)

/-- The right operands of `PLUS` and `MULTIPLIES` are 0 and 1 here, so that the placeholder for unknown values does not make
them overflow. -/
theorem C76_operators_1 (hs : Seed f order draw) : run env f order draw Tests.operators1 = .ok true := by
  obtain ⟨P, terms, hp⟩ := fixture_ok env hs
  exact run_of hp (operators1_passes hp.suitable hp.expr)

/-- The test of `satisfy_one` requires that the diagram takes all values below `maxValue`.  It passes if and only if the
expression has a term all of whose variables have that many values. -/
theorem C76_satisfy_one (hs : Seed f order draw) : ∃ terms, f.expr env draw = .ok terms ∧
    run env f order draw (fun c => Tests.satisfyOne c f.maxValue) =
      .ok (decide (∃ t ∈ terms, ∀ i ∈ t, f.maxValue ≤ f.dom i)) := by
  obtain ⟨P, terms, hp⟩ := fixture_ok env hs
  refine ⟨terms, hp.drawn, ?_⟩
  have hv := C56_minmax_value hp.expr
  by_cases h : ∃ t ∈ terms, ∀ i ∈ t, f.maxValue ≤ f.dom i
  · rw [decide_eq_true h]
    refine run_of hp (satisfyOne_passes hp.suitable hp.expr hp.fixed fun j hj => ?_)
    obtain ⟨t, ht, hi⟩ := h
    refine ⟨fun i => min j (P.c.dom i - 1), fun i h => ?_, ?_⟩
    · have := hp.suitable.two i h
      dsimp only
      omega
    · refine le_antisymm (Int.not_lt.1 fun hlt => ?_) ((hv _ j).2 ⟨t, ht, fun i him => ?_⟩)
      · obtain ⟨t', ht', h'⟩ := (hv (fun i => min j (P.c.dom i - 1)) (j + 1)).1 (by omega)
        obtain ⟨i, him⟩ := List.exists_mem_of_ne_nil _ (hp.expr.2 t' ht').1
        have := h' i him
        omega
      · have := hi i him
        rw [← hp.dom] at this
        omega
  · rw [decide_eq_false h]
    have hm : 1 ≤ f.maxValue := by cases f <;> simp [Fixture.maxValue]
    refine run_of hp (satisfyOne_fails hp.suitable hp.expr hp.fixed ⟨f.maxValue - 1, by omega, fun x hx e => h ?_⟩)
    obtain ⟨t, ht, hi⟩ := (hv x (f.maxValue - 1 : Nat)).1 (by omega)
    refine ⟨t, ht, fun i him => ?_⟩
    have h1 := hi i him
    have h2 := hx i ((hp.expr.2 t ht).2 i him)
    rw [hp.dom] at h2
    omega

/-- So it passes for every seed if all variables have the same number of values. -/
theorem C76_satisfy_one_fixed (hf : f = .bdd ∨ f = .mdd) (hs : Seed f order draw) :
    run env f order draw (fun c => Tests.satisfyOne c f.maxValue) = .ok true := by
  obtain ⟨terms, e, h⟩ := C76_satisfy_one (env := env) hs
  rw [h, decide_eq_true]
  have hv : 1 ≤ f.vars := by cases f <;> simp [Fixture.vars]
  obtain ⟨terms', e', hl, -⟩ := C57_minmax env.asserts hv hs.draw 20 5
  obtain rfl : terms = terms' := Except.ok.inj (e.symm.trans e')
  obtain ⟨t, ht⟩ := List.exists_mem_of_length_pos (l := terms) (by omega)
  refine ⟨t, ht, fun i _ => ?_⟩
  rcases hf with rfl | rfl <;> simp [Fixture.maxValue, Fixture.dom]

/-- It fails for some seeds if the domains are drawn as well: for instance if two values are drawn for all variables. -/
theorem C76_violated_satisfy_one (hf : f = .imdd (List.replicate 15 2) ∨ f = .ifmdd (List.replicate 15 2)) :
    Seed f (List.range 15) (fun k => k % 15) ∧
      run env f (List.range 15) (fun k => k % 15) (fun c => Tests.satisfyOne c f.maxValue) = .ok false := by
  have hs : Seed f (List.range 15) (fun k => k % 15) := by
    have hfv : f.vars = 15 := by rcases hf with rfl | rfl <;> rfl
    refine ⟨?_, by rw [hfv], fun k => by rw [hfv]; exact Nat.mod_lt _ (by decide)⟩
    intro doms h
    have : doms = List.replicate 15 2 := by
      rcases hf with rfl | rfl <;> rcases h with h | h <;> cases h <;> rfl
    subst this
    exact ⟨rfl, by decide⟩
  refine ⟨hs, ?_⟩
  obtain ⟨terms, e, h⟩ := C76_satisfy_one (env := env) hs
  rw [h, decide_eq_false]
  rintro ⟨t, ht, hi⟩
  obtain ⟨P, terms', hp⟩ := fixture_ok env hs
  obtain rfl : terms = terms' := Except.ok.inj (e.symm.trans hp.drawn)
  obtain ⟨i, him⟩ := List.exists_mem_of_ne_nil _ (hp.expr.2 t ht).1
  have h1 := hi i him
  have h2 : f.dom i ≤ 2 := by
    have : ∀ k, (List.replicate 15 2).getD k 0 ≤ 2 := by
      intro k
      rw [List.getD_eq_getElem?_getD, List.getElem?_replicate]
      split <;> simp
    rcases hf with rfl | rfl <;> exact this i
  have h3 : f.maxValue = 3 := by rcases hf with rfl | rfl <;> rfl
  omega

/-- The test of `get_cofactor` has undefined behaviour for every seed: it makes an iterator with fixed values. -/
theorem C76_violated_cofactor (hs : Seed f order draw) {i1 i2 : Nat} (h1 : i1 < f.vars) (h2 : i2 < f.vars) (hne : i1 ≠ i2) :
    run env f order draw (fun c terms => Tests.cofactor DomIter.make c terms i1 i2) = .error .uninit := by
  obtain ⟨P, terms, hp⟩ := fixture_ok env hs
  rw [← hp.vars] at h1 h2
  exact run_error (t := fun c terms => Tests.cofactor DomIter.make c terms i1 i2) hp
    (cofactor_undefined hp.suitable hp.expr h1 h2 hne)

/-- With the iterator as it is meant, the test passes for every seed. -/
theorem C76_cofactor_partial (hs : Seed f order draw) {i1 i2 : Nat} (h1 : i1 < f.vars) (h2 : i2 < f.vars) (hne : i1 ≠ i2) :
    run env f order draw (fun c terms => Tests.cofactor intended c terms i1 i2) = .ok true := by
  obtain ⟨P, terms, hp⟩ := fixture_ok env hs
  have hv : 3 ≤ f.vars := by cases f <;> simp [Fixture.vars]
  rw [← hp.vars] at h1 h2 hv
  obtain ⟨it, xs, e1, e2, e3⟩ := intended_visit hp.suitable.ok hv h1 h2 hne (hp.suitable.two i2 h2)
  exact run_of (t := fun c terms => Tests.cofactor intended c terms i1 i2) hp
    (cofactor_passes hp.suitable hp.expr h1 h2 hne e1 e2 e3)

/-- `operators_2` adds and multiplies the special value `Nondetermined`: signed overflow. -/
theorem C76_violated_operators_2 : Tests.operators2 (Op.PLUS 3) (Op.MULTIPLIES 3) = .error .overflow := by decide +kernel

/-- With arithmetic that wraps around, all requirements of `operators_2` are met. -/
theorem C76_operators_2_partial : Tests.operators2 (Op.PLUSwrap 3) (Op.MULTIPLIESwrap 3) = .ok true := by decide +kernel

/-- There are seeds for every fixture. -/
example : Seed .bdd (List.range 21) (fun k => 7 * k % 21) ∧ Seed .mdd (List.range 15).reverse (fun k => k % 15) ∧
    Seed (.imdd [2, 3, 2, 3, 3, 2, 2, 3, 3, 3, 2, 2, 3, 2, 3]) (List.range 15) (fun k => 4 * k % 15) ∧
    Seed (.ifmdd [3, 3, 3, 3, 3, 3, 3, 3, 3, 3, 3, 3, 3, 3, 3]) (List.range 15) (fun k => 4 * k % 15) := by
  refine ⟨⟨(fun d h => by rcases h with h | h <;> cases h), .refl _, fun k => Nat.mod_lt _ (by decide)⟩,
    ⟨(fun d h => by rcases h with h | h <;> cases h), List.reverse_perm _, fun k => Nat.mod_lt _ (by decide)⟩,
    ⟨fun d h => ?_, .refl _, fun k => Nat.mod_lt _ (by decide)⟩, ⟨fun d h => ?_, .refl _, fun k => Nat.mod_lt _ (by decide)⟩⟩
  · rcases h with h | h <;> cases h
    exact ⟨rfl, by decide⟩
  · rcases h with h | h <;> cases h
    exact ⟨rfl, by decide⟩

end Properties
end Teddy
