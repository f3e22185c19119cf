import Verif.ReliabilityTestSpec
import Verif.Proofs.ReliabilityTests
import Verif.Proofs.SystemTest
import Verif.Properties.UnitTests
import Verif.Properties.Aborts

/-!
# The unit tests of the reliability functions

All computations with probabilities are exact here.  The tests themselves compare with a tolerance of 0.00000001.
-/

namespace Teddy
namespace Properties

open SM Spec Tsl Tests

/-! ### The fixtures -/

theorem domOK_of {c : Cfg} (hn : 0 < c.n) (h : ∀ i < c.n, 0 < c.dom i) (hp : ((List.range c.n).map c.dom).prod ≤ 2147483647) :
    DomOK (domainsOf c) := by
  have e : domainsOf c = (List.range c.n).map c.dom := by
    obtain ⟨h1, h2⟩ := dom_list c
    refine List.ext_getElem (by simp [← h1]) fun i hi hi' => ?_
    have hi2 : i < c.n := by rw [h1]; exact hi
    have := h2 i hi2
    rw [List.getElem_map, List.getElem_range, this]
    simp [hi]
  rw [e]
  refine ⟨fun h' => ?_, fun d hd => ?_, hp⟩
  · have := congrArg List.length h'
    simp at this
    omega
  · obtain ⟨i, hi, rfl⟩ := List.mem_map.1 hd
    exact h i (List.mem_range.1 hi)

/-- What a fixture provides. -/
structure ProvidesS (env : Surroundings) (f : System) (order : List Nat) (P : Setup) : Prop where
  suitable : Suitable P
  size : DomOK (domainsOf P.c)
  vars : P.c.n = f.vars
  dom : P.c.dom = f.dom
  pi : P.Γ Op.PI_CONJ.id = Op.PI_CONJ
  asserts : P.c.asserts = env.asserts
  mixed : f.mixed = true → P.c.fixedDom = none
  fixed : f.mixed = false → P.c.fixedDom = some f.stateCount
  builds : Builds (f.manager env order) P

theorem system_ok (env : Surroundings) {f : System} {order : List Nat} {ch : Nat → Choice} (hs : SystemSeed f order ch) :
    ∃ P, ProvidesS env f order P := by
  have ho := hs.order
  have hmix : ∀ {doms : List Nat} {pool : Nat}, doms.length = 15 → (∀ d ∈ doms, 2 ≤ d ∧ d ≤ 3) →
      DomOK (domainsOf (mixedCfg env doms 15 pool)) := by
    intro doms pool hl hd
    have hi : ∀ i < 15, 2 ≤ doms.getD i 0 ∧ doms.getD i 0 ≤ 3 := by
      intro i hi
      have hi' : i < doms.length := by omega
      have e : doms.getD i 0 = doms[i] := by simp [hi']
      rw [e]
      exact hd _ (List.getElem_mem hi')
    refine domOK_of (show 0 < 15 by decide) (fun i h => lt_of_lt_of_le Nat.two_pos (hi i h).1) ?_
    show ((List.range 15).map fun i => doms.getD i 0).prod ≤ 2147483647
    have := List.prod_le_pow_card ((List.range 15).map fun i => doms.getD i 0) 3 (by
      intro x hx
      obtain ⟨i, h, rfl⟩ := List.mem_map.1 hx
      exact (hi i (List.mem_range.1 h)).2)
    simp only [List.length_map, List.length_range] at this
    omega
  cases f with
  | bss =>
      have B := C43_bdd_partial env (tested 2) (n := 21) (pool := 2000000) (overflow := none) (by decide)
        ⟨by decide, nofun⟩ (.inr ho)
      exact ⟨_, suitable_fixed env (by decide) (by decide) B.1 (show 21 < 63 by decide),
        domOK_of (show 0 < 21 by decide) (fun _ _ => Nat.two_pos) (show ((List.range 21).map fun _ => 2).prod ≤ _ by decide),
        rfl, rfl, rfl, rfl, nofun, fun _ => rfl, B⟩
  | mss =>
      have B := C43_mdd_partial env (tested 3) (M := 3) (n := 15) (pool := 2000000) (overflow := none) (by decide) (by decide)
        ⟨by decide, nofun⟩ (.inr ho)
      exact ⟨_, suitable_fixed env (by decide) (by decide) B.1 (show 3 ^ 15 ≤ 2147483647 by decide),
        domOK_of (show 0 < 15 by decide) (fun _ _ => Nat.succ_pos 2)
          (show ((List.range 15).map fun _ => 3).prod ≤ _ by decide),
        rfl, rfl, rfl, rfl, nofun, fun _ => rfl, B⟩
  | imss doms =>
      obtain ⟨h1, h2⟩ := hs.doms doms (.inl rfl)
      have B := C43_imdd_partial env (tested 3) (n := 15) (pool := 2000000) (overflow := none) (doms := doms) h1
        (fun d h => by have := h2 d h; omega) (by decide) ⟨by decide, nofun⟩ (.inr ho)
      exact ⟨_, suitable_mixed env h2 h1 B.1, hmix h1 h2, rfl, rfl, rfl, rfl, fun _ => rfl, nofun, B⟩
  | ifmss doms =>
      obtain ⟨h1, h2⟩ := hs.doms doms (.inr rfl)
      have B := C43_ifmdd_partial env (tested 3) (M := 3) (n := 15) (pool := 5000) (overflow := none) (doms := doms) h1
        (fun d h => by have := h2 d h; omega) (by decide) ⟨by decide, nofun⟩ (.inr ho)
      exact ⟨_, suitable_mixed env h2 h1 B.1, hmix h1 h2, rfl, rfl, rfl, rfl, fun _ => rfl, nofun, B⟩

variable {env : Surroundings} {f : System} {order : List Nat} {ch : Nat → Choice} {P : Setup}

theorem ProvidesS.rows (hp : ProvidesS env f order P) {draw : Nat → Nat → Rat} (h : Scalable f draw) :
    ∀ i < P.c.n, ((List.range (P.c.dom i)).map (draw i)).sum ≠ 0 := by
  rw [hp.vars, hp.dom]
  exact h

theorem ProvidesS.pos (hp : ProvidesS env f order P) : 0 < P.c.n :=
  Nat.lt_of_lt_of_le Nat.two_pos hp.suitable.ok.vars

theorem ProvidesS.term (hp : ProvidesS env f order P) (h : f.mixed = true ∨ env.asserts = false) : TermOK P.c Undefined := by
  refine ⟨by decide, fun ha m hm => ?_⟩
  rcases h with h | h
  · rw [hp.mixed h] at hm; cases hm
  · rw [hp.asserts, h] at ha; cases ha

theorem states2 (f : System) : 2 ≤ f.stateCount := by cases f <;> simp [System.stateCount]

theorem states3 (f : System) : f.stateCount ≤ 3 := by cases f <;> simp [System.stateCount]

theorem statesU (f : System) : (f.stateCount : Int) ≤ Undefined := by
  have h := states3 f
  show (f.stateCount : Int) ≤ 2147483647
  omega

/-! ### C77 the tests of reliability functions pass

For every fixture, whatever the random numbers: the order of the variables, their domains, the expression tree and the
probabilities; with and without assertions, for every hash function and every address. -/

theorem C77_probabilities_bss (hs : SystemSeed .bss order ch) (draw : Nat → Rat) :
    runSystem env .bss order (fun c _ => probabilitiesBss c ch draw) = .ok true := by
  obtain ⟨P, hp⟩ := system_ok env hs
  exact runOn_of hp.builds (probabilitiesBss_passes hp.suitable hp.size (hp.fixed rfl) hs.tree draw)

theorem C77_probabilities (hs : SystemSeed f order ch) {draw : Nat → Nat → Rat} (hd : Scalable f draw) :
    runSystem env f order (fun c k => probabilities c ch draw k) = .ok true := by
  obtain ⟨P, hp⟩ := system_ok env hs
  exact runOn_of hp.builds (probabilities_passes hp.suitable hp.size hs.tree (hp.rows hd) ((states3 f).trans (by decide)))

theorem C77_availabilities (hs : SystemSeed f order ch) {draw : Nat → Nat → Rat} (hd : Scalable f draw) :
    runSystem env f order (fun c k => availabilities c ch draw k) = .ok true := by
  obtain ⟨P, hp⟩ := system_ok env hs
  exact runOn_of hp.builds (availabilities_passes hp.suitable hp.size hs.tree (hp.rows hd) _)

theorem C77_unavailabilities (hs : SystemSeed f order ch) {draw : Nat → Nat → Rat} (hd : Scalable f draw) :
    runSystem env f order (fun c k => unavailabilities c ch draw k) = .ok true := by
  obtain ⟨P, hp⟩ := system_ok env hs
  exact runOn_of hp.builds (unavailabilities_passes hp.suitable hp.size hs.tree (hp.rows hd) _)

theorem C77_states_frequency (hs : SystemSeed f order ch) :
    runSystem env f order (fun c k => statesFrequency c ch k) = .ok true := by
  obtain ⟨P, hp⟩ := system_ok env hs
  refine runOn_of hp.builds (statesFrequency_passes hp.suitable hp.size hs.tree fun m hm => ?_)
  cases hx : f.mixed with
  | true => rw [hp.mixed hx] at hm; cases hm
  | false => rw [hp.fixed hx] at hm; cases hm; exact Nat.le_refl _

theorem C77_structural_importances (hs : SystemSeed f order ch) :
    runSystem env f order (fun c k => structuralImportances c ch k) = .ok true := by
  obtain ⟨P, hp⟩ := system_ok env hs
  exact runOn_of hp.builds (structuralImportances_passes hp.suitable hp.size hs.tree _)

theorem C77_birnbaum_importances (hs : SystemSeed f order ch) {draw : Nat → Nat → Rat} (hd : Scalable f draw) :
    runSystem env f order (fun c k => birnbaumImportances c ch draw k) = .ok true := by
  obtain ⟨P, hp⟩ := system_ok env hs
  exact runOn_of hp.builds (birnbaumImportances_passes hp.suitable hp.size hs.tree (hp.rows hd) _)

/-- The random systems are series-parallel, so the test does not show that the importance is wrong of others (C78). -/
theorem C77_fussell_vesely_importances (hs : SystemSeed f order ch) {draw : Nat → Nat → Rat} (hd : CanFail f draw) :
    runSystem env f order (fun c k => fussellVeselyImportances c ch draw k) = .ok true := by
  obtain ⟨P, hp⟩ := system_ok env hs
  exact runOn_of hp.builds (fussellVeselyImportances_passes hp.suitable hp.size hs.tree
    (by rw [hp.vars, hp.dom]; exact hd) _)

/-- The test of minimal cut vectors passes on managers with mixed domains, and on the others if assertions are disabled.
What is missing is `C77_violated_mcvs`. -/
theorem C77_mcvs_partial (hs : SystemSeed f order ch) (h : f.mixed = true ∨ env.asserts = false) :
    runSystem env f order (fun c k => Tests.mcvs c ch k) = .ok true := by
  obtain ⟨P, hp⟩ := system_ok env hs
  exact runOn_of hp.builds (mcvs_passes hp.suitable hp.size (hp.term h) hp.pi hs.tree _)

/-- So do the tests of derivatives.  What is missing is `C77_violated_dpld`. -/
theorem C77_basic_dpld_partial (hs : SystemSeed f order ch) (h : f.mixed = true ∨ env.asserts = false) :
    runSystem env f order (fun c k => basicDpld c ch k) = .ok true := by
  obtain ⟨P, hp⟩ := system_ok env hs
  exact runOn_of hp.builds (dpldTest_passes hp.suitable hp.size (hp.term h) hs.tree (basicCases_ok hp.pos _))

theorem C77_integrated_dpld_1_partial (hs : SystemSeed f order ch) (h : f.mixed = true ∨ env.asserts = false) :
    runSystem env f order (fun c k => integratedDpld1 c ch k) = .ok true := by
  obtain ⟨P, hp⟩ := system_ok env hs
  exact runOn_of hp.builds (dpldTest_passes hp.suitable hp.size (hp.term h) hs.tree (type1Cases_ok hp.pos _))

theorem C77_integrated_dpld_2_partial (hs : SystemSeed f order ch) (h : f.mixed = true ∨ env.asserts = false) :
    runSystem env f order (fun c _ => integratedDpld2 c ch) = .ok true := by
  obtain ⟨P, hp⟩ := system_ok env hs
  exact runOn_of hp.builds (dpldTest_passes hp.suitable hp.size (hp.term h) hs.tree (type2Cases_ok hp.pos))

theorem C77_integrated_dpld_3_partial (hs : SystemSeed f order ch) (h : f.mixed = true ∨ env.asserts = false) :
    runSystem env f order (fun c k => integratedDpld3 c ch k) = .ok true := by
  obtain ⟨P, hp⟩ := system_ok env hs
  exact runOn_of hp.builds (dpldTest_passes hp.suitable hp.size (hp.term h) hs.tree (type3Cases_ok hp.pos _))

/-! ### Tests that abort

On managers with a fixed domain and assertions enabled, which is the default, for every seed. -/

theorem C77_violated_mcvs (hs : SystemSeed f order ch) (h : f.mixed = false) (ha : env.asserts = true) :
    runSystem env f order (fun c k => Tests.mcvs c ch k) = .error .assertion := by
  obtain ⟨P, hp⟩ := system_ok env hs
  refine runOn_error hp.builds (mcvs_aborts hp.suitable hp.size (fun hr hauto hd s => ?_) hs.tree (states2 f))
  exact (C34_violated_always hp.suitable.ok hr hauto (hp.fixed h) (hp.asserts.trans ha) (states2 f)
    (statesU f) hd s).1

theorem C77_violated_dpld (hs : SystemSeed f order ch) (h : f.mixed = false) (ha : env.asserts = true) :
    runSystem env f order (fun c k => basicDpld c ch k) = .error .assertion ∧
      runSystem env f order (fun c k => integratedDpld1 c ch k) = .error .assertion ∧
      runSystem env f order (fun c _ => integratedDpld2 c ch) = .error .assertion ∧
      runSystem env f order (fun c k => integratedDpld3 c ch k) = .error .assertion := by
  obtain ⟨P, hp⟩ := system_ok env hs
  have key : ∀ {vc φ chs l}, VcOK P.c vc → ∃ m, construct P.c P.pool P.order = .ok m ∧ (do
      let (d, t) ← makeSystem P.c ch
      dpldLoop P.c t d ((vc, φ :: chs) :: l)) ⟨m, []⟩ = .error .assertion := fun hvc =>
    dpldTest_aborts hp.suitable hp.size (fun hr hcan hd hv hdep v =>
      C33_violated_always hp.suitable.ok hr hcan (hp.fixed h) (hp.asserts.trans ha) (states2 f)
        (statesU f) hd hv hdep v) hs.tree hvc _ _ _
  obtain ⟨⟨_, _, _, _, v1, e1⟩, ⟨_, _, _, _, v2, e2⟩, ⟨_, _, _, _, v3, e3⟩, _, _, _, _, v4, e4⟩ :=
    cases_ne hp.pos (hp.suitable.two 0 hp.pos) (states2 f)
  refine ⟨runOn_error hp.builds ?_, runOn_error hp.builds ?_, runOn_error hp.builds ?_, runOn_error hp.builds ?_⟩
  · simp only [basicDpld, e1]; exact key v1
  · simp only [integratedDpld1, e2]; exact key v2
  · simp only [integratedDpld2, e3]; exact key v3
  · simp only [integratedDpld3, e4]; exact key v4

/-! ### The described system

The test has no random numbers; it passes with and without assertions, for every hash function and every address. -/

theorem describedManager_builds (env : Surroundings) : Builds (describedManager env system1) (setup1 env) :=
  C43_imdd_partial env (shipped 3) (n := 5) (pool := 10000) (overflow := none) (doms := system1.domains) (order := []) rfl
    (by decide) (by decide) ⟨by decide, nofun⟩ (.inl rfl)

theorem C77_system_test (env : Surroundings) :
    runOn (describedManager env system1) (fun c => systemTest c system1 system1.mcvs) = .ok true :=
  runOn_of (describedManager_builds env) (systemTest_passes (describedManager_builds env).1)

/-- It passes because it compares the result of `mpvs` with the minimal cut vectors.  Compared with the minimal path vectors
of the description, as the table is, the test fails. -/
theorem C77_violated_system_test (env : Surroundings) :
    runOn (describedManager env system1) (fun c => systemTest c system1 system1.mpvs) = .ok false :=
  runOn_of (describedManager_builds env) (systemTest_fails (describedManager_builds env).1)

/-! ### There are seeds -/

/-- An order that is no identity, domains that are mixed, a choice for the tree. -/
theorem someSeed : SystemSeed (.imss [2, 3, 2, 3, 2, 3, 2, 3, 2, 3, 2, 3, 2, 3, 2])
    [14, 13, 12, 11, 10, 9, 8, 7, 6, 5, 4, 3, 2, 1, 0] fun p => ⟨2 + p % 3, p % 2 == 0, true⟩ :=
  ⟨(fun doms h => by rcases h with h | h <;> cases h; decide), (by decide), fun _ => Nat.le_add_right _ _⟩

theorem someSeed_bss : SystemSeed .bss (List.range 21).reverse fun p => ⟨2 + p % 3, p % 2 == 0, true⟩ :=
  ⟨(fun doms h => by rcases h with h | h <;> cases h), (by decide), fun _ => Nat.le_add_right _ _⟩

example : Scalable (.imss [2, 3, 2, 3, 2, 3, 2, 3, 2, 3, 2, 3, 2, 3, 2]) fun _ j => j := by
  unfold Scalable; decide +kernel

example (env : Surroundings) : runSystem env (.imss [2, 3, 2, 3, 2, 3, 2, 3, 2, 3, 2, 3, 2, 3, 2])
    [14, 13, 12, 11, 10, 9, 8, 7, 6, 5, 4, 3, 2, 1, 0]
    (fun c k => probabilities c (fun p => ⟨2 + p % 3, p % 2 == 0, true⟩) (fun _ j => j) k) = .ok true :=
  C77_probabilities someSeed (by unfold Scalable; decide +kernel)

example : runSystem (someEnv true) (.imss [2, 3, 2, 3, 2, 3, 2, 3, 2, 3, 2, 3, 2, 3, 2])
    [14, 13, 12, 11, 10, 9, 8, 7, 6, 5, 4, 3, 2, 1, 0]
    (fun c k => fussellVeselyImportances c (fun p => ⟨2 + p % 3, p % 2 == 0, true⟩) (fun i j => i + j + 1) k) = .ok true :=
  C77_fussell_vesely_importances someSeed (by unfold CanFail; decide +kernel)

example : runSystem (someEnv true) (.imss [2, 3, 2, 3, 2, 3, 2, 3, 2, 3, 2, 3, 2, 3, 2])
    [14, 13, 12, 11, 10, 9, 8, 7, 6, 5, 4, 3, 2, 1, 0]
    (fun c k => Tests.mcvs c (fun p => ⟨2 + p % 3, p % 2 == 0, true⟩) k) = .ok true :=
  C77_mcvs_partial someSeed (.inl rfl)

example : runSystem (someEnv false) .bss (List.range 21).reverse
    (fun c k => basicDpld c (fun p => ⟨2 + p % 3, p % 2 == 0, true⟩) k) = .ok true :=
  C77_basic_dpld_partial someSeed_bss (.inr rfl)

example : runSystem (someEnv true) .bss (List.range 21).reverse
    (fun c k => basicDpld c (fun p => ⟨2 + p % 3, p % 2 == 0, true⟩) k) = .error .assertion :=
  (C77_violated_dpld someSeed_bss rfl rfl).1

end Properties
end Teddy
