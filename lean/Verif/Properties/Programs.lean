import Verif.Demo
import Verif.Proofs.Program

/-!
# Properties of whole programs and of the sizes of results
-/

namespace Teddy
namespace Properties

open Spec

variable {P P' : Setup} {w : World} {σ : SState}

/-! ### C10 the assignment found -/

/-- Without reordering, `satisfy_one(v, d)` returns the assignment found by a depth-first search through the values of
the variables in the current order, which leaves variables alone that do not matter any more. -/
theorem C10_search (hP : P.OK) (h : Reachable P w σ) (hcan : σ.canon = true) {a : Nat} {f : Asg → Int}
    (ha : σ.Has a f) {v : Int} (hv : ∀ m, P.c.fixedDom = some m → P.c.asserts = true → v < m) :
    exec P.c (.satisfyOne v a) w = .ok (.asg (searchOne P.c.n P.c.dom σ.order v f), w) := by
  obtain ⟨o, e, r, rfl, -, hr⟩ := asks (k := .satisfyOne v a) hP h ⟨⟨f, ha⟩, hv⟩ rfl
  rw [e, hr hcan, ha.fn]

/-- x0 ∧ x1 = 1. -/
example : ∃ w σ, Reachable bdd3 w σ ∧ ∃ r, exec bdd3.c (.satisfyOne 1 2) w = .ok (.asg r, w) := by
  obtain ⟨w, h⟩ := bdd3_world
  exact ⟨w, _, h, _, C10_search (a := 2) bdd3_ok h rfl rfl (fun m hm _ => by cases hm; decide)⟩

/-! ### C60 settings do not influence answers -/

/-- A program without `force_reorder` runs without error on managers that differ in the sizes of the node
pools, in the hash functions and in the addresses of nodes (so collections happen at other times, and other results
are found in the cache), and gets the same answers from both.

Missing for the full property: first pools with less than 5 nodes (`C60_violated`). -/
theorem C60_settings_partial (hP : P.OK) (hP' : P'.OK) (hs : SameManager P P') {ks : List Call}
    (h : AdmAll P (SState.init P) ks) (h' : AdmAll P' (SState.init P') ks) :
    ∃ os os', run P ks = .ok os ∧ run P' ks = .ok os' ∧ SameAnswers ks os os' := by
  obtain ⟨m, e, R⟩ := construct_sim hP
  obtain ⟨m', e', R'⟩ := construct_sim hP'
  have hi : SState.init P' = SState.init P := by unfold SState.init; rw [hs.order]
  rw [hi] at R' h'
  obtain ⟨os, os', v, v', e2, e2', hsame⟩ := execAll_same hs ks rfl R R' h h'
  refine ⟨os, os', ?_, ?_, hsame⟩
  · unfold run; rw [e]; dsimp only; rw [e2]
  · unfold run; rw [e']; dsimp only; rw [e2']

/-- `bdd3` with the smallest pools, and hash functions that put everything into one bucket. -/
def bdd3small : Setup :=
  { bdd3 with pool := 5, c := { bdd3.c with extra := 1, hash := fun _ => 0, chash := fun _ _ _ => 0 } }

/-- x0, x1, x0 ∧ x1, a garbage collection and some questions. -/
def smallProgram : List Call :=
  [.variableD 0, .variableD 1, .apply Op.AND 0 1, .drop 0, .forceGc, .satisfyOne 1 2, .dependencySet 2,
    .nodeCountOf 2, .nodeCount, .equals 1 2]

theorem smallProgram_adm {P : Setup} (hc : P.c.n = 3) (hd : P.c.dom = fun _ => 2) (hf : P.c.fixedDom = some 2)
    (hΓ : P.Γ = shipped 2) : AdmAll P (SState.init P) smallProgram := by
  have ht : TermOK P.c 1 := ⟨by decide, fun _ m h => by rw [hf] at h; cases h; decide⟩
  have hop : opType P.c Op.AND = Op.AND := by unfold opType; rw [hf]; rfl
  have hv : ∀ m, P.c.fixedDom = some m → P.c.asserts = true → (1 : Int) < m :=
    fun m h _ => by rw [hf] at h; cases h; decide
  have ha : ∀ {p : Prop}, p → false = false := fun _ => rfl
  refine ⟨nofun, ⟨by simp only [Adm, hc]; decide, ha⟩, nofun, ⟨by simp only [Adm, hc]; decide, ha⟩, nofun,
    ⟨⟨rfl, by rw [hop, hΓ]; rfl, _, _, rfl, rfl, ?_⟩, ha⟩, nofun, ⟨Nat.zero_lt_succ _, ha⟩, nofun, ⟨trivial, ha⟩, nofun,
    ⟨⟨⟨_, rfl⟩, hv⟩, ha⟩, nofun, ⟨⟨rfl, _, rfl⟩, ha⟩, nofun, ⟨⟨rfl, _, rfl⟩, ha⟩, nofun, ⟨trivial, ha⟩, nofun,
    ⟨⟨⟨_, rfl⟩, _, rfl⟩, ha⟩, trivial⟩
  rw [hop]
  exact opOK_AND ((bits_x (by omega) (by rw [hd])).vals ht) ((bits_x (by omega) (by rw [hd])).vals ht)

theorem bdd3small_ok : bdd3small.OK where
  cfg := ⟨fun _ _ => Nat.two_pos, fun m h i _ => by cases h; rfl⟩
  vars := by decide
  perm := by decide
  pool := by decide
  extra := by decide

example : ∃ os os', run bdd3 smallProgram = .ok os ∧ run bdd3small smallProgram = .ok os' ∧
    SameAnswers smallProgram os os' := by
  have h1 : AdmAll bdd3 (SState.init bdd3) smallProgram := smallProgram_adm rfl rfl rfl rfl
  have h2 : AdmAll bdd3small (SState.init bdd3small) smallProgram := smallProgram_adm rfl rfl rfl rfl
  have h3 : SameManager bdd3 bdd3small := ⟨rfl, rfl, rfl, rfl, rfl, rfl⟩
  exact C60_settings_partial bdd3_ok bdd3small_ok h3 h1 h2

/-! ### C66 housekeeping does not influence answers -/

/-- Two programs that differ only in where they call `force_gc()`, `clear_cache()`, `set_gc_ratio` and
`set_cache_ratio`, and with what ratios, get the same answers to all other calls; the managers may differ as in
C60.

Missing for the full property: garbage collection ratios that do not make the manager extend a full pool, like 0
(`C66_violated`). -/
theorem C66_housekeeping_partial (hP : P.OK) (hP' : P'.OK) (hs : SameManager P P') {ks ks' : List Call}
    (he : essential ks = essential ks') (h : AdmAll P (SState.init P) ks) (h' : AdmAll P' (SState.init P') ks') :
    ∃ os os', run P ks = .ok os ∧ run P' ks' = .ok os' ∧
      SameAnswers (essential ks) (essentialAnswers ks os) (essentialAnswers ks' os') := by
  obtain ⟨m, e, R⟩ := construct_sim hP
  obtain ⟨m', e', R'⟩ := construct_sim hP'
  have hi : SState.init P' = SState.init P := by unfold SState.init; rw [hs.order]
  rw [hi] at R' h'
  obtain ⟨os, os', v, v', e2, e2', hsame⟩ := execAll_essential hs ks ks' he rfl ⟨_, rfl⟩ R R' h h'
  refine ⟨os, os', ?_, ?_, hsame⟩
  · unfold run; rw [e]; dsimp only; rw [e2]
  · unfold run; rw [e']; dsimp only; rw [e2']

/-- `smallProgram` with other housekeeping. -/
def tidyProgram : List Call :=
  [.setGcRatio 1 4, .variableD 0, .setCacheRatio 1 2, .variableD 1, .clearCache, .apply Op.AND 0 1, .drop 0,
    .satisfyOne 1 2, .dependencySet 2, .forceGc, .nodeCountOf 2, .nodeCount, .equals 1 2]

theorem tidyProgram_adm : AdmAll bdd3 (SState.init bdd3) tidyProgram := by
  have hv : ∀ m, bdd3.c.fixedDom = some m → bdd3.c.asserts = true → (1 : Int) < m :=
    fun m h _ => by cases h; decide
  have ha : ∀ {p : Prop}, p → false = false := fun _ => rfl
  refine ⟨nofun, ⟨⟨by decide, by decide, by decide⟩, ha⟩, nofun, ⟨show 0 < 3 by decide, ha⟩, nofun,
    ⟨show 0 < 1 by decide, ha⟩, nofun, ⟨show 1 < 3 by decide, ha⟩, nofun, ⟨trivial, ha⟩, nofun,
    ⟨⟨rfl, rfl, _, _, rfl, rfl, ?_⟩, ha⟩, nofun, ⟨Nat.zero_lt_succ _, ha⟩, nofun, ⟨⟨⟨_, rfl⟩, hv⟩, ha⟩, nofun,
    ⟨⟨rfl, _, rfl⟩, ha⟩, nofun, ⟨trivial, ha⟩, nofun, ⟨⟨rfl, _, rfl⟩, ha⟩, nofun, ⟨trivial, ha⟩, nofun,
    ⟨⟨⟨_, rfl⟩, _, rfl⟩, ha⟩, trivial⟩
  exact opOK_AND ((bits_x (by decide) rfl).vals term1_bdd3) ((bits_x (by decide) rfl).vals term1_bdd3)

example : ∃ os os', run bdd3 tidyProgram = .ok os ∧ run bdd3small smallProgram = .ok os' ∧
    SameAnswers (essential smallProgram) (essentialAnswers tidyProgram os) (essentialAnswers smallProgram os') :=
  C66_housekeeping_partial bdd3_ok bdd3small_ok ⟨rfl, rfl, rfl, rfl, rfl, rfl⟩ rfl tidyProgram_adm
    (smallProgram_adm rfl rfl rfl rfl)

/-! ### C61 sizes of results -/

/-- Without reordering, `apply` returns a diagram with at most as many nodes as the product of the numbers of nodes
of the operands. -/
theorem C61_apply (hP : P.OK) (h : Reachable P w σ) (hauto : σ.auto = false) (hcan : σ.canon = true) (hclean : σ.clean = true)
    (hcache : σ.cacheOK = true) {op : BinOp} (hΓ : P.Γ (opType P.c op).id = opType P.c op) {a b : Nat}
    {f g : Asg → Int} (ha : Denotes P w a f) (hb : Denotes P w b g)
    (hop : OpOK P.c (opType P.c op) (Range P.c f) (Range P.c g)) :
    ∃ i w' ka kb k, exec P.c (.nodeCountOf a) w = .ok (.nat ka, w) ∧
      exec P.c (.nodeCountOf b) w = .ok (.nat kb, w) ∧ exec P.c (.apply op a b) w = .ok (.slot i, w') ∧
      exec P.c (.nodeCountOf i) w' = .ok (.nat k, w') ∧ k ≤ ka * kb := by
  have R := reachable_rel hP h
  obtain ⟨f', hf, e1⟩ := R.of_denotes ha
  obtain ⟨g', hg, e2⟩ := R.of_denotes hb
  obtain ⟨o, ea, ka, rfl, -, ca⟩ := asks (k := .nodeCountOf a) hP h ⟨hclean, f', hf⟩ rfl
  obtain ⟨o, eb, kb, rfl, -, cb⟩ := asks (k := .nodeCountOf b) hP h ⟨hclean, g', hg⟩ rfl
  obtain ⟨w', k, e, ek, ck⟩ := made_size (k := .apply op a b) hP h hcan hclean
    ⟨hcache, hΓ, f', g', hf, hg, by rw [e1.range, e2.range]; exact hop⟩ rfl (fun _ => rfl)
  refine ⟨_, w', ka, kb, k, ea, eb, e, ek, ?_⟩
  exact countSubs_binary (ca hcan) (cb hcan) ck

/-- `transform` does not add nodes. -/
theorem C61_transform (hP : P.OK) (h : Reachable P w σ) (hauto : σ.auto = false) (hcan : σ.canon = true) (hclean : σ.clean = true)
    {a : Nat} {f : Asg → Int} (ha : Denotes P w a f) {t : Int → Int}
    (ht : ∀ v, Range P.c f v → TermOK P.c (t v)) :
    ∃ i w' ka k, exec P.c (.nodeCountOf a) w = .ok (.nat ka, w) ∧
      exec P.c (.transform t a) w = .ok (.slot i, w') ∧
      exec P.c (.nodeCountOf i) w' = .ok (.nat k, w') ∧ k ≤ ka := by
  have R := reachable_rel hP h
  obtain ⟨f', hf, e1⟩ := R.of_denotes ha
  obtain ⟨o, ea, ka, rfl, -, ca⟩ := asks (k := .nodeCountOf a) hP h ⟨hclean, f', hf⟩ rfl
  obtain ⟨w', k, e, ek, ck⟩ := made_size (k := .transform t a) hP h hcan hclean
    ⟨f', hf, by rw [e1.range]; exact ht⟩ rfl (fun _ => rfl)
  exact ⟨_, w', ka, k, ea, e, ek, countSubs_unary (ca hcan) ck⟩

/-- `get_cofactor` does not add nodes. -/
theorem C61_cofactor (hP : P.OK) (h : Reachable P w σ) (hauto : σ.auto = false) (hcan : σ.canon = true) (hclean : σ.clean = true)
    {a i v : Nat} {f : Asg → Int} (ha : Denotes P w a f) (hv : i < P.c.n → v < P.c.dom i) :
    ∃ j w' ka k, exec P.c (.nodeCountOf a) w = .ok (.nat ka, w) ∧
      exec P.c (.cofactor a i v) w = .ok (.slot j, w') ∧
      exec P.c (.nodeCountOf j) w' = .ok (.nat k, w') ∧ k ≤ ka := by
  have R := reachable_rel hP h
  obtain ⟨f', hf, -⟩ := R.of_denotes ha
  obtain ⟨o, ea, ka, rfl, -, ca⟩ := asks (k := .nodeCountOf a) hP h ⟨hclean, f', hf⟩ rfl
  obtain ⟨w', k, e, ek, ck⟩ := made_size (k := .cofactor a i v) hP h hcan hclean
    ⟨⟨f', hf⟩, hv⟩ rfl (fun _ => rfl)
  exact ⟨_, w', ka, k, ea, e, ek, countSubs_cofactor hv (ca hcan) ck⟩

/-- x0 xor x1, the negation and a cofactor of x0 ∧ x1. -/
example : ∃ w σ, Reachable bdd3 w σ ∧
    (∃ i w' ka kb k, exec bdd3.c (.nodeCountOf 0) w = .ok (.nat ka, w) ∧
      exec bdd3.c (.nodeCountOf 1) w = .ok (.nat kb, w) ∧ exec bdd3.c (.apply Op.XOR 0 1) w = .ok (.slot i, w') ∧
      exec bdd3.c (.nodeCountOf i) w' = .ok (.nat k, w') ∧ k ≤ ka * kb) ∧
    (∃ i w' ka k, exec bdd3.c (.nodeCountOf 0) w = .ok (.nat ka, w) ∧
      exec bdd3.c (.transform (fun v => 1 - v) 0) w = .ok (.slot i, w') ∧
      exec bdd3.c (.nodeCountOf i) w' = .ok (.nat k, w') ∧ k ≤ ka) ∧
    ∃ i w' ka k, exec bdd3.c (.nodeCountOf 2) w = .ok (.nat ka, w) ∧
      exec bdd3.c (.cofactor 2 1 1) w = .ok (.slot i, w') ∧
      exec bdd3.c (.nodeCountOf i) w' = .ok (.nat k, w') ∧ k ≤ ka := by
  obtain ⟨w, h⟩ := bdd3_world
  have R := reachable_rel bdd3_ok h
  refine ⟨w, _, h, C61_apply (a := 0) (b := 1) bdd3_ok h rfl rfl rfl rfl rfl (R.denotes rfl) (R.denotes rfl)
    (opOK_XOR term1_bdd3 (bits_x (by decide) rfl) (bits_x (by decide) rfl)),
    C61_transform (a := 0) bdd3_ok h rfl rfl rfl (R.denotes rfl) ?_,
    C61_cofactor (a := 2) bdd3_ok h rfl rfl rfl (R.denotes rfl) (fun _ => by decide)⟩
  intro v hv
  rcases bits_x (P := bdd3) (i := 0) (by decide) rfl v hv with rfl | rfl
  · exact term1_bdd3
  · exact term1_bdd3.of_le (by decide) (by decide)

end Properties
end Teddy
