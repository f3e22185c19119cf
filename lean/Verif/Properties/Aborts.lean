import Verif.Proofs.Aborts
import Verif.Demo

/-!
# Extended derivatives and minimal vectors on managers with a fixed domain and assertions

The witnesses of `C33_violated` and `C34_violated` are no exceptions: on such managers the functions never return.
-/

namespace Teddy
namespace Properties

open SM Spec

variable {P : Setup} {w : World} {σ : SState}

/-- **C33.** On a manager with `m ≥ 2` values per variable and assertions enabled, `to_dpld_e(from, var, d)` fails an
assertion for every diagram that does not depend on `var`. -/
theorem C33_violated_always (hP : P.OK) (h : Reachable P w σ) (hcan : σ.canon = true) {m : Nat}
    (hfix : P.c.fixedDom = some m) (hass : P.c.asserts = true) (h2 : 2 ≤ m) (hm : (m : Int) ≤ Undefined) {a : Nat}
    {f : Asg → Int} (ha : Denotes P w a f) {var : Nat} (hv : var < P.c.n) (hd : ¬ DependsOn P.c.n P.c.dom f var)
    (varFrom : Nat) : exec P.c (.toDpldE varFrom var a) w = .error .assertion := by
  have R := reachable_rel hP h
  obtain ⟨f', hf', e1⟩ := R.of_denotes ha
  obtain ⟨p, hp, hden⟩ := R.has a f' hf'
  have hi := R.good.inv
  have hA : Aborts (toDpldE P.c varFrom var p) w.mgr .assertion := by
    refine toDpldE_aborts (E := envOf P σ) ⟨hfix, hass, h2, hm⟩ R.good hv (R.used hp) ?_
    intro q hq ss hk
    exact hd (e1.dependsOn ((tested_iff hi R.good.ord R.good.cfg (R.good.canon hcan) (R.used hp) hden hv).1
      ⟨q, ss, hq, hk⟩))
  simp only [exec]
  rw [bind_ok (rootOf_ok hp)]
  simp only [making, onMgr, bind_run]
  rw [show toDpldE P.c varFrom var p w.mgr = _ from hA]

/-- **C34, C35.** On such managers `mcvs`, `mpvs` and `mpvs_g` fail an assertion for every diagram and every state. -/
theorem C34_violated_always (hP : P.OK) (h : Reachable P w σ) (hauto : σ.auto = false) {m : Nat}
    (hfix : P.c.fixedDom = some m) (hass : P.c.asserts = true) (h2 : 2 ≤ m) (hm : (m : Int) ≤ Undefined) {a : Nat}
    {f : Asg → Int} (ha : Denotes P w a f) (s : Int) :
    exec P.c (.mcvs s a) w = .error .assertion ∧ exec P.c (.mpvs s a) w = .error .assertion ∧
      exec P.c (.mpvsG s a) w = .error .assertion := by
  have R := reachable_rel hP h
  obtain ⟨f', hf', e1⟩ := R.of_denotes ha
  obtain ⟨p, hp, hden⟩ := R.has a f' hf'
  have hdom : ∃ i, i < P.c.n ∧ 2 ≤ P.c.dom i := ⟨0, by have := hP.vars; omega, by
    rw [hP.cfg.2 m hfix 0 (by have := hP.vars; omega)]; exact h2⟩
  obtain ⟨n1, n2⟩ := cutChanges_ne hdom
  have key : ∀ ch vcs, vcs ≠ [] →
      (∀ vc ∈ vcs, vc.index < P.c.n ∧ vc.from < P.c.dom vc.index ∧ vc.to < P.c.dom vc.index) →
      vectorsG P.c ch p vcs w.mgr = .error .assertion := fun ch vcs hne hvc =>
    vectorsG_aborts (E := envOf P σ) ⟨hfix, hass, h2, hm⟩ hauto R.good (extL_pos hp) hden hne hvc
  have hc : ∀ vc ∈ cutChanges P.c, vc.index < P.c.n ∧ vc.from < P.c.dom vc.index ∧ vc.to < P.c.dom vc.index := by
    intro vc hvc
    obtain ⟨h1, h2, h3⟩ := mem_cutChanges.1 hvc
    exact ⟨h1, by omega, by omega⟩
  have hp' : ∀ vc ∈ pathChanges P.c, vc.index < P.c.n ∧ vc.from < P.c.dom vc.index ∧ vc.to < P.c.dom vc.index := by
    intro vc hvc
    obtain ⟨h1, h2, h3⟩ := mem_pathChanges.1 hvc
    exact ⟨h1, by omega, by omega⟩
  refine ⟨?_, ?_, ?_⟩ <;> simp only [exec] <;> rw [bind_ok (rootOf_ok hp)] <;>
    simp only [onMgr, bind_run, mpvs, mcvs, mpvsG]
  · rw [key _ _ n1 hc]
  · rw [key _ _ n1 hc]
  · rw [key _ _ n2 hp']

/-- The hypotheses are met by x0 ∧ x1 on a `bdd_manager` of three variables. -/
example : ∃ w σ, Reachable bdd3 w σ ∧ exec bdd3.c (.toDpldE 1 2 2) w = .error .assertion ∧
    exec bdd3.c (.mcvs 1 2) w = .error .assertion := by
  obtain ⟨w, h⟩ := bdd3_world
  have hd := (reachable_rel bdd3_ok h).denotes (a := 2) rfl
  refine ⟨w, _, h, C33_violated_always bdd3_ok h rfl rfl rfl (by decide) (by decide) hd (by decide) ?_ 1,
    (C34_violated_always bdd3_ok h rfl rfl rfl (by decide) (by decide) hd 1).1⟩
  rintro ⟨x, k, _, _, hne⟩
  exact hne (by simp [upd_apply])

end Properties
end Teddy
