import Verif.Proofs.Shrink
import Verif.Properties.Diagrams
import Verif.Properties.Reordering
import Verif.Properties.Violations

/-!
# C86: transform, negate and reduce never return more nodes than they get

C61 says this of `transform` in managers that have not been reordered, where every diagram is reduced.  Here the diagram may
contain redundant nodes and several nodes with the same sons, as a reordering leaves them.
-/

namespace Teddy
namespace Properties

open SM Spec

variable {P : Setup} {w : World} {σ : SState}

/-- The call succeeds and makes a diagram with at most as many nodes as that of handle `a`. -/
def Shrinks (P : Setup) (w : World) (a : Nat) (call : Call) : Prop :=
  ∃ i w' ka k, exec P.c (.nodeCountOf a) w = .ok (.nat ka, w) ∧ exec P.c call w = .ok (.slot i, w') ∧
    exec P.c (.nodeCountOf i) w' = .ok (.nat k, w') ∧ k ≤ ka

private theorem shrinks (hP : P.OK) (h : Reachable P w σ) (hauto : σ.auto = false) (hclean : σ.clean = true) {a : Nat}
    {p : Ptr} {t : Int → Int} {call : Call} {f : Asg → Int} (hp : w.slots[a]? = some (some p))
    (hT : ∀ b, LeafVal w.mgr.kind p b → TermOK P.c (t b)) (hk : Adm P σ call)
    (hn : ∀ o, next P.c σ call o = { σ with slots := σ.slots ++ [some f] })
    (hm : exec P.c call = (do
      let p ← rootOf a
      making (transform P.c t p))) : Shrinks P w a call := by
  have R := reachable_rel hP h
  obtain ⟨o, w', e, -, -⟩ := sim R hk (fun _ => hauto)
  have h' := h.step hk e (fun _ => hauto)
  rw [hn] at h'
  have e0 := e
  rw [hm, bind_ok (rootOf_ok hp)] at e
  unfold making at e
  rw [bind_run] at e
  cases e1 : transform P.c t p w.mgr with
  | error x => simp only [onMgr, e1] at e; cases e
  | ok y =>
      obtain ⟨r, s'⟩ := y
      simp only [onMgr, e1] at e
      cases e
      obtain ⟨vs, -, h2, ea⟩ := counted_nodes hP h hclean hp
      obtain ⟨us, h3, h4, ek⟩ := counted_nodes (w := { w with mgr := s', slots := w.slots ++ [some r] }) (a := w.slots.length)
        (p := r) hP h' hclean (by simp)
      exact ⟨_, _, _, _, ea, e0, ek, transform_shrinks (E := envOf P σ) hauto R.good (.root (.inr (.inl (extL_pos hp)))) hT
        e1 h3 h4 h2⟩

/-- `transform(d, g)`, for every function `g` that returns values a terminal node can hold. -/
theorem C86_transform (hP : P.OK) (h : Reachable P w σ) (hauto : σ.auto = false) (hclean : σ.clean = true)
    {a : Nat} {f : Asg → Int} (ha : Denotes P w a f) {t : Int → Int}
    (ht : ∀ v, Range P.c f v → TermOK P.c (t v)) : Shrinks P w a (.transform t a) := by
  have R := reachable_rel hP h
  obtain ⟨f', hf, e1⟩ := R.of_denotes ha
  obtain ⟨p, hp, hd⟩ := R.has a f' hf
  rw [← e1.range] at ht
  exact shrinks hP h hauto hclean hp (fun b hb => ht b ((leafVal_iff R.good (R.used hp) hd).1 hb)) ⟨f', hf, ht⟩
    (fun _ => rfl) rfl

/-- `negate(d)` of a Boolean function. -/
theorem C86_negate (hP : P.OK) (h : Reachable P w σ) (hauto : σ.auto = false) (hclean : σ.clean = true)
    {a : Nat} {f : Asg → Int} (ha : Denotes P w a f) (ht : ∀ v, Range P.c f v → TermOK P.c (1 - v)) :
    Shrinks P w a (.negate a) := by
  have R := reachable_rel hP h
  obtain ⟨f', hf, e1⟩ := R.of_denotes ha
  obtain ⟨p, hp, hd⟩ := R.has a f' hf
  rw [← e1.range] at ht
  exact shrinks hP h hauto hclean hp (fun b hb => ht b ((leafVal_iff R.good (R.used hp) hd).1 hb)) ⟨f', hf, ht⟩
    (fun _ => rfl) rfl

/-- `reduce(d)`. -/
theorem C86_reduce (hP : P.OK) (h : Reachable P w σ) (hauto : σ.auto = false) (hclean : σ.clean = true)
    {a : Nat} {f : Asg → Int} (ha : Denotes P w a f) (ht : ∀ v, Range P.c f v → TermOK P.c v) :
    Shrinks P w a (.reduce a) := by
  have R := reachable_rel hP h
  obtain ⟨f', hf, e1⟩ := R.of_denotes ha
  obtain ⟨p, hp, hd⟩ := R.has a f' hf
  rw [← e1.range] at ht
  exact shrinks hP h hauto hclean hp (fun b hb => ht b ((leafVal_iff R.good (R.used hp) hd).1 hb)) ⟨f', hf, ht⟩
    (fun _ => rfl) rfl

/-- x0 ∧ x1 after a reordering: negated, reduced and transformed. -/
example : ∃ w σ, Reachable bdd3 w σ ∧ σ.canon = false ∧ Shrinks bdd3 w 2 (.negate 2) ∧ Shrinks bdd3 w 2 (.reduce 2) ∧
    Shrinks bdd3 w 2 (.transform (fun v => v * v) 2) := by
  obtain ⟨o, w, h⟩ := Reachable.call bdd3_ok bdd3_world .forceReorder trivial
  have ha := (reachable_rel bdd3_ok h).denotes (a := 2) rfl
  have hr : ∀ v, Range bdd3.c (fun x => Op.AND.val (x 0) (x 1)) v → v = 0 ∨ v = 1 := by
    rintro v ⟨x, hx, rfl⟩
    exact bdd3_bits (fun x => Op.AND.val (x 0) (x 1)) (by simp) x hx
  have t0 : TermOK bdd3.c 0 := ⟨by decide, fun _ m h => by cases h; decide⟩
  have t1 := term1_bdd3
  refine ⟨w, _, h, rfl, C86_negate bdd3_ok h rfl rfl ha ?_, C86_reduce bdd3_ok h rfl rfl ha ?_,
    C86_transform bdd3_ok h rfl rfl ha ?_⟩
  all_goals
    intro v hv
    rcases hr v hv with rfl | rfl
    · first | exact t0 | exact t1
    · first | exact t0 | exact t1

/-- A redundant node left by a reordering (see `C59_violated_same_order`): x1 has 4 nodes, and 3 when it is reduced. -/
example : run (bdd2 100 50) [.variableD 1, .fromVector [0, 0, 0, 1], .forceGc, .forceReorder, .nodeCountOf 0, .reduce 0,
      .nodeCountOf 2, .negate 0, .nodeCountOf 3] =
    .ok [.slot 0, .slot 1, .unit, .nats [0, 1], .nat 4, .slot 2, .nat 3, .slot 3, .nat 3] := by decide +kernel

end Properties
end Teddy
