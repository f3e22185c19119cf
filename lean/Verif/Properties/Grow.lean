import Verif.Proofs.Grow
import Verif.Properties.Operations
import Verif.Properties.Reordering

/-!
# C87: get_cofactor at most doubles the number of nodes

In a manager that has not been reordered `get_cofactor` does not add nodes at all (C61).  After a reordering the result may
mix nodes of the operand with rebuilt, reduced nodes.
-/

namespace Teddy
namespace Properties

open SM Spec

variable {P : Setup} {w : World} {σ : SState}

/-- The call succeeds and makes a diagram with at most twice as many nodes as that of handle `a`. -/
def AtMostDoubles (P : Setup) (w : World) (a : Nat) (call : Call) : Prop :=
  ∃ i w' ka k, exec P.c (.nodeCountOf a) w = .ok (.nat ka, w) ∧ exec P.c call w = .ok (.slot i, w') ∧
    exec P.c (.nodeCountOf i) w' = .ok (.nat k, w') ∧ k ≤ 2 * ka

private theorem doubles (hP : P.OK) (h : Reachable P w σ) (hauto : σ.auto = false) (hclean : σ.clean = true) {a : Nat}
    {p : Ptr} {m : Ptr → M Ptr} {call : Call} {f : Asg → Int} (hp : w.slots[a]? = some (some p))
    (hle : ∀ r s', m p w.mgr = .ok (r, s') → ∀ us vs : List Ptr, us.Nodup → (∀ q, q ∈ us ↔ Reach s'.kind r q) →
      (∀ q, q ∈ vs ↔ Reach w.mgr.kind p q) → us.length ≤ 2 * vs.length) (hk : Adm P σ call)
    (hn : ∀ o, next P.c σ call o = { σ with slots := σ.slots ++ [some f] })
    (hm : exec P.c call = (do
      let p ← rootOf a
      making (m p))) : AtMostDoubles P w a call := by
  have R := reachable_rel hP h
  obtain ⟨o, w', e, -, -⟩ := sim R hk (fun _ => hauto)
  have h' := h.step hk e (fun _ => hauto)
  rw [hn] at h'
  have e0 := e
  rw [hm, bind_ok (rootOf_ok hp)] at e
  unfold making at e
  rw [bind_run] at e
  cases e1 : m p w.mgr with
  | error x => simp only [onMgr, e1] at e; cases e
  | ok y =>
      obtain ⟨r, s'⟩ := y
      simp only [onMgr, e1] at e
      cases e
      obtain ⟨vs, -, h2, ea⟩ := counted_nodes hP h hclean hp
      obtain ⟨us, h3, h4, ek⟩ := counted_nodes (w := { w with mgr := s', slots := w.slots ++ [some r] }) (a := w.slots.length)
        (p := r) hP h' hclean (by simp)
      exact ⟨_, _, _, _, ea, e0, ek, hle r s' e1 us vs h3 h4 h2⟩

/-- `get_cofactor(d, i, v)`. -/
theorem C87_cofactor (hP : P.OK) (h : Reachable P w σ) (hauto : σ.auto = false) (hclean : σ.clean = true)
    {a i v : Nat} {f : Asg → Int} (ha : Denotes P w a f) (hv : i < P.c.n → v < P.c.dom i) :
    AtMostDoubles P w a (.cofactor a i v) := by
  have R := reachable_rel hP h
  obtain ⟨f', hf, -⟩ := R.of_denotes ha
  obtain ⟨p, hp, -⟩ := R.has a f' hf
  exact doubles hP h hauto hclean hp (m := fun p => getCofactor P.c p i v) (fun r s' e us vs h1 h2 h3 =>
    getCofactor_grows (E := envOf P σ) hauto R.good (.root (.inr (.inl (extL_pos hp)))) hv e h1 h2 h3) ⟨⟨f', hf⟩, hv⟩
    (fun _ => rfl) rfl

/-- `get_cofactor(d, vars)`. -/
theorem C87_cofactors (hP : P.OK) (h : Reachable P w σ) (hauto : σ.auto = false) (hclean : σ.clean = true)
    {a : Nat} {vars : List (Nat × Nat)} {f : Asg → Int} (ha : Denotes P w a f)
    (hv : ∀ v ∈ vars, v.1 < P.c.n → v.2 < P.c.dom v.1) : AtMostDoubles P w a (.cofactors a vars) := by
  have R := reachable_rel hP h
  obtain ⟨f', hf, -⟩ := R.of_denotes ha
  obtain ⟨p, hp, -⟩ := R.has a f' hf
  exact doubles hP h hauto hclean hp (m := fun p => getCofactors P.c p vars) (fun r s' e us vs h1 h2 h3 =>
    getCofactors_grows (E := envOf P σ) hauto R.good (.root (.inr (.inl (extL_pos hp)))) hv e h1 h2 h3) ⟨⟨f', hf⟩, hv⟩
    (fun _ => rfl) rfl

/-- Cofactors of x0 ∧ x1 after a reordering. -/
example : ∃ w σ, Reachable bdd3 w σ ∧ σ.canon = false ∧ AtMostDoubles bdd3 w 2 (.cofactor 2 1 1) ∧
    AtMostDoubles bdd3 w 2 (.cofactors 2 [(0, 1), (2, 0)]) := by
  obtain ⟨o, w, h⟩ := Reachable.call bdd3_ok bdd3_world .forceReorder trivial
  have ha := (reachable_rel bdd3_ok h).denotes (a := 2) rfl
  exact ⟨w, _, h, rfl, C87_cofactor bdd3_ok h rfl rfl ha (fun _ => by decide),
    C87_cofactors bdd3_ok h rfl rfl ha (by decide)⟩

end Properties
end Teddy
