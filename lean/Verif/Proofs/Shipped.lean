import Verif.Proofs.Program
import Verif.Demo
import Verif.Shipped

/-!
# Running the shipped examples
-/

namespace Teddy

open SM Spec

variable {P : Setup}

/-- What the calls of a program without `force_reorder` return. -/
def OutsOK (P : Setup) : SState → List Call → List Out → Prop
  | _, [], [] => True
  | σ, k :: ks, o :: os => OutOK P σ o k ∧ OutsOK P (next P.c σ k .unit) ks os
  | _, _, _ => False

theorem OutsOK.cons {σ : SState} {k : Call} {ks : List Call} {os : List Out} (h : OutsOK P σ (k :: ks) os) :
    ∃ o os', os = o :: os' ∧ OutOK P σ o k ∧ OutsOK P (next P.c σ k .unit) ks os' := by
  cases os with
  | nil => exact h.elim
  | cons o os' => exact ⟨o, os', rfl, h.1, h.2⟩

theorem OutsOK.nil {σ : SState} {os : List Out} (h : OutsOK P σ [] os) : os = [] := by
  cases os with
  | nil => rfl
  | cons o os' => exact h.elim

theorem execAll_outs : ∀ (ks : List Call) {σ : SState} {w : World}, Reachable P w σ → P.OK → AdmAll P σ ks →
    ∃ os w' σ', execAll P.c ks w = .ok (os, w') ∧ OutsOK P σ ks os ∧ Reachable P w' σ' ∧
      σ' = ks.foldl (fun σ k => next P.c σ k .unit) σ
  | [], σ, w, h, _, _ => ⟨[], w, σ, rfl, trivial, h, rfl⟩
  | k :: ks, σ, w, h, hP, ha => by
      obtain ⟨hk, ha1, ha2⟩ := ha
      obtain ⟨o, v, e, ho, r⟩ := sim (reachable_rel hP h) ha1.1 ha1.2
      have h' := Reachable.step h ha1.1 e ha1.2
      rw [next_out _ _ hk] at h'
      obtain ⟨os, w', σ', e2, h2, h3, h4⟩ := execAll_outs ks h' hP ha2
      refine ⟨o :: os, w', σ', ?_, ⟨ho, h2⟩, h3, h4⟩
      simp only [execAll]
      rw [bind_ok e, bind_ok e2]
      rfl

end Teddy
