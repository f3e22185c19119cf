import Verif.Proofs.Loops

/-! Computations that either end normally or fail with an error of a given kind. -/

namespace Teddy
namespace SM

variable {σ α β : Type} {E : Err → Prop}

/-- From `s` the computation ends normally in a state satisfying `Q`, or fails with an error in `E`. -/
def OkE (E : Err → Prop) (m : SM σ α) (s : σ) (Q : α → σ → Prop) : Prop :=
  match m s with
  | .ok (a, s') => Q a s'
  | .error e => E e

theorem OkE.of_ok {m : SM σ α} {s : σ} {Q : α → σ → Prop} (h : Ok m s Q) : OkE E m s Q := by
  obtain ⟨a, s', e, q⟩ := h
  simp only [OkE, e]
  exact q

theorem OkE.ok {m : SM σ α} {s : σ} {Q : α → σ → Prop} (h : OkE (fun _ => False) m s Q) : Ok m s Q := by
  unfold OkE at h
  cases e : m s with
  | ok r => rw [e] at h; exact ⟨r.1, r.2, e, h⟩
  | error _ => rw [e] at h; exact h.elim

theorem OkE.mono {m : SM σ α} {s : σ} {Q R : α → σ → Prop} (h : OkE E m s Q)
    (hqr : ∀ a s', Q a s' → R a s') : OkE E m s R := by
  unfold OkE at h ⊢
  cases e : m s with
  | ok r => rw [e] at h; exact hqr _ _ h
  | error _ => rw [e] at h; exact h

theorem OkE.bind {m : SM σ α} {f : α → SM σ β} {s : σ} {Q : α → σ → Prop} {R : β → σ → Prop}
    (h : OkE E m s Q) (hf : ∀ a s', Q a s' → OkE E (f a) s' R) : OkE E (m >>= f) s R := by
  unfold OkE at h ⊢
  rw [bind_run]
  cases e : m s with
  | ok r => rw [e] at h; exact hf _ _ h
  | error _ => rw [e] at h; exact h

theorem OkE.bindEq {m : SM σ α} {f : α → SM σ β} {s s' : σ} {a : α} {R : β → σ → Prop}
    (e : m s = .ok (a, s')) (h : OkE E (f a) s' R) : OkE E (m >>= f) s R := by
  unfold OkE at h ⊢
  rw [bind_ok e]
  exact h

theorem OkE.bindGet {f : σ → SM σ β} {s : σ} {R : β → σ → Prop}
    (h : OkE E (f s) s R) : OkE E (MonadState.get >>= f) s R := OkE.bindEq rfl h

theorem OkE.pure {a : α} {s : σ} {Q : α → σ → Prop} (h : Q a s) :
    OkE E (Pure.pure a : SM σ α) s Q := h

/-- If only errors are possible. -/
theorem OkE.error {m : SM σ α} {s : σ} {e : Err} {Q : α → σ → Prop} (h : OkE (· = e) m s Q)
    (hq : ∀ a s', ¬ Q a s') : m s = .error e := by
  unfold OkE at h
  cases e' : m s with
  | ok r => rw [e'] at h; exact (hq _ _ h).elim
  | error _ => rw [e'] at h; rw [h]

theorem foldL_ruleE {τ : Type} {f : α → τ → SM σ τ} (I : List α → τ → σ → Prop)
    (hf : ∀ a l t s, I (a :: l) t s → OkE E (f a t) s (fun t' s' => I l t' s')) :
    ∀ (l : List α) (t : τ) (s : σ), I l t s → OkE E (foldL f l t) s (fun t' s' => I [] t' s') := by
  intro l
  induction l with
  | nil => intro t s h; exact OkE.pure h
  | cons a l ih =>
      intro t s h
      exact (hf a l t s h).bind fun t' s' h' => ih t' s' h'

end SM
end Teddy
