import Verif.NodeManager
import Verif.Proofs.Loops

/-! Relations between the states before and after every successful run. -/

namespace Teddy

open SM

/-- Every successful run of `m` relates the states before and after by `R`. -/
def Always {σ α : Type} (m : SM σ α) (R : σ → σ → Prop) : Prop :=
  ∀ s a s', m s = .ok (a, s') → R s s'

theorem Always.bind {σ α β : Type} {m : SM σ α} {f : α → SM σ β} {R : σ → σ → Prop}
    (tr : ∀ a b d, R a b → R b d → R a d) (h : Always m R) (hf : ∀ a, Always (f a) R) :
    Always (m >>= f) R := by
  intro s b s' e
  rw [bind_run] at e
  split at e
  · rename_i a s1 e1
    exact tr _ _ _ (h s a s1 e1) (hf a s1 b s' e)
  · cases e

theorem Always.bindGet {σ β : Type} {f : σ → SM σ β} {R : σ → σ → Prop}
    (hf : ∀ a, Always (f a) R) : Always (MonadState.get >>= f) R := fun s b s' e => hf s s b s' e

theorem Always.pure {σ α : Type} {a : α} {R : σ → σ → Prop} (rf : ∀ s, R s s) :
    Always (Pure.pure a : SM σ α) R := by
  intro s b s' e
  cases e
  exact rf s

theorem Always.modify {σ : Type} {g : σ → σ} {R : σ → σ → Prop} (h : ∀ s, R s (g s)) :
    Always (_root_.modify g : SM σ PUnit) R := by
  intro s b s' e
  cases e
  exact h s

theorem Always.throw {σ α : Type} {e : Err} {R : σ → σ → Prop} : Always (throw e : SM σ α) R := by
  intro s b s' e
  cases e

theorem Always.forL {σ α : Type} {f : α → SM σ Unit} {R : σ → σ → Prop} (rf : ∀ s, R s s)
    (tr : ∀ a b d, R a b → R b d → R a d) (hf : ∀ a, Always (f a) R) :
    ∀ l, Always (Teddy.forL f l) R
  | [] => Always.pure rf
  | a :: l => Always.bind tr (hf a) fun _ => Always.forL rf tr hf l

theorem chkUsed_same (p : Ptr) : Always (chkUsed p) fun s s' => s' = s := by
  intro s a s' e
  unfold chkUsed at e
  rw [bind_run] at e
  simp only [get_run] at e
  split at e
  · cases e; rfl
  · cases e

theorem Always.mono {σ α : Type} {m : SM σ α} {R R' : σ → σ → Prop} (h : Always m R)
    (hr : ∀ s s', R s s' → R' s s') : Always m R' := fun s a s' e => hr _ _ (h s a s' e)

theorem afterChk {α : Type} {p : Ptr} {f : Unit → M α} {R : Mgr → Mgr → Prop}
    (h : Always (f ()) R) : Always (chkUsed p >>= f) R := by
  intro s b s' e
  rw [bind_run] at e
  split at e
  · rename_i a s1 e1
    have h1 := chkUsed_same p s a s1 e1
    rw [h1] at e
    exact h s b s' e
  · cases e

end Teddy
