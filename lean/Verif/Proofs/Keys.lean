import Verif.KeySpec
import Verif.Proofs.Restore
import Verif.Proofs.Program

/-! Calls leave the pointers of the handles that they do not write alone. -/

namespace Teddy

open SM Spec

/-- What is in slot `a` stays there. -/
def Stays (a : Nat) (w w' : World) : Prop := ∀ o, w.slots[a]? = some o → w'.slots[a]? = some o

namespace Stays

variable {a : Nat} {α β : Type}

theorem refl (w : World) : Stays a w w := fun _ h => h

theorem trans (w w' w'' : World) (h : Stays a w w') (h' : Stays a w' w'') : Stays a w w'' := fun o ho => h' o (h o ho)

theorem bind {m : SM World α} {f : α → SM World β} (h : Always m (Stays a)) (hf : ∀ x, Always (f x) (Stays a)) :
    Always (m >>= f) (Stays a) := Always.bind trans h hf

theorem pure (x : α) : Always (Pure.pure x : SM World α) (Stays a) := Always.pure refl

theorem onMgr (m : M α) : Always (onMgr m) (Stays a) := by
  intro w x w' e
  unfold Teddy.onMgr at e
  split at e
  · cases e; exact refl _
  · cases e

theorem rootOf (b : Nat) : Always (rootOf b) (Stays a) := by
  intro w x w' e
  unfold Teddy.rootOf at e
  split at e <;> cases e
  exact refl _

theorem ptrOf (b : Nat) : Always (ptrOf b) (Stays a) := by
  intro w x w' e
  unfold Teddy.ptrOf at e
  split at e <;> cases e
  exact refl _

theorem app (w : World) (T : List (Option Ptr)) : Stays a w { w with slots := w.slots ++ T } := by
  intro o ho
  show (w.slots ++ T)[a]? = _
  rw [List.getElem?_append_left (lt_of_getElem?_some ho)]
  exact ho

theorem push (p : Ptr) : Always (push p) (Stays a) := by
  intro w x w' e
  cases e
  exact app w _

theorem pushAll (ps : List Ptr) : Always (pushAll ps) (Stays a) := by
  intro w x w' e
  cases e
  exact app w _

theorem making (m : M Ptr) : Always (making m) (Stays a) := bind (onMgr m) fun _ => push _

theorem mapL (f : α → SM World β) (h : ∀ x, Always (f x) (Stays a)) (l : List α) :
    Always (mapL f l) (Stays a) := by
  induction l with
  | nil => exact pure _
  | cons x l ih => exact bind (h x) fun _ => bind ih fun _ => pure _

theorem roots (l : List Nat) : Always (Teddy.mapL Teddy.rootOf l) (Stays a) := mapL _ (fun b => rootOf b) l

end Stays

/-- Take a call apart. -/
macro "stays" : tactic => `(tactic| repeat' (first
  | exact Stays.pure _
  | exact Stays.onMgr _
  | exact Stays.rootOf _
  | exact Stays.ptrOf _
  | exact Stays.roots _
  | exact Stays.making _
  | exact Stays.pushAll _
  | refine Stays.bind ?_ (fun _ => ?_)
  | exact Always.throw
  | split))

theorem assignSlot_eq {xs ys : List (Option Ptr)} {i : Nat} {v : Option Ptr} {s s' : Mgr}
    (e : assignSlot xs i v s = .ok (ys, s')) : ys = xs.set i v := by
  unfold assignSlot at e
  cases h : xs[i]? with
  | none => rw [h] at e; cases e
  | some o =>
      rw [h] at e
      cases o with
      | none => cases e; rfl
      | some p =>
          change (decRef p >>= fun _ => pure _) s = _ at e
          rw [bind_run] at e
          split at e
          · cases e; rfl
          · cases e

theorem Stays.set {w : World} {a b : Nat} {v : Option Ptr} (s : Mgr) (h : b ≠ a) :
    Stays a w ⟨s, w.slots.set b v⟩ := by
  intro o ho
  show (w.slots.set b v)[a]? = _
  rw [List.getElem?_set_ne h]
  exact ho

theorem Stays.set2 {w : World} {a b d : Nat} {u v : Option Ptr} (s : Mgr) (h : b ≠ a) (h' : d ≠ a) :
    Stays a w ⟨s, (w.slots.set b u).set d v⟩ := by
  intro o ho
  show ((w.slots.set b u).set d v)[a]? = _
  rw [List.getElem?_set_ne h', List.getElem?_set_ne h]
  exact ho

/-- Only some calls write handles. -/
theorem exec_stays (c : Cfg) (k : Call) (a : Nat) (hk : ¬ k.writes a) : Always (exec c k) (Stays a) := by
  cases k
  case assign b d =>
    have hb : b ≠ a := fun h => hk h.symm
    simp only [exec]
    refine Stays.bind (Stays.rootOf _) fun p => Stays.bind (Stays.onMgr _) fun q => ?_
    intro w x w' e
    rw [bind_ok (get_run w), bind_run] at e
    unfold onMgr at e
    cases h : assignSlot w.slots b (some q) w.mgr with
    | error x => rw [h] at e; cases e
    | ok r =>
        obtain ⟨ys, s'⟩ := r
        rw [h] at e
        cases e
        rw [assignSlot_eq h]
        exact Stays.set _ hb
  case move b d =>
    have hb : b ≠ a := fun h => hk (.inl h.symm)
    have hd : d ≠ a := fun h => hk (.inr h.symm)
    simp only [exec]
    intro w x w' e
    rw [bind_ok (get_run w), bind_run] at e
    unfold onMgr at e
    cases h : moveSlot w.slots b d w.mgr with
    | error x => rw [h] at e; cases e
    | ok r =>
        obtain ⟨ys, s'⟩ := r
        rw [h] at e
        cases e
        obtain ⟨v, -, hy⟩ := moveSlot_eq h
        rw [hy]
        exact Stays.set2 _ hd hb
  case drop b =>
    have hb : b ≠ a := fun h => hk h.symm
    simp only [exec]
    refine Always.bindGet fun w0 => ?_
    split
    · refine Stays.bind (Stays.onMgr _) fun _ => Stays.bind ?_ fun _ => Stays.pure _
      exact Always.modify fun w => Stays.set _ hb
    · exact Stays.pure _
    · exact Always.throw
  case swap b d =>
    have hb : b ≠ a := fun h => hk (.inl h.symm)
    have hd : d ≠ a := fun h => hk (.inr h.symm)
    simp only [exec]
    refine Stays.bind (Stays.ptrOf _) fun p => Stays.bind (Stays.ptrOf _) fun q =>
      Stays.bind (Always.modify fun w => Stays.set2 _ hb hd) fun _ => Stays.pure _
  all_goals unfold exec; stays

theorem execAll_stays (c : Cfg) (a : Nat) : ∀ ks : List Call, (∀ k ∈ ks, ¬ k.writes a) → Always (execAll c ks) (Stays a)
  | [], _ => Stays.pure _
  | k :: ks, h => Stays.bind (exec_stays c k a (h k (by simp))) fun _ =>
      Stays.bind (execAll_stays c a ks fun k hk => h k (by simp [hk])) fun _ => Stays.pure _

section
variable {P : Setup}

/-- … and so do the functions of the specification. -/
theorem next_stays (c : Cfg) (σ : SState) {k : Call} {a : Nat} (hk : ¬ k.writes a) (o : Out) {f : Asg → Int}
    (h : σ.Has a f) : (next c σ k o).Has a f := by
  cases k
  case assign b d =>
    have hb : b ≠ a := fun h => hk h.symm
    show (σ.slots.set b _)[a]? = _
    rw [List.getElem?_set_ne hb]; exact h
  case drop b =>
    have hb : b ≠ a := fun h => hk h.symm
    show (σ.slots.set b _)[a]? = _
    rw [List.getElem?_set_ne hb]; exact h
  case move b d =>
    have hb : b ≠ a := fun h => hk (.inl h.symm)
    have hd : d ≠ a := fun h => hk (.inr h.symm)
    show ((σ.slots.set d none).set b _)[a]? = _
    rw [List.getElem?_set_ne hb, List.getElem?_set_ne hd]; exact h
  case swap b d =>
    have hb : b ≠ a := fun h => hk (.inl h.symm)
    have hd : d ≠ a := fun h => hk (.inr h.symm)
    show ((σ.slots.set b _).set d _)[a]? = _
    rw [List.getElem?_set_ne hd, List.getElem?_set_ne hb]; exact h
  all_goals first | exact h | exact h.append _

theorem execAll_kept : ∀ (ks : List Call) {σ : SState} {w : World} {a : Nat} {f : Asg → Int}, Reachable P w σ → P.OK →
    AdmAll P σ ks → σ.canon = true → (∀ k ∈ ks, ¬ k.writes a) → σ.Has a f →
    ∃ os w' σ', execAll P.c ks w = .ok (os, w') ∧ Reachable P w' σ' ∧ σ'.canon = true ∧ σ'.Has a f
  | [], σ, w, _, _, h, _, _, hc, _, hf => ⟨[], w, σ, rfl, h, hc, hf⟩
  | k :: ks, σ, w, a, f, h, hP, ha, hc, hw, hf => by
      obtain ⟨hk, ⟨ha1, ha2⟩, ha3⟩ := ha
      obtain ⟨o, v, e, -, -⟩ := sim (reachable_rel hP h) ha1 ha2
      have h1 := Reachable.step h ha1 e ha2
      rw [next_out _ _ hk] at h1
      obtain ⟨os, w', σ', e2, h2, hc2, hf2⟩ := execAll_kept ks h1 hP ha3 (by rw [next_canon _ _ hk]; exact hc)
        (fun k hk => hw k (by simp [hk])) (next_stays _ _ (hw k (by simp)) _ hf)
      refine ⟨o :: os, w', σ', ?_, h2, hc2, hf2⟩
      simp only [execAll]
      rw [bind_ok e, bind_ok e2]
      rfl

end

end Teddy
