import Verif.Proofs.Repair

/-!
# Diagrams without marks

`from_expression_tree` leaves marks, but not on nodes of the diagram it returns.  `dpld` returns a diagram without marks as
well, and calls other than `from_expression_tree` leave no marks.
-/

namespace Teddy

open SM Spec

section
variable {P : Setup} {w : World} {σ : SState}

/-- No node of the diagram in slot `a` is marked. -/
def Unmarked (w : World) (a : Nat) : Prop := ∃ p, w.slots[a]? = some (some p) ∧ CleanBelow w.mgr p

theorem CleanBelow.of_tidy {s : Mgr} {r : Ptr} (h : TidyBelow (fun _ => False) r s) : CleanBelow s r := by
  intro q hq
  cases hm : s.mark q with
  | false => rfl
  | true => exact (h q hq hm).elim

theorem CleanBelow.keepsH {ext : Ptr → Nat} {s s' : Mgr} (k : KeepsH ext s s') (hm : ∀ p, s'.mark p = true → s.mark p = true)
    {r : Ptr} (hr : 0 < ext r) (h : CleanBelow s r) : CleanBelow s' r := by
  have back : ∀ {p q}, Reach s'.kind p q → Reach s.kind r p → Reach s.kind p q := by
    intro p q h1
    induction h1 with
    | refl => exact fun _ => .refl
    | step e hmem _ ih =>
        intro hp
        rw [k.kind r _ hr hp] at e
        exact .step e hmem (ih (hp.trans (.step e hmem .refl)))
  intro q hq
  cases hmq : s'.mark q with
  | false => rfl
  | true =>
      have := h q (back hq .refl)
      rw [hm q hmq] at this
      exact this

theorem Unmarked.same {w' : World} (h : SameDiagrams w w') {a : Nat} (ha : Unmarked w a) : Unmarked w' a := by
  obtain ⟨p, h1, h2⟩ := ha
  refine ⟨p, by rw [h.slots]; exact h1, fun q hq => ?_⟩
  rw [h.data.mark]
  rw [h.data.kind] at hq
  exact h2 q hq

/-- A call that makes a diagram and leaves no marks. -/
theorem making_unmarked (R : Rel P σ w) {m : M Ptr} {f : Asg → Int}
    (h : Ok m w.mgr (fun r s' => Res (envOf P σ) (extW w) w.mgr f r s')) :
    Ok (making m) w (fun o w' => o = .slot σ.slots.length ∧ Rel P { σ with slots := σ.slots ++ [some f] } w' ∧
      ∀ a, Unmarked w a → Unmarked w' a) := by
  obtain ⟨r, s, e, res⟩ := h
  obtain ⟨o, w', e', rfl, R'⟩ := making_ok R ⟨r, s, e, res⟩
  refine ⟨_, _, e', rfl, R', ?_⟩
  unfold making at e'
  rw [bind_ok (show onMgr m w = .ok (r, { w with mgr := s }) by simp [onMgr, e])] at e'
  obtain ⟨_, rfl⟩ := Prod.mk.inj (Except.ok.inj e')
  rintro a ⟨p, h1, h2⟩
  refine ⟨p, ?_, h2.keepsH res.keeps res.mark (extL_pos h1)⟩
  have hl : a < w.slots.length := by
    by_contra hc
    rw [List.getElem?_eq_none (by omega)] at h1
    cases h1
  show (w.slots ++ [some r])[a]? = _
  rw [List.getElem?_append_left hl]
  exact h1

/-- The same for a diagram without marks. -/
theorem making_clean (R : Rel P σ w) {m : M Ptr} {f : Asg → Int}
    (h : Ok m w.mgr (fun r s' => Res (envOf P σ) (extW w) w.mgr f r s' ∧ CleanBelow s' r)) :
    Ok (making m) w (fun o w' => o = .slot σ.slots.length ∧ Rel P { σ with slots := σ.slots ++ [some f] } w' ∧
      (∀ a, Unmarked w a → Unmarked w' a) ∧ Unmarked w' σ.slots.length) := by
  obtain ⟨o, w', e', rfl, R', hu⟩ := making_unmarked R (h.mono fun _ _ h => h.1)
  obtain ⟨_, _, e2, _, _, p, hp, hc⟩ := making_tidy R h
  rw [e'] at e2
  obtain ⟨_, rfl⟩ := Prod.mk.inj (Except.ok.inj e2)
  exact ⟨_, _, e', rfl, R', hu, p, by rw [← R.len]; exact hp, hc⟩

/-- `from_expression_tree`: no node of the result is marked. -/
theorem fromExpr_unmarked (R : Rel P σ w) (hauto : σ.auto = false) {e : Expr} (he : e.OK P.c) :
    Ok (exec P.c (.fromExpr e)) w (fun o w' => o = .slot σ.slots.length ∧
      Rel P { σ with slots := σ.slots ++ [some fun x => e.val x], clean := false } w' ∧ Unmarked w' σ.slots.length) := by
  obtain ⟨r, s, e1, res, tb⟩ := fromExpressionTree_good (E := envOf P σ) hauto R.good he
  obtain ⟨o, w', e', rfl, R'⟩ := making_core R false ⟨r, s, e1, res, by simp⟩
  refine ⟨_, _, e', rfl, R', r, ?_⟩
  change making (fromExpressionTree P.c e) w = _ at e'
  unfold making at e'
  rw [bind_ok (show onMgr (fromExpressionTree P.c e) w = .ok (r, { w with mgr := s }) by
    simp only [onMgr]; rw [show fromExpressionTree P.c e w.mgr = _ from e1])] at e'
  obtain ⟨_, rfl⟩ := Prod.mk.inj (Except.ok.inj e')
  exact ⟨by rw [← R.len]; simp, .of_tidy tb⟩

/-- `dpld`: no node of the result is marked. -/
theorem dpld_unmarked (R : Rel P σ w) (hauto : σ.auto = false) {vc : VarChange} {ch : Int → Int → Bool} {a : Nat}
    {f : Asg → Int} (hf : σ.Has a f) (h1 : TermOK P.c 1)
    (hv : vc.index < P.c.n → vc.from < P.c.dom vc.index ∧ vc.to < P.c.dom vc.index) :
    Ok (exec P.c (.dpld vc ch a)) w (fun o w' => o = .slot σ.slots.length ∧
      Rel P { σ with slots := σ.slots ++
        [some fun x => b2i (ch (f (upd x vc.index vc.from)) (f (upd x vc.index vc.to)))] } w' ∧
      (∀ a, Unmarked w a → Unmarked w' a) ∧ Unmarked w' σ.slots.length) := by
  obtain ⟨p, hp, hd⟩ := R.has a f hf
  simp only [exec]
  refine Ok.bindEq (rootOf_ok hp) ?_
  exact making_clean R ((dpld_tidy (E := envOf P σ) hauto R.good (handle_prot (extL_pos hp)) hd (fun h => (hv h).1)
    (fun h => (hv h).2) (h1.of_le (by omega) (by omega)) h1).mono fun _ _ h => ⟨h.1.res, .of_tidy h.2.2⟩)

/-- `to_dpld_e` leaves no marks. -/
theorem toDpldE_unmarked (R : Rel P σ w) (hauto : σ.auto = false) (hcan : σ.canon = true) {varFrom var a : Nat}
    {f : Asg → Int} (hf : σ.Has a f) (hU : TermOK P.c Undefined) (hi : var < P.c.n) (hdep : ¬ DependsOn P.c.n P.c.dom f var) :
    Ok (exec P.c (.toDpldE varFrom var a)) w (fun o w' => o = .slot σ.slots.length ∧
      Rel P { σ with slots := σ.slots ++ [some fun x => if x var = varFrom then f x else Undefined] } w' ∧
      ∀ a, Unmarked w a → Unmarked w' a) := by
  have g := R.good
  obtain ⟨p, hp, hd⟩ := R.has a f hf
  simp only [exec]
  refine Ok.bindEq (rootOf_ok hp) ?_
  refine making_unmarked R ((toDpldE_good (E := envOf P σ) hauto g hU hi (handle_prot (extL_pos hp)) hd ?_).mono
    fun _ _ h => h.res)
  intro q hq ss hk
  exact hdep ((tested_iff g.inv g.ord g.cfg (g.canon hcan) (R.used hp) hd hi).1 ⟨q, ss, hq, hk⟩)

/-- `fussell_vesely_importance` of a diagram without marks, whatever is marked elsewhere. -/
theorem fussellVesely_unmarked (R : Rel P σ w) (hauto : σ.auto = false) (hcan : σ.canon = true) {a : Nat} {f : Asg → Int}
    (hf : σ.Has a f) (hu : Unmarked w a) (h01 : ∀ x, InDomain P.c.n P.c.dom x → f x = 0 ∨ f x = 1)
    (hl : Layered P.c.n P.c.dom σ.order f) {pr : Nat → Nat → Rat} (hs : SumsToOne P.c.n P.c.dom pr) (u : Rat) (st i : Nat) :
    Ok (exec P.c (.fussellVesely pr u st i a)) w (fun o w' =>
      o = .rat (((List.range st).map (pr i)).sum *
        probability P.c.n P.c.dom pr (fun x => decide (Covered P.c.n P.c.dom f x)) / u) ∧
      Rel P σ w' ∧ ∀ b, Unmarked w b → Unmarked w' b) := by
  obtain ⟨p, hp, hd⟩ := R.has a f hf
  obtain ⟨p', hp', hc⟩ := hu
  rw [hp] at hp'
  cases hp'
  simp only [exec]
  refine Ok.bindEq (rootOf_ok hp) ?_
  obtain ⟨r, s', e, g', k', m', rfl⟩ := fussellVesely_good (E := envOf P σ) (u := u) (st := st)
    (i := i) hauto R.good hcan hc (handle_prot (extL_pos hp)) hd h01
    (by rw [show levelVars (envOf P σ).c w.mgr = σ.order from R.order]; exact hl) hs
  refine Ok.bindEq (s' := { w with mgr := s' })
    (by simp only [onMgr]; rw [show Teddy.fussellVesely P.c pr u st i p w.mgr = _ from e]) ?_
  refine Ok.pure ⟨rfl, R.keeps g' k' m', ?_⟩
  rintro b ⟨q, h1, h2⟩
  exact ⟨q, h1, h2.keepsH k' m' (extL_pos h1)⟩

/-- Copying a handle leaves no marks. -/
theorem copy_unmarked (R : Rel P σ w) {a : Nat} {f : Asg → Int} (hf : σ.Has a f) :
    Ok (exec P.c (.copy a)) w (fun o w' => o = .slot σ.slots.length ∧
      Rel P { σ with slots := σ.slots ++ [some f] } w' ∧ ∀ a, Unmarked w a → Unmarked w' a) := by
  obtain ⟨p, hp, hd⟩ := R.has a f hf
  simp only [exec]
  refine Ok.bindEq (rootOf_ok hp) ?_
  exact making_unmarked R ((copy_diagram R.good (handle_prot (extL_pos hp)) hd).mono fun _ _ h => h.res)

/-- Destroying a handle leaves no marks. -/
theorem drop_unmarked (R : Rel P σ w) {a : Nat} {f : Asg → Int} (hf : σ.Has a f) :
    Ok (exec P.c (.drop a)) w (fun o w' => o = .unit ∧ Rel P { σ with slots := σ.slots.set a none } w' ∧
      ∀ b, b ≠ a → Unmarked w b → Unmarked w' b) := by
  obtain ⟨o, w', e, rfl, R'⟩ := drop_sim R hf.lt
  refine ⟨_, _, e, rfl, R', ?_⟩
  obtain ⟨p, hp, _⟩ := R.has a f hf
  obtain ⟨_, s', e1, _, hm, hk, _⟩ := dropHandle_good R.good (extL_pos hp)
  have e2 : exec P.c (.drop a) w = .ok (.unit, ⟨s', w.slots.set a none⟩) := by
    simp only [exec]
    rw [bind_ok (get_run w)]
    simp only [hp]
    rw [bind_ok (show onMgr (dropHandle p) w = .ok ((), { w with mgr := s' }) by simp [onMgr, e1])]
    rfl
  rw [e2] at e
  obtain ⟨_, rfl⟩ := Prod.mk.inj (Except.ok.inj e)
  rintro b hb ⟨q, h1, h2⟩
  refine ⟨q, ?_, fun t ht => ?_⟩
  · show (w.slots.set a none)[b]? = _
    rw [List.getElem?_set_ne (Ne.symm hb)]
    exact h1
  · show s'.mark t = false
    rw [hm]
    change Reach s'.kind q t at ht
    rw [hk] at ht
    exact h2 t ht

end

end Teddy
