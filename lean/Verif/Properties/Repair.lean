import Verif.Proofs.Unmarked
import Verif.Demo

/-!
# Diagrams without left-over marks

The wrong answers after `from_expression_tree` (`C24_violated` and others) concern diagrams with marked nodes.  The
diagram that `reduce` returns has none, after any history, so what is asked about it is answered correctly.  The same holds
for the diagram that `from_expression_tree` itself returns, and for derivatives.
-/

namespace Teddy
namespace Properties

open SM Spec

variable {P : Setup} {w : World} {σ : SState}

/-- **C24, C08, C22, C23, C29, C36.** After any history, with or without calls of `from_expression_tree`,
`transform(d, t)` makes a diagram `b` about which any sequence of questions is answered correctly: the answers are those
that the specification `OutOK` demands, although the preconditions `Adm` are met only but for the left-over
marks (`SState.tidy`).

Missing for the full property: diagrams that were not made by `transform`, `negate` or `reduce` (`C24_violated`); the
Fussell-Vesely importance. -/
theorem C24_transform_repairs_partial (hP : P.OK) (h : Reachable P w σ) (hauto : σ.auto = false) {a : Nat}
    {f : Asg → Int} (ha : Denotes P w a f) {t : Int → Int} (ht : ∀ v, Range P.c f v → TermOK P.c (t v)) :
    ∃ w', exec P.c (.transform t a) w = .ok (.slot w.slots.length, w') ∧
      Denotes P w' w.slots.length (fun x => t (f x)) ∧
      ∀ ks : List Call, (∀ k ∈ ks, k.asks = some w.slots.length ∧
          Adm P { σ with slots := σ.slots ++ [some fun x => t (f x)], clean := true } k) →
        ∃ os w'', execAll P.c ks w' = .ok (os, w'') ∧
          List.Forall₂ (OutOK P { σ with slots := σ.slots ++ [some fun x => t (f x)] }) os ks := by
  have R := reachable_rel hP h
  obtain ⟨f', hf', e1⟩ := R.of_denotes ha
  obtain ⟨p, hp, hden⟩ := R.has a f' hf'
  have hd : Den P.c w.mgr p f := fun x hx => by rw [← e1 x hx]; exact hden x hx
  have key := making_tidy R (m := Teddy.transform P.c t p) ((transform_clean (E := envOf P σ) hauto R.good
    (handle_prot (extL_pos hp)) hd ht).mono fun _ _ h => ⟨h.1.res, h.2⟩)
  obtain ⟨_, w', e, rfl, R', q, hq, hcb⟩ := key
  refine ⟨w', ?_, ?_, fun ks hk => ?_⟩
  · simp only [exec]
    rw [bind_ok (rootOf_ok hp)]
    exact e
  · refine R'.denotes ?_
    show _ = _
    rw [R.len]
    simp
  · obtain ⟨os, w'', e2, ho⟩ := asksAll_ok ks R' hq hcb hk
    exact ⟨os, w'', e2, ho⟩

/-- **C24, C08, C22, C23, C29, C36.** The same for `reduce(d)`. -/
theorem C24_reduce_repairs_partial (hP : P.OK) (h : Reachable P w σ) (hauto : σ.auto = false) {a : Nat}
    {f : Asg → Int} (ha : Denotes P w a f) (ht : ∀ v, Range P.c f v → TermOK P.c v) :
    ∃ w', exec P.c (.reduce a) w = .ok (.slot w.slots.length, w') ∧ Denotes P w' w.slots.length f ∧
      ∀ ks : List Call, (∀ k ∈ ks, k.asks = some w.slots.length ∧
          Adm P { σ with slots := σ.slots ++ [some f], clean := true } k) →
        ∃ os w'', execAll P.c ks w' = .ok (os, w'') ∧
          List.Forall₂ (OutOK P { σ with slots := σ.slots ++ [some f] }) os ks :=
  C24_transform_repairs_partial (t := fun v => v) hP h hauto ha ht

/-- **C08.** After any history `satisfy_count(v, reduce(d))` is the number of assignments with value `v`.

Missing for the full property: `C08_violated` without `reduce`; managers on which the count may not fit. -/
theorem C08_reduced_partial (hP : P.OK) (h : Reachable P w σ) (hauto : σ.auto = false) (hfit : CountFits P.c) {a : Nat}
    {f : Asg → Int} (ha : Denotes P w a f) (ht : ∀ v, Range P.c f v → TermOK P.c v) {v : Int}
    (hv : ∀ m, P.c.fixedDom = some m → P.c.asserts = true → v < m) :
    ∃ w' w'', execAll P.c [.reduce a, .satisfyCount v w.slots.length] w =
      .ok ([.slot w.slots.length, .int (countValue P.c.n P.c.dom f v : Nat)], w'') ∧
      exec P.c (.reduce a) w = .ok (.slot w.slots.length, w') ∧ Denotes P w' w.slots.length f := by
  have R := reachable_rel hP h
  have hs : ({ σ with slots := σ.slots ++ [some f] } : SState).Has w.slots.length f := by
    show _ = _
    rw [R.len]
    simp
  obtain ⟨w', e1, h1, h2⟩ := C24_reduce_repairs_partial hP h hauto ha ht
  obtain ⟨os, w'', e2, h3⟩ := h2 [.satisfyCount v w.slots.length] (by
    intro k hk
    rw [List.mem_singleton.1 hk]
    exact ⟨rfl, rfl, hfit, ⟨f, hs⟩, hv⟩)
  refine ⟨w', w'', ?_, e1, h1⟩
  cases h3 with
  | cons h3 h4 =>
      cases h4
      simp only [OutOK] at h3
      rw [hs.fn] at h3
      rw [execAll, bind_ok e1, bind_ok e2, h3]
      rfl

/-- **C24, C08, C22, C23, C29, C36.** After any history `from_expression_tree(e)` makes a diagram about which any sequence
of questions is answered correctly: the marks it leaves are not on nodes of the diagram it returns.

Missing for the full property: questions about other diagrams afterwards (`C24_violated`). -/
theorem C24_from_expression_partial (hP : P.OK) (h : Reachable P w σ) (hauto : σ.auto = false) {e : Expr} (he : e.OK P.c) :
    ∃ w', exec P.c (.fromExpr e) w = .ok (.slot w.slots.length, w') ∧
      Denotes P w' w.slots.length (fun x => e.val x) ∧
      ∀ ks : List Call, (∀ k ∈ ks, k.asks = some w.slots.length ∧
          Adm P { σ with slots := σ.slots ++ [some fun x => e.val x], clean := true } k) →
        ∃ os w'', execAll P.c ks w' = .ok (os, w'') ∧
          List.Forall₂ (OutOK P { σ with slots := σ.slots ++ [some fun x => e.val x] }) os ks := by
  have R := reachable_rel hP h
  obtain ⟨_, w', e1, rfl, R', q, hq, hcb⟩ := fromExpr_unmarked R hauto he
  rw [← R.len] at e1 hq
  refine ⟨w', e1, R'.denotes ?_, fun ks hk => ?_⟩
  · show _ = _
    rw [R.len]
    simp
  · obtain ⟨os, w'', e2, ho⟩ := asksAll_ok ks R' hq hcb hk
    exact ⟨os, w'', e2, ho⟩

/-- **C24, C08, C22, C23, C29, C36.** The same for a derivative, `dpld(vc, ch, d)`, of any diagram `d`. -/
theorem C24_dpld_partial (hP : P.OK) (h : Reachable P w σ) (hauto : σ.auto = false) {a : Nat} {f : Asg → Int}
    (ha : σ.Has a f) (h1 : TermOK P.c 1) {vc : VarChange}
    (hv : vc.index < P.c.n → vc.from < P.c.dom vc.index ∧ vc.to < P.c.dom vc.index) (ch : Int → Int → Bool) :
    let g : Asg → Int := fun x => if ch (f (upd x vc.index vc.from)) (f (upd x vc.index vc.to)) then 1 else 0
    ∃ w', exec P.c (.dpld vc ch a) w = .ok (.slot w.slots.length, w') ∧ Denotes P w' w.slots.length g ∧
      ∀ ks : List Call, (∀ k ∈ ks, k.asks = some w.slots.length ∧
          Adm P { σ with slots := σ.slots ++ [some g], clean := true } k) →
        ∃ os w'', execAll P.c ks w' = .ok (os, w'') ∧
          List.Forall₂ (OutOK P { σ with slots := σ.slots ++ [some g] }) os ks := by
  have R := reachable_rel hP h
  obtain ⟨_, w', e1, rfl, R', _, q, hq, hcb⟩ := dpld_unmarked R hauto (ch := ch) ha h1 hv
  rw [← R.len] at e1 hq
  refine ⟨w', e1, R'.denotes ?_, fun ks hk => ?_⟩
  · show _ = _
    rw [R.len]
    simp [b2i]
  · obtain ⟨os, w'', e2, ho⟩ := asksAll_ok ks R' hq hcb hk
    exact ⟨os, w'', e2, ho⟩

/-- The state after the calls of `C24_violated`: x0 ∧ x1 has handle 2, and nodes of it are marked. -/
def markedState : SState := { bdd3State with slots := bdd3State.slots ++ [some fun x => min (x 1 : Int) 0], clean := false }

theorem marked_world : ∃ w, Reachable bdd3 w markedState := by
  refine Reachable.build bdd3_ok bdd3_world (.fromExpr (.op min (.var 1) (.const 0)))
    ⟨⟨show 1 < 3 by decide, show (2 : Int) ≤ Nondetermined by decide⟩, ⟨⟨by decide, fun _ m h => by cases h; decide⟩, by decide⟩, ?_⟩
    (fun _ => rfl)
  intro x y _ _
  have e : min (Expr.val x (.var 1)) (Expr.val y (.const 0)) = 0 := by
    show min (x 1 : Int) 0 = 0
    omega
  rw [e]
  exact ⟨⟨by decide, fun _ m h => by cases h; decide⟩, by decide⟩

/-- In that state `satisfy_count(1, reduce(d))` is 1, the right answer. -/
example : ∃ w, Reachable bdd3 w markedState ∧ ∃ w'', execAll bdd3.c [.reduce 2, .satisfyCount 1 4] w =
    .ok ([.slot 4, .int (countValue 3 (fun _ => 2) (fun x => Op.AND.val (x 0) (x 1)) 1 : Nat)], w'') := by
  obtain ⟨w, h⟩ := marked_world
  have R := reachable_rel bdd3_ok h
  have ht : ∀ v, Range bdd3.c (fun x => Op.AND.val (x 0) (x 1)) v → TermOK bdd3.c v := by
    rintro v ⟨x, hx, rfl⟩
    rcases bdd3_bits (fun x => Op.AND.val (x 0) (x 1)) (by simp) x hx with e | e
    · dsimp only at e ⊢
      rw [e]
      exact ⟨by decide, fun _ m h => by cases h; decide⟩
    · dsimp only at e ⊢
      rw [e]
      exact term1_bdd3
  obtain ⟨w', w'', e, _⟩ := C08_reduced_partial (a := 2) (v := 1) bdd3_ok h rfl (show 3 < 63 by decide)
    (R.denotes (f := fun x => Op.AND.val (x 0) (x 1)) rfl) ht (fun m hm _ => by cases hm; decide)
  have hl : w.slots.length = 4 := R.len
  rw [hl] at e
  exact ⟨w, h, w'', e⟩

/-- In that state the diagram of a further expression, min(x0, x1), is counted correctly. -/
example : ∃ w w' w'', Reachable bdd3 w markedState ∧
    exec bdd3.c (.fromExpr (.op min (.var 0) (.var 1))) w = .ok (.slot 4, w') ∧
    execAll bdd3.c [.satisfyCount 1 4, .satisfyCount 0 4] w' = .ok ([.int 2, .int 6], w'') := by
  obtain ⟨w, h⟩ := marked_world
  have hl : w.slots.length = 4 := (reachable_rel bdd3_ok h).len
  have he : Expr.OK bdd3.c (.op min (.var 0) (.var 1)) := by
    refine ⟨⟨show 0 < 3 by decide, show (2 : Int) ≤ Nondetermined by decide⟩,
      ⟨show 1 < 3 by decide, show (2 : Int) ≤ Nondetermined by decide⟩, ?_⟩
    intro x y hx hy
    have h0 : x 0 < 2 := hx 0 (by decide)
    have h1 : y 1 < 2 := hy 1 (by decide)
    have e : min (Expr.val x (.var 0)) (Expr.val y (.var 1)) = 0 ∨ min (Expr.val x (.var 0)) (Expr.val y (.var 1)) = 1 := by
      show min (x 0 : Int) (y 1) = 0 ∨ min (x 0 : Int) (y 1) = 1
      omega
    rcases e with e | e <;> rw [e] <;> exact ⟨⟨by decide, fun _ m h => by cases h; decide⟩, by decide⟩
  obtain ⟨w', e1, _, h2⟩ := C24_from_expression_partial bdd3_ok h rfl he
  rw [hl] at e1 h2
  have hs : ({ markedState with slots := markedState.slots ++ [some fun x => Expr.val x (.op min (.var 0) (.var 1))] } :
    SState).Has 4 (fun x => Expr.val x (.op min (.var 0) (.var 1))) := rfl
  obtain ⟨os, w'', e2, h3⟩ := h2 [.satisfyCount 1 4, .satisfyCount 0 4] (by
    intro k hk
    rcases List.mem_cons.1 hk with rfl | hk
    · exact ⟨rfl, rfl, show 3 < 63 by decide, ⟨_, hs⟩, fun m hm _ => by cases hm; decide⟩
    · rw [List.mem_singleton.1 hk]
      exact ⟨rfl, rfl, show 3 < 63 by decide, ⟨_, hs⟩, fun m hm _ => by cases hm; decide⟩)
  refine ⟨w, w', w'', h, e1, ?_⟩
  rw [e2]
  cases h3 with
  | cons h3 h4 =>
      cases h4 with
      | cons h4 h5 =>
          cases h5
          simp only [OutOK] at h3 h4
          rw [hs.fn] at h3 h4
          rw [h3, h4]
          have c1 : countValue bdd3.c.n bdd3.c.dom (fun x => Expr.val x (.op min (.var 0) (.var 1))) 1 = 2 := by decide +kernel
          have c0 : countValue bdd3.c.n bdd3.c.dom (fun x => Expr.val x (.op min (.var 0) (.var 1))) 0 = 6 := by decide +kernel
          rw [c1, c0]
          rfl

/-- In that state the derivative of x0 ∧ x1 with respect to x0 is counted correctly. -/
example : ∃ w w' w'', Reachable bdd3 w markedState ∧
    exec bdd3.c (.dpld ⟨0, 0, 1⟩ (fun a b => decide (a < b)) 2) w = .ok (.slot 4, w') ∧
    execAll bdd3.c [.satisfyCount 1 4] w' = .ok ([.int 4], w'') := by
  obtain ⟨w, h⟩ := marked_world
  have hl : w.slots.length = 4 := (reachable_rel bdd3_ok h).len
  obtain ⟨w', e1, _, h2⟩ := C24_dpld_partial (a := 2) (f := fun x => Op.AND.val (x 0) (x 1)) bdd3_ok h rfl rfl term1_bdd3
    (vc := ⟨0, 0, 1⟩) (fun _ => ⟨by decide, by decide⟩) (fun a b => decide (a < b))
  rw [hl] at e1 h2
  let f : Asg → Int := fun x => Op.AND.val (x 0) (x 1)
  let g : Asg → Int := fun x => if decide (f (upd x 0 0) < f (upd x 0 1)) = true then 1 else 0
  have hs : ({ markedState with slots := markedState.slots ++ [some g] } : SState).Has 4 g := rfl
  obtain ⟨os, w'', e2, h3⟩ := h2 [.satisfyCount 1 4] (by
    intro k hk
    rw [List.mem_singleton.1 hk]
    exact ⟨rfl, rfl, show 3 < 63 by decide, ⟨_, hs⟩, fun m hm _ => by cases hm; decide⟩)
  refine ⟨w, w', w'', h, e1, ?_⟩
  rw [e2]
  cases h3 with
  | cons h3 h4 =>
      cases h4
      have h3 : _ = Out.int _ := h3
      rw [h3, hs.fn]
      have c1 : countValue bdd3.c.n bdd3.c.dom g 1 = 4 := by decide +kernel
      rw [c1]
      rfl

end Properties
end Teddy
