import Verif.Proofs.UnitTests
import Verif.Proofs.Auto

/-!
# The test of automatic reordering
-/

namespace Teddy
namespace Tests

open SM Spec Tsl

variable {P : Setup} {w : World} {σ : SState}

theorem newSlot_flagless [Extends c] (k : Call) (hk : k.noAuto = true) : FlaglessW (newSlot c k) := by
  have := exec_flagless (c := c) k hk
  unfold newSlot
  flaglessw

theorem forL_flagless {f : α → SM World Unit} (h : ∀ a, FlaglessW (f a)) : ∀ l, FlaglessW (forL f l)
  | [] => by unfold forL; flaglessw
  | a :: l => by
      have := h a
      have := forL_flagless h l
      unfold forL
      flaglessw

theorem dropSlots_flagless [Extends c] (as : List Nat) : FlaglessW (dropSlots c as) := by
  unfold dropSlots
  refine forL_flagless (fun a => ?_) _
  have := exec_flagless (c := c) (.drop a) rfl
  flaglessw

theorem makeDiagram_flagless [Extends c] (tree : Bool) (terms : List (List Nat)) :
    FlaglessW (makeDiagram c tree terms) := by
  have hf : ∀ (op : BinOp) (as : List Nat), (foldCall tree op as).noAuto = true := by
    intro op as; cases tree <;> rfl
  have ht : ∀ t, FlaglessW (makeTerm c tree t) := by
    intro t
    have : ∀ i, FlaglessW (newSlot c (.variableD i)) := fun i => newSlot_flagless _ rfl
    have : ∀ vs, FlaglessW (newSlot c (foldCall tree Op.MIN vs)) := fun _ => newSlot_flagless _ (hf _ _)
    have : ∀ vs, FlaglessW (dropSlots c vs) := dropSlots_flagless
    unfold makeTerm variablesD
    flaglessw
  have : ∀ vs, FlaglessW (newSlot c (foldCall tree Op.MAX vs)) := fun _ => newSlot_flagless _ (hf _ _)
  have : ∀ vs, FlaglessW (dropSlots c vs) := dropSlots_flagless
  unfold makeDiagram
  flaglessw

/-- The test passes if its diagram can be made without automatic reordering in the initial pool. -/
theorem autoVarSift_passes (S : Suitable P) {terms : List (List Nat)} (ht : ExprOK P.c.n terms)
    (hroom : ∀ m, construct P.c P.pool P.order = .ok m → ∀ d w, makeDiagram P.c false terms ⟨m, []⟩ = .ok (d, w) →
      w.mgr.poolEnd = m.poolEnd ∧ w.mgr.next < w.mgr.poolEnd) : Passes P (autoVarSift P.c terms) := by
  obtain ⟨m, em, h⟩ := start S.ok
  have R := reachable_rel S.ok h
  obtain ⟨d, w1, e1, T, g, h1, hd, hg, -, ho1⟩ := diagram_ok S ht h rfl rfl false
  obtain ⟨hp, hl⟩ := hroom m em d w1 e1
  have : Extends P.c := ⟨S.ok.extra⟩
  obtain ⟨-, e2⟩ := (makeDiagram_flagless false terms).on_of (R.good.auto rfl) (R.good.defer rfl) R.good.inv.pool.room e1
    hp hl
  have h2 : Reachable P w1.on (next P.c (withSlots (SState.init P) T) (.setAutoReorder true) .unit) :=
    .step (k := .setAutoReorder true) h1 trivial rfl
  have hd2 : (next P.c (withSlots (SState.init P) T) (.setAutoReorder true) .unit).Has d g := hd
  suffices Ok (autoVarSift P.c terms) ⟨m, []⟩ (fun r _ => r = true) by
    obtain ⟨r, w, e, rfl⟩ := this
    exact ⟨m, w, em, e⟩
  unfold autoVarSift
  have e0 : exec P.c (.setAutoReorder true) ⟨m, []⟩ = .ok (.unit, World.on ⟨m, []⟩) := rfl
  refine Ok.bindEq e0 (Ok.bindEq e2 ?_)
  obtain ⟨r, hr, -⟩ := (reachable_rel S.ok h2).has d g hd2
  obtain ⟨w4, k, e4, h4, hs, e5, e6⟩ := gc_counts S.ok h2 rfl hr (by
    intro a r' hr'
    obtain ⟨f, hf⟩ := has_of_root S.ok h2 hr'
    have hf' : (withSlots (SState.init P) T).Has a f := hf
    rcases ho1 a f hf' with rfl | hf0
    · rw [hr] at hr'
      exact (Option.some.inj (Option.some.inj hr')).symm
    · cases hf0)
  refine Ok.bindEq e4 (Ok.bindEq e6 (Ok.bindEq e5 (require_ok (by simp) ?_)))
  obtain ⟨it, -, e7, e8⟩ := visit_order S.ok h4
  refine Ok.bindEq e7 ?_
  exact compareEval_ok S.ok h4 hd2 hg (minMax_congr ht) (Ok.pure rfl)
    (fun x hx => inDomain_of_mem (reachable_rel S.ok h4).perm hx) (e8 fun x hx => evalExpr_ok S ht hx)

end Tests
end Teddy
