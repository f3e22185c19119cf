import Verif.Demo
import Verif.Proofs.Auto
import Verif.Properties.Diagrams
import Verif.Properties.Violations

/-!
# Automatic reordering

`C45_violated` (Violations.lean) is a program whose answer is wrong with automatic reordering.  What goes wrong there
needs a pool of nodes that is extended while the flag is set.  The first theorems below show that this is necessary.
The others are about histories in which automatic reordering is enabled and the pool may be extended at any time:
`σ.auto` says that this may have happened.
-/

namespace Teddy
namespace Properties

open SM Spec

variable {P : Setup} {w : World} {σ : SState}

/-- A program is run with automatic reordering and afterwards the flag is reset.  If the node pool was not extended on
the way, then the answers and the final state are those of the program without automatic reordering. -/
theorem C45_program_partial (hP : P.OK) (h : Reachable P w σ) (hauto : σ.auto = false) {ks : List Call}
    (hk : ∀ k ∈ ks, ∀ b, k ≠ .setAutoReorder b) {os : List Out} {w' : World}
    (e : execAll P.c (.setAutoReorder true :: (ks ++ [.setAutoReorder false])) w = .ok (os, w'))
    (hpool : w'.mgr.poolEnd = w.mgr.poolEnd) :
    ∃ os', os = .unit :: (os' ++ [.unit]) ∧ execAll P.c ks w = .ok (os', w') := by
  have R := reachable_rel hP h
  exact execAll_auto ⟨hP.extra⟩ (R.good.auto hauto) (R.good.defer hauto) (fun k hk' => Call.noAuto_of (hk k hk')) e hpool

/-- The program of `C45_violated`, to be run in a larger pool. -/
def roomyProgram : List Call :=
  [.variableD 0, .variableD 1, .variableD 2, .variableD 3, .apply Op.XOR 2 3, .apply Op.AND 1 4, .apply Op.OR 0 5,
    .drop 4, .drop 5, .variableD 4, .apply Op.XOR 2 3, .evaluate 8 (fun i => if i = 2 then 1 else 0)]

/-- The hypotheses of `C45_program_partial` hold for this program and a pool of 100 nodes. -/
example : ∃ w os w', Reachable (bdd5 100 5) w (SState.init (bdd5 100 5)) ∧
    (∀ k ∈ roomyProgram, ∀ b, k ≠ .setAutoReorder b) ∧
    execAll (bdd5 100 5).c (.setAutoReorder true :: (roomyProgram ++ [.setAutoReorder false])) w = .ok (os, w') ∧
    w'.mgr.poolEnd = w.mgr.poolEnd ∧ os.getD 12 .unit = .int 1 := by
  have hc : (match construct (bdd5 100 5).c (bdd5 100 5).pool (bdd5 100 5).order with
      | .ok m => match execAll (bdd5 100 5).c
          (.setAutoReorder true :: (roomyProgram ++ [.setAutoReorder false])) ⟨m, []⟩ with
        | .ok (os, w') => decide (w'.mgr.poolEnd = m.poolEnd) && decide (os.getD 12 .unit = .int 1)
        | .error _ => false
      | .error _ => false) = true := by decide +kernel
  cases em : construct (bdd5 100 5).c (bdd5 100 5).pool (bdd5 100 5).order with
  | error x => rw [em] at hc; cases hc
  | ok m =>
    rw [em] at hc
    dsimp only at hc
    cases ee : execAll (bdd5 100 5).c
        (.setAutoReorder true :: (roomyProgram ++ [.setAutoReorder false])) ⟨m, []⟩ with
    | error x => rw [ee] at hc; cases hc
    | ok r =>
      obtain ⟨os, w'⟩ := r
      rw [ee] at hc
      simp only [Bool.and_eq_true, decide_eq_true_eq] at hc
      exact ⟨⟨m, []⟩, os, w', .init em, by
        intro k hk b
        simp only [roomyProgram, List.mem_cons, List.not_mem_nil, or_false] at hk
        rcases hk with rfl | rfl | rfl | rfl | rfl | rfl | rfl | rfl | rfl | rfl | rfl | rfl <;> nofun, ee, hc⟩

/-- Without automatic reordering, a program leaves some nodes of the pool that the manager had at its start unused.  Then
the program works in the same way with automatic reordering: it has the same answers and ends in the same state. -/
theorem C45_roomy_partial (hP : P.OK) (h : Reachable P w σ) (hauto : σ.auto = false) {ks : List Call}
    (hk : ∀ k ∈ ks, ∀ b, k ≠ .setAutoReorder b) {os : List Out} {w' : World} (e : execAll P.c ks w = .ok (os, w'))
    (hpool : w'.mgr.poolEnd = w.mgr.poolEnd) (hroom : w'.mgr.next < w'.mgr.poolEnd) :
    execAll P.c (.setAutoReorder true :: (ks ++ [.setAutoReorder false])) w = .ok (.unit :: (os ++ [.unit]), w') := by
  have R := reachable_rel hP h
  exact execAll_on ⟨hP.extra⟩ (R.good.auto hauto) (R.good.defer hauto) R.good.inv.pool.room
    (fun k hk' => Call.noAuto_of (hk k hk')) e hpool hroom

/-- The hypotheses of `C45_roomy_partial` hold for this program and a pool of 100 nodes. -/
example : ∃ w os w', Reachable (bdd5 100 5) w (SState.init (bdd5 100 5)) ∧
    (∀ k ∈ roomyProgram, ∀ b, k ≠ .setAutoReorder b) ∧
    execAll (bdd5 100 5).c roomyProgram w = .ok (os, w') ∧
    w'.mgr.poolEnd = w.mgr.poolEnd ∧ w'.mgr.next < w'.mgr.poolEnd ∧ os.getD 11 .unit = .int 1 := by
  have hc : (match construct (bdd5 100 5).c (bdd5 100 5).pool (bdd5 100 5).order with
      | .ok m => match execAll (bdd5 100 5).c roomyProgram ⟨m, []⟩ with
        | .ok (os, w') => decide (w'.mgr.poolEnd = m.poolEnd) && (decide (w'.mgr.next < w'.mgr.poolEnd) &&
            decide (os.getD 11 .unit = .int 1))
        | .error _ => false
      | .error _ => false) = true := by decide +kernel
  cases em : construct (bdd5 100 5).c (bdd5 100 5).pool (bdd5 100 5).order with
  | error x => rw [em] at hc; cases hc
  | ok m =>
    rw [em] at hc
    dsimp only at hc
    cases ee : execAll (bdd5 100 5).c roomyProgram ⟨m, []⟩ with
    | error x => rw [ee] at hc; cases hc
    | ok r =>
      obtain ⟨os, w'⟩ := r
      rw [ee] at hc
      simp only [Bool.and_eq_true, decide_eq_true_eq] at hc
      exact ⟨⟨m, []⟩, os, w', .init em, by
        intro k hk b
        simp only [roomyProgram, List.mem_cons, List.not_mem_nil, or_false] at hk
        rcases hk with rfl | rfl | rfl | rfl | rfl | rfl | rfl | rfl | rfl | rfl | rfl | rfl <;> nofun, ee, hc⟩

/-- One call with automatic reordering: if it returns and did not extend the node pool, then it returned what it
promises, and afterwards all diagrams are as they should be. -/
theorem C45_call_partial (hP : P.OK) (h : Reachable P w σ) (hauto : σ.auto = false) {k : Call} (hk : Adm P σ k)
    (hn : ∀ b, k ≠ .setAutoReorder b) {os : List Out} {w' : World}
    (e : execAll P.c [.setAutoReorder true, k, .setAutoReorder false] w = .ok (os, w'))
    (hpool : w'.mgr.poolEnd = w.mgr.poolEnd) :
    ∃ o, os = [.unit, o, .unit] ∧ OutOK P σ o k ∧ Reachable P w' (next P.c σ k o) := by
  obtain ⟨os', rfl, e'⟩ := C45_program_partial hP h hauto (ks := [k])
    (fun k' hk' => by rw [List.mem_singleton.1 hk']; exact hn) e hpool
  obtain ⟨o, v, e1, ho, -⟩ := sim (reachable_rel hP h) hk (fun _ => hauto)
  simp only [execAll] at e'
  rw [bind_ok e1, bind_ok (pure_run _ _)] at e'
  cases e'
  exact ⟨o, rfl, ho, .step h hk e1 (fun _ => hauto)⟩

/-- Calls that cannot start a reordering are right after every history, also with automatic reordering enabled and a
reordering due: they return what they promise and keep the diagrams of the other handles.

Missing for the full property: the calls that may reorder before they have registered their result
(`C45_violated`), except `get_cofactor`, see `C45_cofactor_partial`. -/
theorem C45_other_calls_partial (hP : P.OK) (h : Reachable P w σ) {k : Call} (hk : Adm P σ k) (hd : k.defers = false) :
    ∃ o w', exec P.c k w = .ok (o, w') ∧ OutOK P σ o k ∧ Reachable P w' (next P.c σ k o) := by
  have ha : k.defers = true → σ.auto = false := fun h => by rw [hd] at h; cases h
  obtain ⟨o, w', e, ho, -⟩ := sim (reachable_rel hP h) hk ha
  exact ⟨o, w', e, ho, .step h hk e ha⟩

/-- `get_cofactor` may start the reordering that is due; it registers its result before.  The result is right, the
other handles keep their functions (`Makes`), and the history may go on, with the order that `get_order` returns. -/
theorem C45_cofactor_partial (hP : P.OK) (h : Reachable P w σ) {a i v : Nat} {f : Asg → Int}
    (ha : Denotes P w a f) (hv : i < P.c.n → v < P.c.dom i) :
    Makes P w (.cofactor a i v) (fun x => f (upd x i v)) ∧
      ∃ o w' l σ', exec P.c (.cofactor a i v) w = .ok (o, w') ∧ exec P.c .getOrder w' = .ok (.nats l, w') ∧
        l.Perm (List.range P.c.n) ∧ Reachable P w' σ' ∧ σ'.order = l := by
  refine ⟨(C06_cofactor hP h ha hv).1, ?_⟩
  have R := reachable_rel hP h
  obtain ⟨f', hf, -⟩ := R.of_denotes ha
  obtain ⟨o, w', e, ho, R'⟩ := cofactor_sim (k := .cofactor a i v) R rfl ⟨⟨f', hf⟩, hv⟩
  have el : exec P.c .getOrder w' = .ok (.nats (levelVars P.c w'.mgr), w') := rfl
  refine ⟨o, w', _, _, e, el, ?_, .cofactor (k := .cofactor a i v) h rfl ⟨⟨f', hf⟩, hv⟩ e el, rfl⟩
  exact levelVars_perm R'.good.inv

/-- After `set_auto_reorder(false)`, `force_reorder()` and `clear_cache()` no reordering is due and no cached result is
stale: all calls are admissible again, and no handle has changed its function. -/
theorem C45_settled_partial (hP : P.OK) (h : Reachable P w σ) :
    ∃ l w' σ', execAll P.c [.setAutoReorder false, .forceReorder, .clearCache] w = .ok ([.unit, .nats l, .unit], w') ∧
      l.Perm (List.range P.c.n) ∧ Reachable P w' σ' ∧ σ'.auto = false ∧ σ'.cacheOK = true ∧
      ∀ a f, Denotes P w a f → Denotes P w' a f := by
  have R := reachable_rel hP h
  obtain ⟨l, w1, e1, hl, R1⟩ := settled_sim R
  have h1 := Reachable.settled h e1
  obtain ⟨o, w2, e2, rfl, R2⟩ := sim (k := .clearCache) R1 trivial
  refine ⟨l, w2, _, ?_, hl, .step (k := .clearCache) h1 trivial e2, rfl, rfl, fun a f ha => ?_⟩
  · rw [show [Call.setAutoReorder false, .forceReorder, .clearCache] = [.setAutoReorder false, .forceReorder] ++
      [.clearCache] from rfl, execAll_append, bind_ok e1]
    simp only [execAll]
    rw [bind_ok (bind_ok e2)]
    rfl
  · obtain ⟨f', hf, s⟩ := R.of_denotes ha
    exact (R2.denotes (f := f') hf).congr s

/-- x0 ∧ x1, automatic reordering enabled: `force_gc`, a cofactor, and the way back. -/
example : ∃ w σ, Reachable bdd3 w σ ∧ σ.auto = true ∧
    (∃ o w', exec bdd3.c .forceGc w = .ok (o, w') ∧ OutOK bdd3 σ o .forceGc ∧
      Reachable bdd3 w' (next bdd3.c σ .forceGc o)) ∧
    Makes bdd3 w (.cofactor 2 1 1) (fun x => Op.AND.val (x 0) 1) ∧
    ∃ l w' σ', execAll bdd3.c [.setAutoReorder false, .forceReorder, .clearCache] w =
      .ok ([.unit, .nats l, .unit], w') ∧ l.Perm (List.range 3) ∧ Reachable bdd3 w' σ' ∧ σ'.auto = false ∧
        σ'.cacheOK = true ∧ ∀ a f, Denotes bdd3 w a f → Denotes bdd3 w' a f := by
  obtain ⟨o, w, h⟩ := Reachable.call bdd3_ok bdd3_world (.setAutoReorder true) trivial
  exact ⟨w, _, h, rfl, C45_other_calls_partial bdd3_ok h (k := .forceGc) trivial rfl,
    (C45_cofactor_partial (a := 2) (i := 1) (v := 1) bdd3_ok h ((reachable_rel bdd3_ok h).denotes rfl) (fun _ => by decide)).1,
    C45_settled_partial bdd3_ok h⟩

/-- f = x0 x2 ∨ x1 x3 is made, automatic reordering is enabled and `variable(4)` extends the node pool. -/
def cofactorProgram (b : Bool) : List Call :=
  [.variableD 0, .variableD 1, .variableD 2, .variableD 3, .apply Op.AND 0 2, .apply Op.AND 1 3, .apply Op.OR 4 5,
    .setAutoReorder b, .variableD 4, .cofactor 6 4 1, .getOrder,
    .evaluate 8 (fun i => if i = 1 ∨ i = 3 then 1 else 0)]

/-- `get_cofactor` does reorder: the order of this run changes, the function does not. -/
example : run (bdd5 6 5) (cofactorProgram true) = .ok [.slot 0, .slot 1, .slot 2, .slot 3, .slot 4, .slot 5, .slot 6,
      .unit, .slot 7, .slot 8, .nats [3, 2, 0, 1, 4], .int 1] ∧
    run (bdd5 6 5) (cofactorProgram false) = .ok [.slot 0, .slot 1, .slot 2, .slot 3, .slot 4, .slot 5, .slot 6,
      .unit, .slot 7, .slot 8, .nats [0, 1, 2, 3, 4], .int 1] := by decide +kernel

/-- The program of `C45_violated`, with automatic reordering enabled only for the call of `variable(4)`. -/
def disabledProgram : List Call :=
  [.variableD 0, .variableD 1, .variableD 2, .variableD 3, .apply Op.XOR 2 3, .apply Op.AND 1 4, .apply Op.OR 0 5,
    .drop 4, .drop 5, .setAutoReorder true, .variableD 4, .setAutoReorder false, .apply Op.XOR 2 3,
    .evaluate 8 (fun i => if i = 2 then 1 else 0)]

/-- **C45.** `set_auto_reorder(false)` alone does not help: the reordering that is due is still done by the next
`apply`, whose result is wrong.  This is why `C45_settled_partial` needs `force_reorder()`. -/
theorem C45_violated_disabled :
    run (bdd5 10 5) disabledProgram =
      .ok [.slot 0, .slot 1, .slot 2, .slot 3, .slot 4, .slot 5, .slot 6, .unit, .unit, .unit, .slot 7, .unit, .slot 8,
        .int 0] ∧
    Op.XOR.val 1 0 = 1 := by decide +kernel

end Properties
end Teddy
