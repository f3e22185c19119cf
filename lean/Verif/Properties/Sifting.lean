import Verif.Demo
import Verif.Proofs.Sifting

/-!
# Sifting
-/

namespace Teddy
namespace Properties

open SM Spec

variable {P : Setup} {w : World} {σ : SState}

/-- `force_reorder()` takes the variables one after another, those with more nodes first.  Each is tried on every
level, and put on the level with the lowest number of nodes; if there are several such levels, on the one tried
first. -/
theorem C83_sifting (hP : P.OK) (h : Reachable P w σ) :
    ∃ order w' vars t, exec P.c .forceReorder w = .ok (.nats order, w') ∧
      vars.Perm (List.range P.c.n) ∧
      vars.Pairwise (fun i k => (w.mgr.tables k).nodes.length ≤ (w.mgr.tables i).nodes.length) ∧
      PlacedAll P.c vars w.mgr t ∧ w' = { w with mgr := { t with deferred := false } } := by
  have R := reachable_rel hP h
  have g := R.good
  have I : Inv P.c (extW w) [] w.mgr := g.inv
  obtain ⟨_, s', e, t, ht, rfl⟩ := siftVariables_placed (c := P.c) (ext := extW w) ⟨g.inv, g.ord, g.pool⟩ g.cfg.dom_pos
  obtain ⟨h1, h2⟩ := siftOrder_sorted (c := P.c) w.mgr
  refine ⟨levelVars P.c { t with deferred := false }, _, siftOrder P.c w.mgr, t, ?_, h1, ?_, ht, rfl⟩
  · simp only [exec, forceReorder]
    rw [bind_ok (a := ()) (s' := { w with mgr := { t with deferred := false } }) (by simp [onMgr, e])]
    rw [bind_ok (a := levelVars P.c { t with deferred := false })
      (s' := { w with mgr := { t with deferred := false } })
      (by simp [onMgr, getOrder, levelVars, bind_run])]
    rfl
  · refine h2.imp_of_mem fun {a b} ha hb hab => ?_
    rw [← (I.tabWF a (siftOrder_lt a ha)).size_eq, ← (I.tabWF b (siftOrder_lt b hb)).size_eq]
    exact hab

/-- The variables of x0, x1 and x0 ∧ x1 are sifted.  (`C59_violated` has a program in which the order changes.) -/
example : ∃ w σ, Reachable bdd3 w σ ∧ ∃ order w' vars t,
    exec bdd3.c .forceReorder w = .ok (.nats order, w') ∧ vars.Perm [0, 1, 2] ∧
    PlacedAll bdd3.c vars w.mgr t ∧ w'.mgr.nodeCount = t.nodeCount := by
  obtain ⟨w, h⟩ := bdd3_world
  obtain ⟨o, w', vs, t, e, h1, _, h2, rfl⟩ := C83_sifting bdd3_ok h
  exact ⟨w, _, h, o, _, vs, t, e, h1, h2, rfl⟩

end Properties
end Teddy
