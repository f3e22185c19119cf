import Verif.Properties.ViolationsSettings

/-!
# C85: When another pool of nodes is allocated

README, "Memory management", and the documentation of `set_gc_ratio` (diagram_manager.hpp:683-691): when a node is needed and
no node is left, garbage is collected; another pool is allocated if fewer than `ratio * initNodeCount` nodes were collected.
`makeRoom` is the part of `make_new_node` that does this, `poolEnd` the number of nodes in all pools.
-/

namespace Teddy
namespace Properties

open SM Spec

variable {P : Setup} {w : World} {σ : SState}

/-- In every reachable state without automatic reordering, when a node is needed: while nodes are left nothing happens;
otherwise what `force_gc` collects is collected, and another pool is allocated exactly if these are fewer than the ratio of the
nodes in **all** pools, rounded down.  In any case there is a free node afterwards.

Missing for the full property: the ratio of the nodes in the first pool (`C85_violated`). -/
theorem C85_pools_partial (hP : P.OK) (h : Reachable P w σ) (hauto : σ.auto = false) :
    ∃ w1 s', exec P.c .forceGc w = .ok (.unit, w1) ∧ w1.mgr.nodeCount ≤ w.mgr.nodeCount ∧
      makeRoom P.c w.mgr = .ok ((), s') ∧ 0 < s'.avail ∧
      (0 < w.mgr.avail → s' = w.mgr) ∧
      (w.mgr.avail = 0 → s'.nodeCount = w1.mgr.nodeCount ∧ s'.poolEnd = w.mgr.poolEnd +
        if w.mgr.nodeCount - w1.mgr.nodeCount < w.mgr.gcRatio.1 * w.mgr.poolEnd / w.mgr.gcRatio.2 then P.c.extra else 0) := by
  have R := reachable_rel hP h
  have hg : Good (envOf P σ) (extW w) w.mgr := R.good
  have hi : Inv P.c (extW w) [] w.mgr := hg.inv
  obtain ⟨_, s1, e1, rm, hn, hpe, -, -⟩ := forceGc_spec hi
  have e2 : exec P.c .forceGc w = .ok (.unit, { w with mgr := s1 }) := by
    simp only [exec, forceGcD]
    rw [bind_ok (a := ()) (s' := { w with mgr := s1 }) (by simp only [onMgr, show forceGc P.c w.mgr = _ from e1])]
    rfl
  obtain ⟨_, s', e3, -, hav⟩ := makeRoom_spec hi hg.pool
  have hcnt := hi.pool.count
  have hcnt1 := rm.inv.pool.count
  have hav0 := hi.pool.avail_eq
  have hav1 := rm.inv.pool.avail_eq
  have hle := hi.pool.le
  have hsub : w.mgr.free.length ≤ s1.free.length := by
    refine List.Subperm.length_le (hi.pool.freeNodup.subperm fun p hp => ?_)
    obtain ⟨h1, h2⟩ := hi.pool.freeUnused p hp
    refine rm.inv.pool.allFree p (by rw [hn]; exact h1) ?_
    by_contra hc
    have := rm.usedSub p (by simpa using hc)
    rw [h2] at this
    cases this
  refine ⟨{ w with mgr := s1 }, s', e2, show s1.nodeCount ≤ _ by omega, e3, hav, fun hpos => ?_, fun h0 => ?_⟩
  · unfold makeRoom at e3
    rw [bind_run] at e3
    simp only [get_run, hg.auto hauto, if_neg (Nat.ne_of_gt hpos)] at e3
    cases e3
    rfl
  · have hcol : s1.avail = w.mgr.nodeCount - s1.nodeCount := by omega
    have hfull : w.mgr.nodeCount = w.mgr.poolEnd := by omega
    unfold makeRoom at e3
    rw [bind_run] at e3
    simp only [get_run, hg.auto hauto, if_pos h0] at e3
    simp only [Bool.false_eq_true, if_false] at e3
    rw [bind_ok (show forceGc P.c w.mgr = _ from e1), bind_run] at e3
    simp only [get_run] at e3
    dsimp only
    rw [← hcol, ← hfull]
    split at e3
    · rename_i hlt
      rw [if_pos hlt]
      cases e3
      exact ⟨rfl, by show s1.poolEnd + _ = _; rw [hpe, hfull]⟩
    · rename_i hlt
      rw [if_neg hlt]
      cases e3
      exact ⟨rfl, by rw [hpe, hfull]; rfl⟩

/-- As documented while there is one pool, if the product with its size is a whole number. -/
theorem C85_first_pool_partial (hP : P.OK) (h : Reachable P w σ) (hauto : σ.auto = false) (hone : w.mgr.poolEnd = P.pool)
    (hwhole : w.mgr.gcRatio.2 ∣ w.mgr.gcRatio.1 * P.pool) (hfull : w.mgr.avail = 0) :
    ∃ w1 s', exec P.c .forceGc w = .ok (.unit, w1) ∧ makeRoom P.c w.mgr = .ok ((), s') ∧
      s'.poolEnd = P.pool +
        if w.mgr.gcRatio.2 * (w.mgr.nodeCount - w1.mgr.nodeCount) < w.mgr.gcRatio.1 * P.pool then P.c.extra else 0 := by
  obtain ⟨w1, s', e1, -, e2, -, -, h2⟩ := C85_pools_partial hP h hauto
  refine ⟨w1, s', e1, e2, ?_⟩
  have hden : 0 < w.mgr.gcRatio.2 := (reachable_rel hP h).good.pool.den
  rw [(h2 hfull).2, hone]
  obtain ⟨k, hk⟩ := hwhole
  rw [hk, Nat.mul_div_cancel_left _ hden]
  simp only [Nat.mul_lt_mul_left hden]

private theorem bddN_ok : (bddN 3 5 1).OK :=
  ⟨⟨fun _ _ => Nat.two_pos, fun m h i _ => by cases h; rfl⟩, by decide, by decide, by decide, by decide⟩

/-- Three variables of a manager with 5 nodes use up the pool, with the two terminals; the default ratio of 5 is 1. -/
example : ∃ w σ, Reachable (bddN 3 5 1) w σ ∧ σ.auto = false ∧ w.mgr.avail = 0 ∧ w.mgr.poolEnd = (bddN 3 5 1).pool ∧
    w.mgr.gcRatio.2 ∣ w.mgr.gcRatio.1 * (bddN 3 5 1).pool ∧ ∃ s', makeRoom (bddN 3 5 1).c w.mgr = .ok ((), s') := by
  have h : (match construct (bddN 3 5 1).c 5 (List.range 3) with
      | .ok m => match exec (bddN 3 5 1).c (.variableD 0) ⟨m, []⟩ with
        | .ok (_, w1) => match exec (bddN 3 5 1).c (.variableD 1) w1 with
          | .ok (_, w2) => match exec (bddN 3 5 1).c (.variableD 2) w2 with
            | .ok (_, w3) => decide (w3.mgr.avail = 0 ∧ w3.mgr.poolEnd = 5 ∧ w3.mgr.gcRatio = (1, 5))
            | .error _ => false
          | .error _ => false
        | .error _ => false
      | .error _ => false) = true := by decide +kernel
  split at h
  · rename_i m hm
    split at h
    · rename_i o1 w1 e1
      split at h
      · rename_i o2 w2 e2
        split at h
        · rename_i o3 w3 e3
          obtain ⟨a1, a2, a3⟩ := of_decide_eq_true h
          have r0 : Reachable (bddN 3 5 1) ⟨m, []⟩ _ := .init hm
          have r1 := Reachable.step (k := .variableD 0) r0 (show 0 < 3 by decide) e1
          have r2 := Reachable.step (k := .variableD 1) r1 (show 1 < 3 by decide) e2
          have r3 := Reachable.step (k := .variableD 2) r2 (show 2 < 3 by decide) e3
          obtain ⟨_, s', -, e, -⟩ := C85_first_pool_partial bddN_ok r3 rfl a2 (by rw [a3]; decide) a1
          exact ⟨w3, _, r3, rfl, a1, a2, by rw [a3]; decide, s', e⟩
        · cases h
      · cases h
    · cases h
  · cases h

/-- **C85.** A manager of ten binary variables with 5 nodes and further pools of one node, and the default ratio 1/5.  After
eight variables have been made there are 10 nodes in six pools, all in use.  One diagram is destroyed, so that one node is
garbage: not fewer than 1/5 of the initial 5 nodes.  Still the next node allocates another pool. -/
theorem C85_violated :
    ∃ m w w1 w', construct (bddN 10 5 1).c 5 (List.range 10) = .ok m ∧
      execAll (bddN 10 5 1).c ((List.range 8).map .variableD ++ [.drop 7]) ⟨m, []⟩ =
        .ok ((List.range 8).map .slot ++ [.unit], w) ∧
      w.mgr.gcRatio = (1, 5) ∧ w.mgr.poolEnd = 10 ∧ w.mgr.nodeCount = 10 ∧
      exec (bddN 10 5 1).c .forceGc w = .ok (.unit, w1) ∧ w1.mgr.nodeCount = 9 ∧
      exec (bddN 10 5 1).c (.variableD 8) w = .ok (.slot 8, w') ∧ w'.mgr.poolEnd = 11 := by
  have h : (match construct (bddN 10 5 1).c 5 (List.range 10) with
      | .ok m => match execAll (bddN 10 5 1).c ((List.range 8).map .variableD ++ [.drop 7]) ⟨m, []⟩ with
        | .ok (os, w) => match exec (bddN 10 5 1).c .forceGc w, exec (bddN 10 5 1).c (.variableD 8) w with
          | .ok (o1, w1), .ok (o2, w2) => decide (os = (List.range 8).map .slot ++ [.unit] ∧ w.mgr.gcRatio = (1, 5) ∧
              w.mgr.poolEnd = 10 ∧ w.mgr.nodeCount = 10 ∧ o1 = .unit ∧ w1.mgr.nodeCount = 9 ∧ o2 = .slot 8 ∧
              w2.mgr.poolEnd = 11)
          | _, _ => false
        | .error _ => false
      | .error _ => false) = true := by decide +kernel
  split at h
  · rename_i m hm
    split at h
    · rename_i os w hw
      split at h
      · rename_i o1 w1 o2 w2 h1 h2
        obtain ⟨rfl, a2, a3, a4, rfl, a6, rfl, a8⟩ := of_decide_eq_true h
        exact ⟨m, w, w1, w2, hm, hw, a2, a3, a4, h1, a6, h2, a8⟩
      · cases h
    · cases h
  · cases h

end Properties
end Teddy
