import Verif.Proofs.Tidy
import Verif.Properties.Automatic
import Verif.Properties.ViolationsReduce

/-!
# Memory: what is allocated, and the end of the manager
-/

namespace Teddy
namespace Properties

open SM Spec

variable {P : Setup} {w : World} {σ : SState}

/-! ### C72 all memory is released, once -/

/-- After any history the handles and then the manager can be destroyed.  In the end nothing is allocated for
nodes; of the hash tables one array stays behind for each time a table or the cache was enlarged.

Missing from C72: that these arrays are released, which `C72_violated` refutes. -/
theorem C72_destruction_partial (hP : P.OK) (h : Reachable P w σ) :
    ∃ w', endScope P.c w = .ok ((), w') ∧ NodesReleased w'.mgr ∧
      w'.mgr.heap.live.length = w'.mgr.heap.rehashes := by
  have R := reachable_rel hP h
  suffices Ok (endScope P.c) w (fun _ w' => NodesReleased w'.mgr ∧
      w'.mgr.heap.live.length = w'.mgr.heap.rehashes) by
    obtain ⟨_, w', e, q⟩ := this
    exact ⟨w', e, q⟩
  refine Ok.bindGet ?_
  have g : Good (envOf P σ) (extL (fun _ => 0) w.slots.reverse) w.mgr :=
    R.good.ext_eq fun p => by simp [extW, extL]
  refine Ok.bind (Q := fun _ w1 => Good (envOf P σ) (fun _ => 0) w1.mgr)
    (onMgr_ok ((dropAll_good _ _ g).mono fun _ s h => h.1)) fun _ w1 g1 => ?_
  exact onMgr_ok (mgrDtor_ok g1.inv.mem g1.inv.heap)

/-- Three handles; the internal nodes of x0, x1 and max(x0, x1) own arrays of sons. -/
example : ∃ w σ, Reachable mdd3 w σ ∧ w.mgr.mem.live ≠ [] ∧ ∃ w', endScope mdd3.c w = .ok ((), w') ∧
    NodesReleased w'.mgr ∧ w'.mgr.heap.live.length = w'.mgr.heap.rehashes := by
  obtain ⟨w, h⟩ := mdd3_world
  have R := reachable_rel mdd3_ok h
  refine ⟨w, _, h, fun hl => ?_, C72_destruction_partial mdd3_ok h⟩
  obtain ⟨p, hp, hd⟩ := R.has 0 _ rfl
  have h0 := hd (fun _ => 0) (fun i hi => by show 0 < if i = 1 then 3 else 2; split <;> decide)
  have h1 := hd (fun _ => 1) (fun i hi => by show 1 < if i = 1 then 3 else 2; split <;> decide)
  have hu := R.good.inv.pool.usedLt p (R.used hp)
  cases hk : w.mgr.kind p with
  | inner i ss =>
      have := R.good.inv.mem.arr_mem hu hk
      rw [hl] at this
      cases this
  | leaf v =>
      have e := (h0.det (.leaf hk)).trans (h1.det (.leaf hk)).symm
      exact absurd e (by decide)

/-- No program, whatever its calls and whatever the settings of the manager, frees an array that
is not allocated or runs the destructor of a node where no node is; neither does the destruction of its
handles and its manager. -/
theorem C72_never_twice (c : Cfg) (pool : Nat) (order : List Nat) {ks : List Call}
    (hk : ∀ k ∈ ks, k.Tame) :
    lifetime c pool order ks ≠ .error .doubleFree ∧ lifetime c pool order ks ≠ .error .unbuilt := by
  have h := lifetime_tidy c pool order hk
  constructor <;> (intro e; rw [e] at h)
  · exact h.1 rfl
  · exact h.2 rfl

/-- A program that uses a handle it has destroyed: it fails, but not because something is released twice. -/
example : (∀ k ∈ [Call.variableD 0, .drop 0, .apply Op.AND 0 0], k.Tame) ∧
    (match lifetime (bdd5 10 5).c 10 [0, 1, 2, 3, 4] [.variableD 0, .drop 0, .apply Op.AND 0 0] with
     | .ok _ => false
     | .error e => decide (e = .nullDeref)) = true := by
  refine ⟨?_, by decide +kernel⟩
  simp only [List.mem_cons, List.not_mem_nil, or_false]
  rintro k (rfl | rfl | rfl)
  · trivial
  · trivial
  · exact inferInstanceAs (TameOp Op.AND)

/-- Every program that comes to its end, whatever its calls and whatever the settings of the manager,
leaves nothing allocated, provided that no hash table had to be enlarged; otherwise it leaves one array for each
such occasion and nothing else.

Missing from C72: as in `C72_destruction_partial`. -/
theorem C72_released_partial (c : Cfg) (pool : Nat) (order : List Nat) {ks : List Call} (hk : ∀ k ∈ ks, k.Tame)
    {m : Mgr} (h : lifetime c pool order ks = .ok m) :
    (m.heap.rehashes = 0 → Released m) ∧ NodesReleased m ∧ m.heap.live.length = m.heap.rehashes := by
  have := lifetime_tidy c pool order hk
  rw [h] at this
  exact ⟨fun e => ⟨this.1, List.length_eq_zero_iff.1 (this.2.trans e)⟩, this⟩

/-- The program of `C45_violated_disabled`, whose last diagram is wrong because of an automatic reordering.  The pool
of ten nodes is extended, but no table is; in the end all is released. -/
example : (∀ k ∈ disabledProgram, k.Tame) ∧
    (match lifetime (bdd5 10 5).c 10 [0, 1, 2, 3, 4] disabledProgram with
     | .ok m => decide (m.poolEnd = 25 ∧ m.heap.rehashes = 0)
     | .error _ => false) = true := by
  refine ⟨?_, by decide +kernel⟩
  simp only [disabledProgram, List.mem_cons, List.not_mem_nil, or_false]
  rintro k (rfl | rfl | rfl | rfl | rfl | rfl | rfl | rfl | rfl | rfl | rfl | rfl | rfl | rfl) <;>
    first | trivial | exact inferInstanceAs (TameOp _)

/-- At any time the arrays of sons that are allocated are those of the constructed internal nodes, each
belonging to one node: none is lost and none is shared.  Every node in use is constructed. -/
theorem C72_arrays (hP : P.OK) (h : Reachable P w σ) :
    w.mgr.mem.live.Nodup ∧
      (∀ p i sons, w.mgr.mem.built p = true → w.mgr.kind p = .inner i sons →
        w.mgr.mem.arr p ∈ w.mgr.mem.live) ∧
      (∀ a ∈ w.mgr.mem.live, ∃! p, w.mgr.mem.built p = true ∧ (∃ i sons, w.mgr.kind p = .inner i sons) ∧
        w.mgr.mem.arr p = a) ∧
      ∀ p, w.mgr.used p = true → w.mgr.mem.built p = true := by
  have I := (reachable_rel hP h).good.inv
  have m := I.mem
  refine ⟨m.arrays.nodup, fun p i ss hb hk => m.arrays.own p ⟨(m.built p).1 hb, i, ss, hk⟩, fun a ha => ?_,
    fun p hp => (m.built p).2 (I.pool.usedLt p hp)⟩
  obtain ⟨p, hp, rfl⟩ := m.arrays.exact a ha
  refine ⟨p, ⟨(m.built p).2 hp.1, hp.2, rfl⟩, fun q ⟨hb, hk, e⟩ => ?_⟩
  exact m.arrays.inj q p ⟨(m.built q).1 hb, hk⟩ hp e

/-- The cache is enlarged while constants are made: the array it had before is never released. -/
theorem C72_violated :
    (match lifetime imdd3.c 100 [0, 1, 2] (.setCacheRatio 2 1 :: (List.range 231).map fun k => .constant (k : Nat)) with
     | .ok m => decide (m.heap.live = [3])
     | .error _ => false) = true := by
  decide +kernel

end Properties
end Teddy
