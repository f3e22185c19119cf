import Verif.Demo

/-!
# Garbage collection, handles, the node pool, construction
-/

namespace Teddy
namespace Properties

open SM Spec

variable {P : Setup} {w : World} {σ : SState}

/-! ### C14 garbage collection is invisible

Automatic collections happen inside the calls that make diagrams; that those keep all diagrams is
part of `Makes` (theorems C01, C04–C07, C11, C13, C25). -/

/-- `force_gc()` succeeds, and no diagram changes: handles evaluate as before and are equal to each
other as before. -/
theorem C14_force_gc (hP : P.OK) (h : Reachable P w σ) :
    ∃ w', exec P.c .forceGc w = .ok (.unit, w') ∧
      (∀ a f, Denotes P w a f → Denotes P w' a f) ∧
      ∀ a b r, exec P.c (.equals a b) w = .ok (r, w) → exec P.c (.equals a b) w' = .ok (r, w') := by
  have R := reachable_rel hP h
  obtain ⟨o, w', e, rfl, R', hs, _⟩ := forceGc_sim R
  refine ⟨w', e, ?_, ?_⟩
  · intro a f ha
    obtain ⟨f', hf, s⟩ := R.of_denotes ha
    exact (R'.denotes hf).congr s
  · intro a b r hr
    simp only [exec] at hr ⊢
    simp only [bind_run, ptrOf, hs] at hr ⊢
    cases h1 : w.slots[a]? with
    | none => rw [h1] at hr; cases hr
    | some p =>
        rw [h1] at hr
        cases h2 : w.slots[b]? with
        | none => simp only [h2] at hr; cases hr
        | some q => simp only [h2] at hr; cases hr; simp only [hs, h2]; rfl

example : ∃ w σ, Reachable bdd3 w σ ∧ ∃ w', exec bdd3.c .forceGc w = .ok (.unit, w') ∧
    Denotes bdd3 w' 2 (fun x => Op.AND.val (x 0) (x 1)) := by
  obtain ⟨w, h⟩ := bdd3_world
  obtain ⟨w', e, hd, _⟩ := C14_force_gc bdd3_ok h
  exact ⟨w, _, h, w', e, hd 2 _ ((reachable_rel bdd3_ok h).denotes rfl)⟩

/-! ### C15 garbage collection is complete -/

/-- After `force_gc()`, `get_node_count()` is the number of different functions obtained from those of
the live diagrams by fixing the first variables of the order, that is, the number of nodes of the
shared reduced diagram of all live diagrams. -/
theorem C15_gc_complete (hP : P.OK) (h : Reachable P w σ) (hclean : σ.clean = true)
    (hcanon : σ.canon = true) {order : List Nat}
    (ho : exec P.c .getOrder w = .ok (.nats order, w)) :
    ∃ w' k, exec P.c .forceGc w = .ok (.unit, w') ∧ exec P.c .nodeCount w' = .ok (.nat k, w') ∧
      CountFuns P.c.n P.c.dom (fun g => ∃ a f, Denotes P w a f ∧
        Subfunction P.c.n P.c.dom order f g) k := by
  have R := reachable_rel hP h
  obtain ⟨o, w', e, rfl, R', hs, hp⟩ := forceGc_sim R
  refine ⟨w', w'.mgr.nodeCount, e, rfl, ?_⟩
  obtain ⟨vs, hnd, hmem, hlen⟩ := used_list R'.good.inv
  rw [← hlen]
  have key := count_subs (vs := vs) (F := fun f => ∃ a, σ.Has a f) R'.good.inv R'.good.ord hP.cfg
    (R'.good.canon hcanon) hnd ?_ ?_
  · have hord : levelVars P.c w'.mgr = order := by rw [R'.order, order_eq hP h ho]
    rw [show levelVars (envOf P σ).c w'.mgr = order from hord] at key
    refine key.congr ?_ ?_
    · rintro g ⟨f, ⟨a, ha⟩, hg⟩
      exact ⟨g, ⟨a, f, R.denotes ha, hg⟩, fun _ _ => rfl⟩
    · rintro g ⟨a, f, ha, hg⟩
      obtain ⟨f', hf, s⟩ := R.of_denotes ha
      obtain ⟨v, hv, s'⟩ := s.symm.subfunction hg
      exact ⟨v, ⟨f', ⟨a, hf⟩, hv⟩, s'⟩
  · intro q hq
    obtain ⟨a, r, h1, h2⟩ := rooted (R'.clean hclean) (hp q ((hmem q).1 hq))
    have ha : a < σ.slots.length := by rw [← R'.len]; exact lt_of_getElem?_some h1
    obtain ⟨o, t, h3, h4, h5⟩ := R'.getSlot ha
    rw [h1] at h3
    cases h3
    cases t with
    | none => cases h5
    | some f =>
        obtain ⟨r', h6, hd⟩ := R'.has a f h4
        rw [h1] at h6
        cases h6
        exact ⟨r, f, R'.used h1, h2, hd, a, h4⟩
  · rintro f ⟨a, ha⟩
    obtain ⟨r, h1, hd⟩ := R'.has a f ha
    exact ⟨r, R'.used h1, hd, fun q hq => (hmem q).2 (hq.used R'.good.inv (R'.used h1))⟩

example : ∃ w σ, Reachable bdd3 w σ ∧ ∃ w' k, exec bdd3.c .forceGc w = .ok (.unit, w') ∧
    exec bdd3.c .nodeCount w' = .ok (.nat k, w') ∧ 0 < k := by
  obtain ⟨w, h⟩ := bdd3_world
  obtain ⟨o, e', ho⟩ := asks (k := .getOrder) bdd3_ok h trivial rfl
  obtain ⟨w', k, e1, e2, gs, hl, _, _, hc⟩ := C15_gc_complete bdd3_ok h rfl rfl (ho ▸ e')
  obtain ⟨g, hg, _⟩ := hc _ ⟨0, fun x => (x 0 : Int), (reachable_rel bdd3_ok h).denotes rfl, 0,
    fun _ => 0, fun _ _ => Nat.two_pos, rfl⟩
  exact ⟨w, _, h, w', k, e1, e2, by rw [← hl]; exact List.length_pos_of_mem hg⟩

/-- After `force_gc()`, also in histories with reordering, exactly the nodes below the roots of the live handles
are in use, and `get_node_count()` is their number. -/
theorem C15_kept (hP : P.OK) (h : Reachable P w σ) (hclean : σ.clean = true) :
    ∃ w', ∃ vs : List Nat, exec P.c .forceGc w = .ok (.unit, w') ∧ w'.slots = w.slots ∧
      exec P.c .nodeCount w' = .ok (.nat vs.length, w') ∧ vs.Nodup ∧
      ∀ q, (q ∈ vs ↔ w'.mgr.used q = true) ∧
        (q ∈ vs ↔ ∃ (a r : Nat), w.slots[a]? = some (some r) ∧ Reach w'.mgr.kind r q) := by
  have R := reachable_rel hP h
  obtain ⟨o, w', e, rfl, R', hs, hp⟩ := forceGc_sim R
  obtain ⟨vs, hnd, hmem, hlen⟩ := used_list R'.good.inv
  refine ⟨w', vs, e, hs, by rw [hlen]; rfl, hnd, fun q => ⟨hmem q, ?_⟩⟩
  rw [hmem q]
  constructor
  · intro hq
    obtain ⟨a, r, h1, h2⟩ := rooted (R'.clean hclean) (hp q hq)
    exact ⟨a, r, by rw [← hs]; exact h1, h2⟩
  · rintro ⟨a, r, h1, h2⟩
    exact h2.used R'.good.inv (R'.used (by rw [hs]; exact h1))

/-- In every history, also with reordering, `get_node_count()` after `force_gc()` is at least the number of nodes
of the shared reduced diagram of all live diagrams. -/
theorem C15_lower_bound (hP : P.OK) (h : Reachable P w σ) (hclean : σ.clean = true) {order : List Nat}
    (ho : exec P.c .getOrder w = .ok (.nats order, w)) :
    ∃ w' k j, exec P.c .forceGc w = .ok (.unit, w') ∧ exec P.c .nodeCount w' = .ok (.nat k, w') ∧ j ≤ k ∧
      CountFuns P.c.n P.c.dom (fun g => ∃ a f, Denotes P w a f ∧
        Subfunction P.c.n P.c.dom order f g) j := by
  have R := reachable_rel hP h
  obtain ⟨o, w', e, rfl, R', hs, hp⟩ := forceGc_sim R
  obtain ⟨vs, hnd, hmem, hlen⟩ := used_list R'.good.inv
  have h1 : ∀ q ∈ vs, ∃ r f, w'.mgr.used r = true ∧ Reach w'.mgr.kind r q ∧ Den P.c w'.mgr r f ∧
      ∃ a, σ.Has a f := by
    intro q hq
    obtain ⟨a, r, h1, h2⟩ := rooted (R'.clean hclean) (hp q ((hmem q).1 hq))
    have ha : a < σ.slots.length := by rw [← R'.len]; exact lt_of_getElem?_some h1
    obtain ⟨o, t, h3, h4, h5⟩ := R'.getSlot ha
    rw [h1] at h3
    cases h3
    cases t with
    | none => cases h5
    | some f =>
        obtain ⟨r', h6, hd⟩ := R'.has a f h4
        rw [h1] at h6
        cases h6
        exact ⟨r, f, R'.used h1, h2, hd, a, h4⟩
  have h2 : ∀ f, (∃ a, σ.Has a f) → ∃ r, w'.mgr.used r = true ∧ Den P.c w'.mgr r f ∧
      ∀ q, Reach w'.mgr.kind r q → q ∈ vs := by
    rintro f ⟨a, ha⟩
    obtain ⟨r, h1, hd⟩ := R'.has a f ha
    exact ⟨r, R'.used h1, hd, fun q hq => (hmem q).2 (hq.used R'.good.inv (R'.used h1))⟩
  obtain ⟨j, hj, key⟩ := count_subs_le R'.good.inv R'.good.ord hP.cfg h1 h2
  refine ⟨w', _, j, e, rfl, by rw [← hlen]; exact hj, ?_⟩
  have hord : levelVars P.c w'.mgr = order := by rw [R'.order, order_eq hP h ho]
  rw [show levelVars (envOf P σ).c w'.mgr = order from hord] at key
  refine key.congr ?_ ?_
  · rintro g ⟨f, ⟨a, ha⟩, hg⟩
    exact ⟨g, ⟨a, f, R.denotes ha, hg⟩, fun _ _ => rfl⟩
  · rintro g ⟨a, f, ha, hg⟩
    obtain ⟨f', hf, s⟩ := R.of_denotes ha
    obtain ⟨v, hv, s'⟩ := s.symm.subfunction hg
    exact ⟨v, ⟨f', ⟨a, hf⟩, hv⟩, s'⟩

/-- After a reordering at least the nodes of x0, x1 and x0 ∧ x1 are counted. -/
example : ∃ w σ, Reachable bdd3 w σ ∧ σ.canon = false ∧ ∃ w' k, exec bdd3.c .forceGc w = .ok (.unit, w') ∧
    exec bdd3.c .nodeCount w' = .ok (.nat k, w') ∧ 0 < k := by
  obtain ⟨o, w, h⟩ := Reachable.call bdd3_ok bdd3_world .forceReorder trivial
  obtain ⟨o', e', ho⟩ := asks (k := .getOrder) bdd3_ok h trivial rfl
  obtain ⟨w', k, j, e1, e2, hj, gs, hl, _, _, hc⟩ := C15_lower_bound bdd3_ok h rfl (ho ▸ e')
  obtain ⟨g, hg, _⟩ := hc _ ⟨0, fun x => (x 0 : Int), (reachable_rel bdd3_ok h).denotes rfl, 0,
    fun _ => 0, fun _ _ => Nat.two_pos, rfl⟩
  have : 0 < gs.length := List.length_pos_of_mem hg
  exact ⟨w, _, h, rfl, w', k, e1, e2, by omega⟩

/-! ### C16 handles count references -/

/-- After any history, the reference count of each node in use is the number of handles whose root
it is plus the number of its occurrences as a son of nodes in use. -/
theorem C16_ref_counts (hP : P.OK) (h : Reachable P w σ) {p : Ptr} (hp : w.mgr.used p = true) :
    w.mgr.refs p = w.slots.count (some p) +
      (((List.range w.mgr.next).filter fun q => w.mgr.used q).map
        fun q => (w.mgr.sonsOf q).count p).sum := by
  rw [(reachable_rel hP h).good.inv.refs p hp, inDeg_eq_sum]
  simp [extW, extL]

/-- When all handles are gone, `force_gc()` frees all nodes.

Missing for the full property: histories in which `from_expression_tree` left marks behind
(`C16_violated`). -/
theorem C16_all_freed_partial (hP : P.OK) (h : Reachable P w σ) (hclean : σ.clean = true)
    (hall : ∀ o ∈ w.slots, o = none) :
    ∃ w', exec P.c .forceGc w = .ok (.unit, w') ∧ exec P.c .nodeCount w' = .ok (.nat 0, w') := by
  have R := reachable_rel hP h
  obtain ⟨o, w', e, rfl, R', hs, hp⟩ := forceGc_sim R
  refine ⟨w', e, ?_⟩
  obtain ⟨vs, hnd, hmem, hlen⟩ := used_list R'.good.inv
  have hnil : vs = [] := by
    rw [List.eq_nil_iff_forall_not_mem]
    intro q hq
    obtain ⟨a, r, h1, _⟩ := rooted (R'.clean hclean) (hp q ((hmem q).1 hq))
    have := hall _ (hs ▸ List.mem_of_getElem? h1)
    cases this
  have h0 : w'.mgr.nodeCount = 0 := by rw [← hlen, hnil]; rfl
  show Except.ok (Out.nat w'.mgr.nodeCount, w') = _
  rw [h0]

/-- Live handles exist exactly where the history says: a handle is empty iff it was destroyed or
moved from. -/
theorem C16_live_handles (hP : P.OK) (h : Reachable P w σ) {a : Nat} (ha : a < w.slots.length) :
    w.slots[a]? = some none ↔ σ.slots[a]? = some none := by
  have R := reachable_rel hP h
  obtain ⟨o, t, h1, h2, h3⟩ := R.getSlot (a := a) (by rw [← R.len]; exact ha)
  rw [h1, h2]
  cases o <;> cases t <;> simp [SlotR] at h3 ⊢

/-- Destroying the three handles and collecting frees everything. -/
example : ∃ w σ, Reachable bdd3 w σ ∧ σ.slots = [none, none, none] ∧
    ∃ w', exec bdd3.c .forceGc w = .ok (.unit, w') ∧
      exec bdd3.c .nodeCount w' = .ok (.nat 0, w') := by
  have h3 := Reachable.build bdd3_ok (Reachable.build bdd3_ok (Reachable.build bdd3_ok bdd3_world
    (.drop 0) (show 0 < 3 by decide) (fun _ => rfl)) (.drop 2) (show 2 < 3 by decide)
    (fun _ => rfl)) (.drop 1) (show 1 < 3 by decide) (fun _ => rfl)
  obtain ⟨w, h⟩ := h3
  refine ⟨w, _, h, rfl, C16_all_freed_partial bdd3_ok h rfl ?_⟩
  intro o ho
  obtain ⟨a, ha, rfl⟩ := List.getElem_of_mem ho
  have R := reachable_rel bdd3_ok h
  have : a < 3 := by rw [R.len] at ha; exact ha
  have hn := (C16_live_handles bdd3_ok h ha).2 (by
    match a, this with
    | 0, _ => rfl
    | 1, _ => rfl
    | 2, _ => rfl)
  rw [List.getElem?_eq_getElem ha] at hn
  simpa using hn

/-! ### C24 read-only operations leave no trace -/

/-- Queries do not change the manager at all. -/
theorem C24_queries_partial (hP : P.OK) (h : Reachable P w σ) {k : Call} (hk : Adm P σ k)
    (hq : k.isQuery = true) : ∃ o, exec P.c k w = .ok (o, w) := by
  obtain ⟨o, e, _⟩ := asks hP h hk hq
  exact ⟨o, e⟩

/-- As long as `from_expression_tree` is not used, no node is left marked by any call. -/
theorem C24_no_marks_partial (hP : P.OK) (h : Reachable P w σ) (hclean : σ.clean = true) (p : Ptr) :
    w.mgr.mark p = false := (reachable_rel hP h).clean hclean p

/-- Only `from_expression_tree` makes the history unclean. -/
theorem C24_clean_partial (σ : SState) (k : Call) (o : Out) (hk : ∀ e, k ≠ .fromExpr e) :
    (next P.c σ k o).clean = σ.clean := by
  cases k <;> first | rfl | exact absurd rfl (hk _)

example : ∃ w σ, Reachable bdd3 w σ ∧ (∃ o, exec bdd3.c (.satisfyCount 1 2) w = .ok (o, w)) ∧
    ∀ p, w.mgr.mark p = false := by
  obtain ⟨w, h⟩ := bdd3_world
  refine ⟨w, _, h, C24_queries_partial bdd3_ok h ?_ rfl, C24_no_marks_partial bdd3_ok h rfl⟩
  exact ⟨rfl, show 3 < 63 by decide, ⟨_, rfl⟩, fun m hm _ => by cases hm; decide⟩

/-! ### C37, C47 no call fails -/

/-- In a well-configured manager every admissible call, after any history, ends normally: no freed
memory is touched, no null pointer dereferenced, the node pool is not overrun, no container index
is out of range, no reference count underflows, no assertion fails and no recursion runs away
(these are the outcomes `.error` of the model). -/
theorem C47_no_failure (hP : P.OK) (h : Reachable P w σ) {k : Call} (hk : Adm P σ k)
    (ha : k.defers = true → σ.auto = false) :
    ∃ o w', exec P.c k w = .ok (o, w') ∧ Reachable P w' (next P.c σ k o) := by
  obtain ⟨o, w', e, _⟩ := sim (reachable_rel hP h) hk ha
  exact ⟨o, w', e, .step h hk e ha⟩

/-- The node pool: the nodes in use are different slots of the allocated pools, and the counters of
the pool are right; so a slot taken from the free list or from the pool is never one in use. -/
theorem C37_pool_partial (hP : P.OK) (h : Reachable P w σ) :
    w.mgr.next ≤ w.mgr.poolEnd ∧ (∀ p, w.mgr.used p = true → p < w.mgr.next) ∧
      (∀ p ∈ w.mgr.free, p < w.mgr.next ∧ w.mgr.used p = false) ∧ w.mgr.free.Nodup ∧
      w.mgr.avail = w.mgr.free.length + (w.mgr.poolEnd - w.mgr.next) := by
  have hp := (reachable_rel hP h).good.inv.pool
  exact ⟨hp.le, hp.usedLt, hp.freeUnused, hp.freeNodup, hp.avail_eq⟩

/-- No call overruns the pool when the first pool has at least 5 nodes, later pools are not empty and
the garbage collection ratio leaves room for a node. -/
theorem C37_no_overrun_partial (hP : P.OK) (h : Reachable P w σ) {k : Call} (hk : Adm P σ k)
    (ha : k.defers = true → σ.auto = false) :
    exec P.c k w ≠ .error .poolOverrun := by
  obtain ⟨o, w', e, _⟩ := C47_no_failure hP h hk ha
  rw [e]; exact fun h => nomatch h

example : ∃ w σ, Reachable mdd3 w σ ∧
    ∃ o w', exec mdd3.c (.cofactors 2 [(0, 1), (1, 0)]) w = .ok (o, w') := by
  obtain ⟨w, h⟩ := mdd3_world
  obtain ⟨o, w', e, _⟩ := C47_no_failure (k := .cofactors 2 [(0, 1), (1, 0)]) mdd3_ok h
    ⟨⟨_, rfl⟩, by decide⟩ (fun _ => rfl)
  exact ⟨w, _, h, o, w', e⟩

/-! ### C43 construction -/

/-- The constructor succeeds for two or more variables; the new manager has no nodes, one empty
unique table per variable, and inverse level and index maps given by the order. -/
theorem C43_construct_partial (hP : P.OK) :
    ∃ m, construct P.c P.pool P.order = .ok m ∧ m.nodeCount = 0 ∧
      (∀ i, i < P.c.n → (m.tables i).nodes = []) ∧
      (∀ l, l < P.c.n → P.order[l]? = some (m.lvl2idx l) ∧ m.idx2lvl (m.lvl2idx l) = l) ∧
      ∀ i, i < P.c.n → m.idx2lvl i < P.c.n ∧ m.lvl2idx (m.idx2lvl i) = i := by
  obtain ⟨m, e, R⟩ := construct_sim hP
  have hord := R.good.inv.order
  refine ⟨m, e, ?_, ?_, ?_, fun i hi => ⟨hord.i2l_lt i hi, hord.i2l2i i hi⟩⟩
  · have : m = Mgr.init P.c P.pool P.order := construct_eq e
    rw [this]; rfl
  · intro i hi
    rw [construct_eq e]
    exact Table.make_nodes _
  · intro l hl
    refine ⟨?_, hord.l2i2l l hl⟩
    have hlen : P.order.length = P.c.n := by simpa using hP.perm.length_eq
    rw [construct_eq e]
    simp [Mgr.init, List.getD, hlen, hl]

example : ∃ m, construct bdd3.c 100 [2, 0, 1] = .ok m ∧ m.lvl2idx 0 = 2 ∧ m.idx2lvl 2 = 0 := by
  obtain ⟨m, e, _, _, h, _⟩ := C43_construct_partial bdd3_ok
  have h0 := h 0 (by decide)
  have h1 : m.lvl2idx 0 = 2 := by simpa [bdd3] using h0.1.symm
  exact ⟨m, e, h1, by rw [← h1]; exact h0.2⟩

end Properties
end Teddy
