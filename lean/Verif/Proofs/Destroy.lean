import Verif.Proofs.Sim
import Verif.ReleaseSpec

/-! The destructor of the manager releases every node, every pool and one array per table. -/

namespace Teddy

open SM

/-- The nodes of `B` are constructed, and the allocated arrays are those of the internal ones. -/
structure Held (kind : Ptr → Kind) (B : Ptr → Prop) (m : Mem) : Prop where
  built : ∀ p, m.built p = true ↔ B p
  arrays : Arrays (fun q => B q ∧ ∃ i ss, kind q = .inner i ss) m.arr m.live

theorem Held.congr {kind : Ptr → Kind} {B B' : Ptr → Prop} {m : Mem} (h : Held kind B m)
    (e : ∀ p, B p ↔ B' p) : Held kind B' m :=
  ⟨fun p => (h.built p).trans (e p), h.arrays.congr fun q => by rw [e q]⟩

/-- `s'` differs from `s` in the memory of nodes only. -/
def DtorStep (s s' : Mgr) : Prop :=
  s'.kind = s.kind ∧ s'.mem.pools = s.mem.pools ∧ s'.mem.mainSize = s.mem.mainSize ∧ s'.heap = s.heap

theorem nodeDtor_held {B : Ptr → Prop} {s : Mgr} {p : Ptr} (h : Held s.kind B s.mem) (hp : B p) :
    Ok (nodeDtor p) s (fun _ s' => Held s'.kind (fun q => B q ∧ q ≠ p) s'.mem ∧ DtorStep s s') := by
  refine Ok.of_eq (nodeDtor_run ((h.built p).2 hp) fun i ss hk => h.arrays.own p ⟨hp, i, ss, hk⟩) ?_
  have hb : ∀ q, upd s.mem.built p false q = true ↔ B q ∧ q ≠ p := by
    intro q
    by_cases e : q = p
    · subst e; simp
    · rw [upd_other _ _ e, h.built]; simp [e]
  cases hk : s.kind p with
  | leaf v =>
      refine ⟨⟨hb, h.arrays.congr fun q => ⟨fun hq => ⟨hq.1.1, hq.2⟩, fun hq => ⟨⟨hq.1, ?_⟩, hq.2⟩⟩⟩,
        rfl, rfl, rfl, rfl⟩
      rintro rfl
      obtain ⟨_, i, ss, hk'⟩ := hq
      rw [hk] at hk'; cases hk'
  | inner i ss =>
      refine ⟨⟨hb, (h.arrays.remove ⟨hp, i, ss, hk⟩).congr fun q => ?_⟩, rfl, rfl, rfl, rfl⟩
      exact ⟨fun hq => ⟨⟨hq.1.1, hq.2⟩, hq.1.2⟩, fun hq => ⟨⟨hq.1.1, hq.2⟩, hq.1.2⟩⟩

theorem forDtor_held : ∀ (l : List Ptr) {B : Ptr → Prop} {s : Mgr}, Held s.kind B s.mem → l.Nodup →
    (∀ p ∈ l, B p) →
    Ok (forL nodeDtor l) s (fun _ s' => Held s'.kind (fun q => B q ∧ q ∉ l) s'.mem ∧ DtorStep s s')
  | [], B, s, h, _, _ => Ok.pure ⟨h.congr fun q => by simp, rfl, rfl, rfl, rfl⟩
  | p :: l, B, s, h, hn, hB => by
      refine Ok.bind (nodeDtor_held h (hB p (by simp))) fun _ s1 ⟨h1, k1, k2, k3, k4⟩ => ?_
      obtain ⟨hpl, hn⟩ := List.nodup_cons.1 hn
      refine (forDtor_held l h1 hn fun q hq => ⟨hB q (by simp [hq]), ?_⟩).mono
        fun _ s2 ⟨h2, j1, j2, j3, j4⟩ =>
          ⟨h2.congr fun q => ?_, j1.trans k1, j2.trans k2, j3.trans k3, j4.trans k4⟩
      · rintro rfl; exact hpl hq
      · simp [and_assoc]

theorem deallocatePool_held {s : Mgr} {base sz last : Nat} {rest : List (Nat × Nat)}
    (h : Held s.kind (fun q => q < last) s.mem) (hl : base ≤ last)
    (hp : s.mem.pools = (base, sz) :: rest) :
    Ok (deallocatePool last) s (fun _ s' => Held s'.kind (fun q => q < base) s'.mem ∧
      s'.mem.pools = rest ∧ s'.mem.mainSize = s.mem.mainSize ∧ s'.heap = s.heap) := by
  unfold deallocatePool
  refine Ok.bindGet ?_
  rw [hp]
  dsimp only
  refine Ok.bind (forDtor_held _ h List.nodup_range' fun p hp => ?_) fun _ s1 ⟨h1, k1, k2, k3, k4⟩ => ?_
  · have := (List.mem_range'_1.1 hp).2
    exact Nat.lt_of_lt_of_eq this (Nat.add_sub_cancel' hl)
  · have h2 : Held s1.kind (fun q => q < base) s1.mem := h1.congr fun q => by
      rw [List.mem_range'_1, Nat.add_sub_cancel' hl]
      constructor
      · rintro ⟨a, b⟩
        exact Nat.lt_of_not_le fun hb => b ⟨hb, a⟩
      · intro hq
        exact ⟨Nat.lt_of_lt_of_le hq hl, fun hb => Nat.lt_irrefl _ (Nat.lt_of_le_of_lt hb.1 hq)⟩
    exact Ok.modify ⟨⟨h2.built, h2.arrays⟩, rfl, k3, k4⟩

theorem deallocateExtra_held {c : Cfg} {main : Nat} : ∀ {pools : List (Nat × Nat)} {e : Nat},
    Chain main c.extra pools e → ∀ {fuel : Nat} {s : Mgr}, pools.length < fuel →
    s.mem.pools = pools → Held s.kind (fun q => q < e) s.mem →
    Ok (deallocateExtra c fuel) s (fun _ s' => Held s'.kind (fun q => q < main) s'.mem ∧
      s'.mem.pools = [(0, main)] ∧ s'.mem.mainSize = s.mem.mainSize ∧ s'.heap = s.heap) := by
  intro pools e ch
  induction ch with
  | main =>
      intro fuel s hf hp h
      cases fuel with
      | zero => simp at hf
      | succ fuel =>
          refine Ok.bindGet ?_
          rw [hp]
          exact Ok.pure ⟨h, hp, rfl, rfl⟩
  | @extra l e ch ih =>
      intro fuel s hf hp h
      cases fuel with
      | zero => simp at hf
      | succ fuel =>
          refine Ok.bindGet ?_
          rw [hp]
          have hl : ∃ b l', l = b :: l' := by cases ch <;> exact ⟨_, _, rfl⟩
          obtain ⟨b, l', rfl⟩ := hl
          refine Ok.bind (deallocatePool_held h (Nat.le_add_right _ _) hp) fun _ s1 ⟨h1, k2, k3, k4⟩ => ?_
          refine (ih (by simp only [List.length_cons] at hf ⊢; omega) k2 h1).mono
            fun _ s2 ⟨h2, j2, j3, j4⟩ => ⟨h2, j2, j3.trans k3, j4.trans k4⟩

/-- `~node_pool` succeeds and leaves nothing allocated. -/
theorem poolDtor_ok {c : Cfg} {s : Mgr} (h : MemOK c s.kind s.next s.poolEnd s.mem) :
    Ok (poolDtor c) s (fun _ s' => NodesReleased s' ∧ s'.heap = s.heap) := by
  have done : ∀ {s' : Mgr}, Held s'.kind (fun q => q < 0) s'.mem → s'.mem.pools = [] →
      NodesReleased s' := by
    intro s' hh hp
    refine ⟨List.eq_nil_iff_forall_not_mem.2 fun a ha => ?_, hp, fun p => ?_⟩
    · obtain ⟨q, hq, _⟩ := hh.arrays.exact a ha
      exact Nat.not_lt_zero _ hq.1
    · by_contra hb
      exact Nat.not_lt_zero _ ((hh.built p).1 (by simpa using hb))
  have h0 : Held s.kind (fun q => q < s.next) s.mem := ⟨h.built, h.arrays⟩
  have ch := h.chain
  refine Ok.bindGet ?_
  generalize hpl : s.mem.pools = pl at ch
  generalize s.poolEnd = pe at ch
  cases ch with
  | main =>
      refine Ok.bind (deallocatePool_held h0 (Nat.zero_le _) hpl) fun _ s1 ⟨h1, k2, k3, k4⟩ => ?_
      refine Ok.bind (Q := fun _ s2 => s2 = s1) ?_ fun _ s2 e => ?_
      · refine Ok.bindGet ?_
        rw [k2]
        exact Ok.pure rfl
      · subst e
        refine Ok.bindGet ?_
        rw [k2]
        exact Ok.pure ⟨done h1 k2, k4⟩
  | @extra l e ch =>
      have hb : e ≤ s.next := h.head (e, c.extra) (by rw [hpl]; simp)
      refine Ok.bind (deallocatePool_held h0 hb hpl) fun _ s1 ⟨h1, k2, k3, k4⟩ => ?_
      refine Ok.bind (deallocateExtra_held ch (by simp; omega) k2 h1) fun _ s2 ⟨h2, j2, j3, j4⟩ => ?_
      refine Ok.bindGet ?_
      rw [j2]
      dsimp only
      have hm : s2.mem.mainSize = s.mem.mainSize := j3.trans k3
      rw [hm]
      refine (deallocatePool_held (base := 0) (by rw [Nat.zero_add]; exact h2) (Nat.zero_le _) j2).mono
        fun _ s3 ⟨h3, i2, _, i4⟩ => ⟨done h3 i2, i4.trans (j4.trans k4)⟩

/-- The arrays of the tables in `l` and of the cache are allocated; `k` others are. -/
structure Owned (l : List Nat) (k : Nat) (h : Heap) : Prop where
  nodup : h.live.Nodup
  tab : ∀ i ∈ l, h.tab i ∈ h.live
  cache : h.cache ∈ h.live
  inj : ∀ i ∈ l, ∀ j ∈ l, h.tab i = h.tab j → i = j
  ne : ∀ i ∈ l, h.tab i ≠ h.cache
  count : h.live.length = l.length + 1 + k

theorem HeapOK.owned {n : Nat} {h : Heap} (k : HeapOK n h) : Owned (List.range n) h.rehashes h :=
  ⟨k.nodup, fun i hi => k.tab i (List.mem_range.1 hi), k.cache,
    fun i hi j hj => k.inj i j (List.mem_range.1 hi) (List.mem_range.1 hj), fun i hi => k.ne i (List.mem_range.1 hi),
    by rw [k.count, List.length_range]⟩

/-- The destructors of the tables free one array each. -/
theorem tableDtors_ok : ∀ (l : List Nat) {k : Nat} {s : Mgr}, l.Nodup → Owned l k s.heap →
    Ok (forL tableDtor l) s (fun _ s' => Owned [] k s'.heap ∧ s'.kind = s.kind ∧ s'.next = s.next ∧
      s'.poolEnd = s.poolEnd ∧ s'.mem = s.mem ∧ s'.heap.rehashes = s.heap.rehashes)
  | [], k, s, _, h => Ok.pure ⟨h, rfl, rfl, rfl, rfl, rfl⟩
  | i :: l, k, s, hn, h => by
      obtain ⟨hi, hn⟩ := List.nodup_cons.1 hn
      have hm := h.tab i (by simp)
      refine Ok.bind (Q := fun _ s1 => s1 = { s with heap := { s.heap with live := s.heap.live.erase (s.heap.tab i) } })
        ?_ fun _ s1 e => ?_
      · refine Ok.bindGet (Ok.bindGet ?_)
        rw [if_pos hm]
        exact ⟨_, _, rfl, rfl⟩
      · subst e
        refine (tableDtors_ok l (k := k) hn ?_).mono fun _ s2 q => q
        refine ⟨h.nodup.erase _, fun j hj => ?_, ?_, fun a ha b hb => h.inj a (by simp [ha]) b (by simp [hb]),
          fun j hj => h.ne j (by simp [hj]), ?_⟩
        · refine (List.mem_erase_of_ne fun e => ?_).2 (h.tab j (by simp [hj]))
          exact hi (h.inj j (by simp [hj]) i (by simp) e ▸ hj)
        · exact (List.mem_erase_of_ne (h.ne i (by simp)).symm).2 h.cache
        · show (s.heap.live.erase _).length = _
          rw [List.length_erase_of_mem hm, h.count]
          simp only [List.length_cons]; omega

/-- The destructor of the manager succeeds.  What stays allocated is one array for each call of `rehash`. -/
theorem mgrDtor_ok {c : Cfg} {s : Mgr} (h : MemOK c s.kind s.next s.poolEnd s.mem) (hh : HeapOK c.n s.heap) :
    Ok (mgrDtor c) s (fun _ s' => NodesReleased s' ∧ s'.heap.live.length = s'.heap.rehashes) := by
  refine Ok.bind (tableDtors_ok _ List.nodup_range hh.owned) fun _ s1 ⟨o, k1, k2, k3, k4, k5⟩ => ?_
  refine Ok.bind (poolDtor_ok (by rw [k1, k2, k3, k4]; exact h)) fun _ s2 ⟨r, e⟩ => ?_
  rw [← e] at o k5
  refine Ok.bindGet (Ok.bindGet ?_)
  rw [if_pos o.cache]
  refine ⟨_, _, rfl, r, ?_⟩
  show (s2.heap.live.erase _).length = s2.heap.rehashes
  rw [List.length_erase_of_mem o.cache, o.count, k5]
  simp

end Teddy
