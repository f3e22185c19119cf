import Verif.Proofs.Loops
import Mathlib.Data.List.Nodup

/-! Son arrays and node pools: what is allocated belongs to exactly one node. -/

namespace Teddy

open SM

/-- The nodes in `I` own one array each, and there are no others. -/
structure Arrays (I : Ptr → Prop) (arr : Ptr → Nat) (live : List Nat) : Prop where
  nodup : live.Nodup
  own : ∀ p, I p → arr p ∈ live
  inj : ∀ p q, I p → I q → arr p = arr q → p = q
  exact : ∀ a ∈ live, ∃ p, I p ∧ arr p = a

namespace Arrays

variable {I J : Ptr → Prop} {arr : Ptr → Nat} {live : List Nat}

theorem congr (h : Arrays I arr live) (e : ∀ p, J p ↔ I p) : Arrays J arr live where
  nodup := h.nodup
  own p hp := h.own p ((e p).1 hp)
  inj p q hp hq := h.inj p q ((e p).1 hp) ((e q).1 hq)
  exact a ha := by
    obtain ⟨p, hp, e'⟩ := h.exact a ha
    exact ⟨p, (e p).2 hp, e'⟩

theorem remove (h : Arrays I arr live) {p : Ptr} (hp : I p) :
    Arrays (fun q => I q ∧ q ≠ p) arr (live.erase (arr p)) where
  nodup := h.nodup.erase _
  own q hq := (List.mem_erase_of_ne fun e => hq.2 (h.inj q p hq.1 hp e)).2 (h.own q hq.1)
  inj q r hq hr := h.inj q r hq.1 hr.1
  exact a ha := by
    obtain ⟨q, hq, rfl⟩ := h.exact a (List.mem_of_mem_erase ha)
    refine ⟨q, ⟨hq, ?_⟩, rfl⟩
    rintro rfl
    exact (h.nodup.mem_erase_iff.1 ha).1 rfl

theorem add (h : Arrays I arr live) {p : Ptr} {a : Nat} (hp : ¬ I p) (ha : a ∉ live) :
    Arrays (fun q => I q ∨ q = p) (upd arr p a) (a :: live) where
  nodup := List.nodup_cons.2 ⟨ha, h.nodup⟩
  own q hq := by
    by_cases e : q = p
    · subst e; simp
    · rw [upd_other _ _ e]
      exact List.mem_cons_of_mem _ (h.own q (hq.resolve_right e))
  inj q r hq hr e := by
    by_cases e1 : q = p <;> by_cases e2 : r = p
    · rw [e1, e2]
    · subst e1
      rw [upd_same, upd_other _ _ e2] at e
      exact absurd (h.own r (hr.resolve_right e2)) (e ▸ ha)
    · subst e2
      rw [upd_same, upd_other _ _ e1] at e
      exact absurd (h.own q (hq.resolve_right e1)) (e ▸ ha)
    · rw [upd_other _ _ e1, upd_other _ _ e2] at e
      exact h.inj q r (hq.resolve_right e1) (hr.resolve_right e2) e
  exact b hb := by
    rcases List.mem_cons.1 hb with rfl | hb
    · exact ⟨p, Or.inr rfl, upd_same _ _ _⟩
    · obtain ⟨q, hq, rfl⟩ := h.exact b hb
      have e : q ≠ p := by rintro rfl; exact hp hq
      exact ⟨q, Or.inl hq, upd_other _ _ e⟩

end Arrays

/-- The pools, newest first, fill the addresses below `e`: the first one has `main` slots, the others
`extra`. -/
inductive Chain (main extra : Nat) : List (Nat × Nat) → Nat → Prop
  | main : Chain main extra [(0, main)] main
  | extra {l : List (Nat × Nat)} {e : Nat} :
      Chain main extra l e → Chain main extra ((e, extra) :: l) (e + extra)

/-- The slot holds a node that is or was internal. -/
def IsInner (kind : Ptr → Kind) (next : Nat) (p : Ptr) : Prop :=
  p < next ∧ ∃ i ss, kind p = .inner i ss

/-- Invariant of the allocated memory. -/
structure MemOK (c : Cfg) (kind : Ptr → Kind) (next poolEnd : Nat) (m : Mem) : Prop where
  built : ∀ p, m.built p = true ↔ p < next
  arrays : Arrays (IsInner kind next) m.arr m.live
  chain : Chain m.mainSize c.extra m.pools poolEnd
  head : ∀ b ∈ m.pools, b.1 ≤ next

theorem Mem.fresh_notMem (m : Mem) : m.fresh ∉ m.live := by
  have : ∀ (l : List Nat), ∀ a ∈ l, a ≤ l.foldr max 0 := by
    intro l
    induction l with
    | nil => simp
    | cons b l ih =>
        intro a ha
        rcases List.mem_cons.1 ha with rfl | ha
        · exact Nat.le_max_left _ _
        · exact Nat.le_trans (ih a ha) (Nat.le_max_right _ _)
  intro h
  have := this _ _ h
  simp only [Mem.fresh] at this
  omega

theorem mallocSons_run (s : Mgr) : mallocSons s =
    .ok (s.mem.fresh, { s with mem := { s.mem with live := s.mem.fresh :: s.mem.live } }) := rfl

theorem freeSons_run {s : Mgr} {a : Nat} (h : a ∈ s.mem.live) :
    freeSons a s = .ok ((), { s with mem := { s.mem with live := s.mem.live.erase a } }) := by
  simp [freeSons, bind_run, h]

/-- An array that is allocated and released at once leaves no trace. -/
theorem tempSons_run (s : Mgr) : (mallocSons >>= fun a => freeSons a) s = .ok ((), s) := by
  rw [bind_ok (mallocSons_run s), freeSons_run (by simp)]
  simp

theorem tempSons_bind {α : Type} (f : M α) (s : Mgr) :
    (mallocSons >>= fun a => freeSons a >>= fun _ => f) s = f s := by
  rw [← bind_assoc, bind_ok (tempSons_run s)]

theorem Ok.tempSons {α : Type} {f : M α} {s : Mgr} {Q : α → Mgr → Prop} (h : Ok f s Q) :
    Ok (mallocSons >>= fun a => freeSons a >>= fun _ => f) s Q := by
  obtain ⟨a, t, e, hq⟩ := h
  exact ⟨a, t, by rw [tempSons_bind]; exact e, hq⟩

theorem Ok.thenTempSons {m : M Unit} {s : Mgr} {Q : Unit → Mgr → Prop} (h : Ok m s Q) :
    Ok (m >>= fun _ => mallocSons >>= fun a => freeSons a) s Q := by
  obtain ⟨a, t, e, hq⟩ := h
  exact ⟨(), t, by rw [bind_ok e]; exact tempSons_run t, hq⟩

/-- Effect of `~node` on a slot with node `k`. -/
def Mem.dtor (m : Mem) (k : Kind) (p : Ptr) : Mem :=
  match k with
  | .inner _ _ => { m with live := m.live.erase (m.arr p), built := upd m.built p false }
  | .leaf _ => { m with built := upd m.built p false }

/-- Effect of the constructors. -/
def Mem.ctor (m : Mem) (p : Ptr) (k : Kind) : Mem :=
  match k with
  | .inner _ _ =>
      { m with live := m.fresh :: m.live, arr := upd m.arr p m.fresh, built := upd m.built p true }
  | .leaf _ => { m with built := upd m.built p true }

/-- Effect of `node_pool::create`. -/
def Mem.create (m : Mem) (kind : Ptr → Kind) (free : List Ptr) (p : Ptr) (k : Kind) : Mem :=
  match free with
  | [] => m.ctor p k
  | _ :: _ => (m.dtor (kind p) p).ctor p k

/-- Effect of `set_sons`. -/
def Mem.reseat (m : Mem) (p : Ptr) : Mem :=
  { m with
    live := ({ m with live := m.live.erase (m.arr p) } : Mem).fresh :: m.live.erase (m.arr p)
    arr := upd m.arr p ({ m with live := m.live.erase (m.arr p) } : Mem).fresh }

section
variable {c : Cfg} {kind : Ptr → Kind} {next poolEnd : Nat} {m : Mem} {s : Mgr}

theorem nodeDtor_run {p : Ptr} (hb : s.mem.built p = true)
    (ha : ∀ i ss, s.kind p = .inner i ss → s.mem.arr p ∈ s.mem.live) :
    nodeDtor p s = .ok ((), { s with mem := s.mem.dtor (s.kind p) p }) := by
  unfold nodeDtor
  rw [bind_ok (get_run _), if_pos hb]
  cases hk : s.kind p with
  | leaf v => simp [Mem.dtor]
  | inner i ss =>
      dsimp only
      rw [bind_ok (freeSons_run (ha i ss hk))]
      simp [Mem.dtor]

theorem nodeCtor_run (p : Ptr) (k : Kind) :
    nodeCtor p k s = .ok ((), { s with
      kind := upd s.kind p k
      refs := upd s.refs p 0
      mark := upd s.mark p false
      used := upd s.used p true
      data := upd s.data p none
      mem := s.mem.ctor p k
      link := s.link.setNext p none }) := by
  cases k <;> rfl

theorem setSons_run {p : Ptr} {i i0 : Nat} {sons ss0 : List Ptr} (hu : s.used p = true)
    (hk : s.kind p = .inner i0 ss0) (ha : s.mem.arr p ∈ s.mem.live) :
    setSons p i sons s = .ok ((), { s with
      kind := upd s.kind p (.inner i sons)
      mem := s.mem.reseat p }) := by
  unfold setSons
  have e : getKind p s = .ok (.inner i0 ss0, s) := by
    unfold getKind
    rw [bind_ok (chkUsed_ok hu), bind_ok (get_run _), hk]; rfl
  rw [bind_ok e]
  dsimp only
  rw [bind_ok (get_run _), bind_ok (freeSons_run ha)]
  rfl

theorem Mem.dtor_ok (h : MemOK c kind next poolEnd m) {p : Ptr} (hp : p < next) :
    (∀ q, (m.dtor (kind p) p).built q = true ↔ q < next ∧ q ≠ p) ∧
      Arrays (fun q => IsInner kind next q ∧ q ≠ p) (m.dtor (kind p) p).arr
        (m.dtor (kind p) p).live := by
  have hb : ∀ q, upd m.built p false q = true ↔ q < next ∧ q ≠ p := by
    intro q
    by_cases e : q = p
    · subst e; simp
    · rw [upd_other _ _ e, h.built]; simp [e]
  cases hk : kind p with
  | leaf v =>
      refine ⟨hb, h.arrays.congr fun q => ⟨fun hq => hq.1, fun hq => ⟨hq, ?_⟩⟩⟩
      rintro rfl
      obtain ⟨_, i, ss, hk'⟩ := hq
      rw [hk] at hk'; cases hk'
  | inner i ss => exact ⟨hb, h.arrays.remove ⟨hp, i, ss, hk⟩⟩

theorem Mem.ctor_ok {I : Ptr → Prop} (hA : Arrays I m.arr m.live) {p : Ptr} (hp : ¬ I p)
    {k : Kind} : Arrays (fun q => I q ∨ (q = p ∧ ∃ i ss, k = .inner i ss)) (m.ctor p k).arr
      (m.ctor p k).live := by
  cases k with
  | leaf v => exact hA.congr fun q => by simp
  | inner i ss => exact (hA.add hp m.fresh_notMem).congr fun q => by simp

theorem isInner_upd {p : Ptr} {k : Kind} {nx : Nat} (hp : p < nx) (q : Ptr) :
    IsInner (upd kind p k) nx q ↔
      (IsInner kind nx q ∧ q ≠ p) ∨ (q = p ∧ ∃ i ss, k = .inner i ss) := by
  unfold IsInner
  by_cases e : q = p
  · subst e; simp [hp]
  · simp [upd_other _ _ e, e]

theorem MemOK.create (h : MemOK c kind next poolEnd m) {p : Ptr} {k : Kind} {free fr : List Ptr}
    {nx : Nat}
    (hs : (free = p :: fr ∧ p < next ∧ nx = next) ∨ (free = [] ∧ p = next ∧ nx = next + 1)) :
    MemOK c (upd kind p k) nx poolEnd (m.create kind free p k) := by
  rcases hs with ⟨rfl, hp, rfl⟩ | ⟨rfl, rfl, rfl⟩
  · obtain ⟨hb, hA⟩ := Mem.dtor_ok h hp
    have e1 : (m.create kind (p :: fr) p k).pools = m.pools := by
      cases k <;> cases hk : kind p <;> simp [Mem.create, Mem.ctor, Mem.dtor, hk]
    have e2 : (m.create kind (p :: fr) p k).mainSize = m.mainSize := by
      cases k <;> cases hk : kind p <;> simp [Mem.create, Mem.ctor, Mem.dtor, hk]
    refine ⟨?_, ?_, by rw [e1, e2]; exact h.chain, by rw [e1]; exact h.head⟩
    · intro q
      have : (m.create kind (p :: fr) p k).built q = upd (m.dtor (kind p) p).built p true q := by
        cases k <;> rfl
      rw [this]
      by_cases e : q = p
      · subst e; simp [hp]
      · rw [upd_other _ _ e, hb]; simp [e]
    · exact (Mem.ctor_ok hA (p := p) (fun hq => hq.2 rfl)).congr (isInner_upd hp)
  · have e1 : (m.create kind [] p k).pools = m.pools := by cases k <;> rfl
    have e2 : (m.create kind [] p k).mainSize = m.mainSize := by cases k <;> rfl
    refine ⟨?_, ?_, by rw [e1, e2]; exact h.chain, fun b hb => ?_⟩
    · intro q
      have : (m.create kind [] p k).built q = upd m.built p true q := by cases k <;> rfl
      rw [this]
      by_cases e : q = p
      · subst e; simp
      · rw [upd_other _ _ e, h.built]
        exact ⟨fun h => Nat.lt_succ_of_lt h, fun h => Nat.lt_of_le_of_ne (Nat.lt_succ_iff.1 h) e⟩
    · refine (Mem.ctor_ok h.arrays (p := p) (fun hq => Nat.lt_irrefl _ hq.1)).congr fun q => ?_
      rw [isInner_upd (Nat.lt_succ_self _)]
      have : IsInner kind (p + 1) q ∧ q ≠ p ↔ IsInner kind p q := by
        unfold IsInner
        constructor
        · rintro ⟨⟨h1, h2⟩, h3⟩; exact ⟨Nat.lt_of_le_of_ne (Nat.lt_succ_iff.1 h1) h3, h2⟩
        · rintro ⟨h1, h2⟩; exact ⟨⟨Nat.lt_succ_of_lt h1, h2⟩, Nat.ne_of_lt h1⟩
      rw [this]
    · rw [e1] at hb
      exact Nat.le_succ_of_le (h.head b hb)

theorem MemOK.grow (h : MemOK c kind next poolEnd m) (he : next = poolEnd) :
    MemOK c kind poolEnd (poolEnd + c.extra)
      { m with pools := (poolEnd, c.extra) :: m.pools } := by
  subst he
  refine ⟨h.built, h.arrays, .extra h.chain, fun b hb => ?_⟩
  rcases List.mem_cons.1 hb with rfl | hb
  · exact Nat.le_refl _
  · exact h.head b hb

theorem MemOK.reseat (h : MemOK c kind next poolEnd m) {p : Ptr} (hp : IsInner kind next p)
    {j : Nat} {outer : List Ptr} :
    MemOK c (upd kind p (.inner j outer)) next poolEnd (m.reseat p) := by
  refine ⟨h.built, ?_, h.chain, h.head⟩
  refine ((h.arrays.remove hp).add (p := p) (fun hq => hq.2 rfl)
    (Mem.fresh_notMem { m with live := m.live.erase (m.arr p) })).congr fun q => ?_
  rw [isInner_upd hp.1]
  simp

theorem MemOK.arr_mem (h : MemOK c kind next poolEnd m) {p : Ptr} (hp : p < next) {i : Nat}
    {ss : List Ptr} (hk : kind p = .inner i ss) : m.arr p ∈ m.live :=
  h.arrays.own p ⟨hp, i, ss, hk⟩

end

/-! ### The arrays of tables -/

/-- The tables and the cache own different arrays; as many others are allocated as `rehash` has been called. -/
structure HeapOK (n : Nat) (h : Heap) : Prop where
  nodup : h.live.Nodup
  tab : ∀ i, i < n → h.tab i ∈ h.live
  cache : h.cache ∈ h.live
  inj : ∀ i j, i < n → j < n → h.tab i = h.tab j → i = j
  ne : ∀ i, i < n → h.tab i ≠ h.cache
  count : h.live.length = n + 1 + h.rehashes

theorem Heap.fresh_notMem (h : Heap) : h.fresh ∉ h.live := by
  intro hm
  have key : ∀ (l : List Nat) (a : Nat), a ∈ l → a ≤ l.foldr max 0 := by
    intro l
    induction l with
    | nil => intro a ha; cases ha
    | cons b l ih =>
        intro a ha
        rcases List.mem_cons.1 ha with rfl | ha
        · exact Nat.le_max_left _ _
        · exact Nat.le_trans (ih a ha) (Nat.le_max_right _ _)
  have := key _ _ hm
  unfold Heap.fresh at this
  omega

theorem HeapOK.rehashTable {n : Nat} {h : Heap} (k : HeapOK n h) {i : Nat} : HeapOK n (h.rehashTable i) := by
  have hf := h.fresh_notMem
  have ht : ∀ j, j < n → h.tab j ≠ h.fresh := fun j hj e => hf (e ▸ k.tab j hj)
  have hc : h.cache ≠ h.fresh := fun e => hf (e ▸ k.cache)
  refine ⟨List.nodup_cons.2 ⟨hf, k.nodup⟩, fun j hj => ?_, List.mem_cons_of_mem _ k.cache, fun a b ha hb e => ?_,
    fun j hj => ?_, ?_⟩
  · show upd h.tab i h.fresh j ∈ h.fresh :: h.live
    by_cases e : j = i
    · subst e; rw [upd_same]; simp
    · rw [upd_other _ _ e]; exact List.mem_cons_of_mem _ (k.tab j hj)
  · have e : upd h.tab i h.fresh a = upd h.tab i h.fresh b := e
    by_cases ea : a = i <;> by_cases eb : b = i
    · rw [ea, eb]
    · rw [ea, upd_same, upd_other _ _ eb] at e; exact absurd e.symm (ht b hb)
    · rw [eb, upd_same, upd_other _ _ ea] at e; exact absurd e (ht a ha)
    · rw [upd_other _ _ ea, upd_other _ _ eb] at e; exact k.inj a b ha hb e
  · show upd h.tab i h.fresh j ≠ h.cache
    by_cases e : j = i
    · subst e; rw [upd_same]; exact hc.symm
    · rw [upd_other _ _ e]; exact k.ne j hj
  · show h.live.length + 1 = n + 1 + (h.rehashes + 1)
    rw [k.count]; omega

theorem HeapOK.rehashCache {n : Nat} {h : Heap} (k : HeapOK n h) : HeapOK n h.rehashCache := by
  have hf := h.fresh_notMem
  refine ⟨List.nodup_cons.2 ⟨hf, k.nodup⟩, fun j hj => List.mem_cons_of_mem _ (k.tab j hj), by simp [Heap.rehashCache],
    k.inj, fun j hj e => hf ?_, ?_⟩
  · have e : h.tab j = h.fresh := e
    exact e ▸ k.tab j hj
  · show h.live.length + 1 = n + 1 + (h.rehashes + 1)
    rw [k.count]; omega

theorem HeapOK.rehashIf {n : Nat} {h : Heap} (k : HeapOK n h) (b : Bool) (i : Nat) :
    HeapOK n (if b then h.rehashTable i else h) := by
  split
  · exact k.rehashTable
  · exact k

theorem HeapOK.rehashCacheIf {n : Nat} {h : Heap} (k : HeapOK n h) (b : Bool) :
    HeapOK n (if b then h.rehashCache else h) := by
  split
  · exact k.rehashCache
  · exact k

theorem HeapOK.rehashAll {n : Nat} (g : Nat → Bool) (l : List Nat) {h : Heap} (k : HeapOK n h) :
    HeapOK n (l.foldl (fun h i => if g i then h.rehashTable i else h) h) := by
  induction l generalizing h with
  | nil => exact k
  | cons i l ih => exact ih (k.rehashIf (g i) i)

theorem HeapOK.init (n : Nat) : HeapOK n { live := List.range (n + 1), tab := id, cache := n, rehashes := 0 } :=
  ⟨List.nodup_range, fun i hi => List.mem_range.2 (by simp only [id]; omega), List.mem_range.2 (Nat.lt_succ_self n),
    fun _ _ _ _ e => e, fun i hi => by simp only [id]; omega, by simp⟩

end Teddy
