import Verif.Table
import Mathlib.Data.List.Perm.Basic
import Mathlib.Data.List.Nodup

/-! Helper lemmas about the hash tables. -/

namespace Teddy

theorem gteCapacity_pos (d : Nat) : 0 < gteCapacity d := by
  unfold gteCapacity
  split
  · rename_i c h
    have := List.mem_of_find?_eq_some h
    simp only [Capacities, List.mem_cons, List.not_mem_nil, or_false] at this
    omega
  · decide

theorem flatMap_upd_notin {f : Nat → List Ptr} {b : Nat} {g : List Ptr} {L : List Nat}
    (hb : b ∉ L) : L.flatMap (upd f b g) = L.flatMap f := by
  induction L with
  | nil => rfl
  | cons a L ih =>
      simp only [List.mem_cons, not_or] at hb
      simp only [List.flatMap_cons]
      rw [ih hb.2, upd_other f g (Ne.symm hb.1)]

theorem flatMap_upd_perm {f : Nat → List Ptr} {b p : Nat} {g : List Ptr} {L : List Nat}
    (hL : L.Nodup) (hb : b ∈ L) (hp : (f b).Perm (p :: g)) :
    (L.flatMap f).Perm (p :: L.flatMap (upd f b g)) := by
  induction L with
  | nil => simp at hb
  | cons a L ih =>
      simp only [List.nodup_cons] at hL
      simp only [List.flatMap_cons]
      by_cases h : a = b
      · subst h
        rw [flatMap_upd_notin hL.1, upd_same]
        exact hp.append_right _
      · have hb' : b ∈ L := by simpa [Ne.symm h] using hb
        rw [upd_other f g h]
        refine ((ih hL.2 hb').append_left _).trans ?_
        exact List.perm_middle

namespace Table

/-- Bucket placement: every chain only holds nodes that hash to it, once each. -/
structure WFb (t : Table) (h : Ptr → Nat) : Prop where
  cap_pos : 0 < t.cap
  placed : ∀ b, b < t.cap → ∀ p ∈ t.buckets b, h p % t.cap = b
  nodup : ∀ b, b < t.cap → (t.buckets b).Nodup

structure WF (t : Table) (h : Ptr → Nat) : Prop extends WFb t h where
  size_eq : t.size = t.nodes.length

theorem mem_nodes_iff {t : Table} {p : Ptr} :
    p ∈ t.nodes ↔ ∃ b, b < t.cap ∧ p ∈ t.buckets b := by
  simp [nodes, List.mem_flatMap]

theorem WFb.mem_nodes {t : Table} {h : Ptr → Nat} (w : WFb t h) {p : Ptr} :
    p ∈ t.nodes ↔ p ∈ t.buckets (h p % t.cap) := by
  rw [mem_nodes_iff]
  constructor
  · rintro ⟨b, hb, hp⟩
    rwa [w.placed b hb p hp]
  · intro hp
    exact ⟨_, Nat.mod_lt _ w.cap_pos, hp⟩

theorem WFb.nodup_nodes {t : Table} {h : Ptr → Nat} (w : WFb t h) : t.nodes.Nodup := by
  unfold nodes
  rw [List.nodup_flatMap]
  refine ⟨fun b hb => w.nodup b (by simpa using hb), ?_⟩
  refine List.Pairwise.imp_of_mem ?_ (List.nodup_range (n := t.cap))
  intro a b ha hb hab p hpa hpb
  exact hab ((w.placed a (by simpa using ha) p hpa).symm.trans
    (w.placed b (by simpa using hb) p hpb))

theorem WFb.congr {t : Table} {h h' : Ptr → Nat} (w : WFb t h)
    (e : ∀ p ∈ t.nodes, h' p = h p) : WFb t h' where
  cap_pos := w.cap_pos
  placed b hb p hp := by rw [e p (mem_nodes_iff.2 ⟨b, hb, hp⟩)]; exact w.placed b hb p hp
  nodup := w.nodup

theorem WF.congr {t : Table} {h h' : Ptr → Nat} (w : WF t h)
    (e : ∀ p ∈ t.nodes, h' p = h p) : WF t h' :=
  { w.toWFb.congr e with size_eq := w.size_eq }

theorem insertImpl_nodes {t : Table} (hc : 0 < t.cap) (p hash : Nat) :
    (t.insertImpl p hash).nodes.Perm (p :: t.nodes) := by
  unfold nodes insertImpl
  have hb : hash % t.cap ∈ List.range t.cap := List.mem_range.2 (Nat.mod_lt _ hc)
  have := flatMap_upd_perm (f := upd t.buckets (hash % t.cap) (p :: t.buckets (hash % t.cap)))
    (b := hash % t.cap) (p := p) (g := t.buckets (hash % t.cap)) List.nodup_range hb
    (by simp)
  refine this.trans ?_
  refine List.Perm.of_eq ?_
  congr 2
  funext b
  simp only [upd_apply]
  split <;> simp_all

theorem WFb.insertImpl {t : Table} {h : Ptr → Nat} (w : WFb t h) {p : Ptr}
    (hp : p ∉ t.nodes) : WFb (t.insertImpl p (h p)) h where
  cap_pos := w.cap_pos
  placed b hb q hq := by
    simp only [Table.insertImpl, upd_apply] at hq hb ⊢
    split at hq
    · rename_i e
      simp only [List.mem_cons] at hq
      rcases hq with rfl | hq
      · exact e.symm
      · subst e; exact w.placed _ hb q hq
    · exact w.placed b hb q hq
  nodup b hb := by
    simp only [Table.insertImpl, upd_apply] at hb ⊢
    split
    · rename_i e
      subst e
      refine List.nodup_cons.2 ⟨fun hq => hp (w.mem_nodes.2 hq), w.nodup _ hb⟩
    · exact w.nodup b hb

theorem WF.insert {t : Table} {h : Ptr → Nat} (w : WF t h) {p : Ptr}
    (hp : p ∉ t.nodes) : WF (t.insert p (h p)) h := by
  have wb := w.toWFb.insertImpl hp
  refine { cap_pos := wb.cap_pos, placed := wb.placed, nodup := wb.nodup, size_eq := ?_ }
  have : (t.insert p (h p)).nodes = (t.insertImpl p (h p)).nodes := rfl
  rw [this, (insertImpl_nodes w.cap_pos p (h p)).length_eq]
  simp [Table.insert, w.size_eq]

theorem insert_nodes {t : Table} (hc : 0 < t.cap) (p hash : Nat) :
    (t.insert p hash).nodes.Perm (p :: t.nodes) := insertImpl_nodes hc p hash

theorem mem_insert {t : Table} (hc : 0 < t.cap) (p hash q : Nat) :
    q ∈ (t.insert p hash).nodes ↔ q = p ∨ q ∈ t.nodes := by
  rw [(insert_nodes hc p hash).mem_iff, List.mem_cons]

theorem eraseAt_ok {t : Table} {h : Ptr → Nat} (w : WF t h) {p b : Ptr} (hb : b < t.cap)
    (hp : p ∈ t.buckets b) :
    ∃ t', t.eraseAt b p = .ok t' ∧ WF t' h ∧ t.nodes.Perm (p :: t'.nodes) ∧ t'.cap = t.cap ∧
      (∀ d, d ≠ b → t'.buckets d = t.buckets d) ∧ t'.buckets b = (t.buckets b).erase p := by
  refine ⟨{ t with size := t.size - 1, buckets := upd t.buckets b ((t.buckets b).erase p) },
    by simp [eraseAt, remove, hp], ?_, ?_, rfl, ?_, ?_⟩
  · have perm : t.nodes.Perm (p :: (({ t with size := t.size - 1, buckets := upd t.buckets b ((t.buckets b).erase p) } : Table)).nodes) :=
      flatMap_upd_perm List.nodup_range (List.mem_range.2 hb) (List.perm_cons_erase hp)
    refine { cap_pos := w.cap_pos, placed := ?_, nodup := ?_, size_eq := ?_ }
    · intro d hd q hq
      simp only [upd_apply] at hq
      split at hq
      · rename_i e; subst e; exact w.placed _ hd q (List.mem_of_mem_erase hq)
      · exact w.placed d hd q hq
    · intro d hd
      simp only [upd_apply]
      split
      · exact (w.nodup _ hb).erase p
      · exact w.nodup d hd
    · have := perm.length_eq
      simp only [List.length_cons] at this
      have e := w.size_eq
      rw [this] at e
      exact (by rw [e] : t.size - 1 = _)
  · exact flatMap_upd_perm List.nodup_range (List.mem_range.2 hb) (List.perm_cons_erase hp)
  · intro d hd; exact upd_other _ _ hd
  · simp

theorem remove_ok {t : Table} {h : Ptr → Nat} (w : WF t h) {p b : Ptr} (hb : b < t.cap)
    (hp : p ∈ t.buckets b) :
    ∃ t', WF t' h ∧ t.nodes.Perm (p :: t'.nodes) ∧ t'.cap = t.cap ∧
      (∀ d, d ≠ b → t'.buckets d = t.buckets d) ∧ t'.buckets b = (t.buckets b).erase p ∧ t' = t.remove b p := by
  obtain ⟨t', e, h1, h2, h3, h4, h5⟩ := eraseAt_ok w hb hp
  rw [eraseAt, if_pos hp] at e
  cases e
  exact ⟨_, h1, h2, h3, h4, h5, rfl⟩

theorem insertAll_spec {h : Ptr → Nat} (l : List Ptr) (t : Table) (w : WFb t h)
    (hn : l.Nodup) (hd : ∀ p ∈ l, p ∉ t.nodes) :
    WFb (insertAll h l t) h ∧ (insertAll h l t).nodes.Perm (l ++ t.nodes) ∧
      (insertAll h l t).size = t.size ∧ (insertAll h l t).cap = t.cap := by
  induction l generalizing t with
  | nil => exact ⟨w, by simp [insertAll], rfl, rfl⟩
  | cons p l ih =>
      simp only [List.nodup_cons] at hn
      have hp : p ∉ t.nodes := hd p (by simp)
      have w' := w.insertImpl hp
      have perm := insertImpl_nodes w.cap_pos p (h p)
      obtain ⟨a, b, c, d⟩ := ih (t.insertImpl p (h p)) w' hn.2 (by
        intro q hq hq'
        rw [perm.mem_iff, List.mem_cons] at hq'
        rcases hq' with rfl | hq'
        · exact hn.1 hq
        · exact hd q (by simp [hq]) hq')
      refine ⟨a, ?_, c, d⟩
      refine b.trans ?_
      refine (perm.append_left l).trans ?_
      exact List.perm_middle

theorem nodes_empty (sz cap : Nat) :
    ({ size := sz, cap := cap, buckets := fun _ => [] } : Table).nodes = [] := by
  simp [nodes]

theorem rehash_spec {h : Ptr → Nat} {t : Table} (w : WFb t h) {newCap : Nat} (hc : 0 < newCap) :
    WFb (t.rehash h newCap) h ∧ (t.rehash h newCap).nodes.Perm t.nodes ∧
      (t.rehash h newCap).size = t.size ∧ (t.rehash h newCap).cap = newCap := by
  have := insertAll_spec (h := h) t.nodes
    { size := t.size, cap := newCap, buckets := fun _ => [] }
    { cap_pos := hc, placed := by simp, nodup := by simp } w.nodup_nodes (by simp [nodes_empty])
  obtain ⟨a, b, c, d⟩ := this
  exact ⟨a, b.trans (by simp [nodes_empty]), c, d⟩

theorem adjustCapacity_spec {h : Ptr → Nat} {t : Table} (w : WFb t h) :
    WFb (t.adjustCapacity h) h ∧ (t.adjustCapacity h).nodes.Perm t.nodes ∧
      (t.adjustCapacity h).size = t.size := by
  unfold adjustCapacity
  dsimp only
  split
  · obtain ⟨a, b, c, _⟩ := rehash_spec w (gteCapacity_pos (t.size * 4 / 3))
    exact ⟨a, b, c⟩
  · exact ⟨w, List.Perm.refl _, rfl⟩

theorem WF.adjustCapacity {h : Ptr → Nat} {t : Table} (w : WF t h) :
    WF (t.adjustCapacity h) h := by
  obtain ⟨a, b, c⟩ := adjustCapacity_spec w.toWFb
  exact { a with size_eq := by rw [c, w.size_eq, b.length_eq] }

theorem merge_spec {h : Ptr → Nat} {t o : Table} (w : WF t h)
    (hn : o.nodes.Nodup) (hs : o.size = o.nodes.length) (hd : ∀ p ∈ o.nodes, p ∉ t.nodes) :
    WF (t.merge o h) h ∧ (t.merge o h).nodes.Perm (o.nodes ++ t.nodes) := by
  have w' : WFb ({ t with size := t.size + o.size } : Table) h := ⟨w.cap_pos, w.placed, w.nodup⟩
  obtain ⟨a, b, c⟩ := adjustCapacity_spec w'
  have b' : (({ t with size := t.size + o.size } : Table).adjustCapacity h).nodes.Perm t.nodes := b
  obtain ⟨a2, b2, c2, _⟩ := insertAll_spec o.nodes _ a hn (by
    intro p hp hp'
    exact hd p hp (b'.mem_iff.1 hp'))
  have e : t.merge o h
      = insertAll h o.nodes (({ t with size := t.size + o.size } : Table).adjustCapacity h) := rfl
  have perm : (t.merge o h).nodes.Perm (o.nodes ++ t.nodes) := by
    rw [e]; exact b2.trans (b'.append_left _)
  refine ⟨{ a2 with size_eq := ?_ }, perm⟩
  have hl := perm.length_eq
  rw [List.length_append] at hl
  rw [e] at hl ⊢
  rw [c2, c, hl]
  simp [w.size_eq, hs, Nat.add_comm]

theorem WF.clear {t : Table} {h h' : Ptr → Nat} (w : WF t h) : WF t.clear h' where
  cap_pos := w.cap_pos
  placed := by simp [Table.clear]
  nodup := by simp [Table.clear]
  size_eq := by simp [Table.clear, nodes]

@[simp] theorem clear_nodes (t : Table) : t.clear.nodes = [] := by
  simp [Table.clear, nodes]

theorem make_WF (d : Nat) (h : Ptr → Nat) : WF (Table.make d) h where
  cap_pos := gteCapacity_pos d
  placed := by simp [Table.make]
  nodup := by simp [Table.make]
  size_eq := by simp [Table.make, nodes]

@[simp] theorem make_nodes (d : Nat) : (Table.make d).nodes = [] := by
  simp [Table.make, nodes]

theorem find_some {t : Table} (hc : 0 < t.cap) {sonsOf : Ptr → List Ptr}
    {hash : Nat} {sons : List Ptr} {p : Ptr} (e : t.find sonsOf hash sons = some p) :
    p ∈ t.nodes ∧ sonsOf p = sons := by
  unfold find at e
  have h1 := List.mem_of_find?_eq_some e
  have h2 := List.find?_some e
  exact ⟨mem_nodes_iff.2 ⟨_, Nat.mod_lt _ hc, h1⟩, by simpa using h2⟩

theorem find_none {t : Table} {f : List Ptr → Nat} {sonsOf : Ptr → List Ptr}
    (w : WFb t (fun p => f (sonsOf p))) {sons : List Ptr}
    (e : t.find sonsOf (f sons) sons = none) : ∀ p ∈ t.nodes, sonsOf p ≠ sons := by
  intro p hp hs
  unfold find at e
  rw [List.find?_eq_none] at e
  have := w.mem_nodes.1 hp
  simp only [hs] at this
  exact e p this (by simp [hs])

end Table

namespace Cache

theorem find_some {ca : Cache} {hash : Nat → Ptr → Ptr → Nat} {op l r p : Nat}
    (e : ca.find hash op l r = some p) : ∃ i, ca.slots i = some ⟨op, l, r, p⟩ := by
  unfold find at e
  split at e
  · rename_i en he
    split at e
    · rename_i h
      obtain ⟨rfl, rfl, rfl⟩ := h
      cases e
      exact ⟨_, he⟩
    · cases e
  · cases e

/-- Every entry of the cache satisfies `P`. -/
def All (ca : Cache) (P : CacheEntry → Prop) : Prop := ∀ i e, ca.slots i = some e → P e

theorem All.put {ca : Cache} {P : CacheEntry → Prop} (h : ca.All P)
    (hash : Nat → Ptr → Ptr → Nat) {e : CacheEntry} (he : P e) : (ca.put hash e).All P := by
  intro i e' hi
  simp only [Cache.put, upd_apply] at hi
  split at hi
  · cases hi; exact he
  · exact h i e' hi

theorem All.removeUnused {ca : Cache} {P : CacheEntry → Prop} (h : ca.All P)
    (used : Ptr → Bool) : (ca.removeUnused used).All P := by
  intro i e hi
  simp only [Cache.removeUnused] at hi
  split at hi
  · rename_i e' he'
    split at hi
    · cases hi; exact h i e he'
    · cases hi
  · cases hi

theorem removeUnused_used {ca : Cache} {used : Ptr → Bool}
    {i : Nat} {e : CacheEntry}
    (h : (ca.removeUnused used).slots i = some e) :
    used e.lhs = true ∧ used e.rhs = true ∧ used e.res = true := by
  simp only [Cache.removeUnused] at h
  split at h
  · split at h
    · rename_i hu
      cases h
      simpa [Bool.and_eq_true, and_assoc] using hu
    · cases h
  · cases h

theorem All.putAll {P : CacheEntry → Prop} (hash : Nat → Ptr → Ptr → Nat)
    {old : Nat → Option CacheEntry} (ho : ∀ i e, old i = some e → P e) (is : List Nat)
    (ca : Cache) (h : ca.All P) : (Cache.putAll hash old is ca).All P := by
  induction is generalizing ca with
  | nil => exact h
  | cons i is ih =>
      simp only [Cache.putAll]
      split
      · rename_i e he
        exact ih _ (h.put hash (ho i e he))
      · exact ih _ h

theorem All.clear (ca : Cache) (P : CacheEntry → Prop) : ca.clear.All P := by
  intro i e hi
  simp [Cache.clear] at hi

theorem All.rehash {ca : Cache} {P : CacheEntry → Prop} (h : ca.All P)
    (hash : Nat → Ptr → Ptr → Nat) (nc : Nat) : (ca.rehash hash nc).All P :=
  All.putAll hash h _ _ (by intro i e hi; simp at hi)

theorem All.growCapacity {ca : Cache} {P : CacheEntry → Prop} (h : ca.All P)
    (hash : Nat → Ptr → Ptr → Nat) (n : Nat) : (ca.growCapacity hash n).All P := by
  unfold Cache.growCapacity
  dsimp only
  split
  · exact h.rehash hash _
  · exact h

end Cache

end Teddy
