import Verif.Links
import Verif.Proofs.TableLemmas

/-! Chains of pointers and the lists they stand for. -/

namespace Teddy

/-- Following `next` from `h` meets exactly the nodes of the list and ends in null. -/
def Seg (next : Ptr → Option Ptr) : Option Ptr → List Ptr → Prop
  | h, [] => h = none
  | h, p :: l => h = some p ∧ Seg next (next p) l

theorem Seg.head {next : Ptr → Option Ptr} {h : Option Ptr} {l : List Ptr} (s : Seg next h l) : h = l.head? := by
  cases l with
  | nil => exact s
  | cons p l => exact s.1

theorem Seg.congr {next next' : Ptr → Option Ptr} {h : Option Ptr} {l : List Ptr} (s : Seg next h l)
    (e : ∀ p ∈ l, next' p = next p) : Seg next' h l := by
  induction l generalizing h with
  | nil => exact s
  | cons p l ih =>
      refine ⟨s.1, ?_⟩
      rw [e p (by simp)]
      exact ih s.2 fun q hq => e q (by simp [hq])

theorem Seg.suffix {next : Ptr → Option Ptr} {h : Option Ptr} {a l : List Ptr} (s : Seg next h (a ++ l)) :
    Seg next l.head? l := by
  induction a generalizing h with
  | nil =>
      have := s.head
      rw [List.nil_append] at s this
      rw [← this]; exact s
  | cons p a ih => exact ih s.2

theorem Seg.upd {next : Ptr → Option Ptr} {h : Option Ptr} {l : List Ptr} (s : Seg next h l) {p : Ptr}
    {v : Option Ptr} (hp : p ∉ l) : Seg (upd next p v) h l :=
  s.congr fun _ hq => upd_other _ _ (fun e => hp (e ▸ hq))

theorem Table.insertAll_perm {h : Ptr → Nat} (l : List Ptr) (t : Table) (hc : 0 < t.cap) :
    (Table.insertAll h l t).nodes.Perm (l ++ t.nodes) := by
  induction l generalizing t with
  | nil => exact List.Perm.refl _
  | cons p l ih =>
      rw [Table.insertAll]
      refine (ih (t.insertImpl p (h p)) hc).trans ?_
      refine ((Table.insertImpl_nodes hc p (h p)).append_left l).trans ?_
      exact List.perm_middle

namespace Links

theorem findWalk_spec {next : Ptr → Option Ptr} {eq : Ptr → Bool} (l : List Ptr) {h : Option Ptr} {fuel : Nat}
    (s : Seg next h l) (hf : l.length < fuel) : findWalk next eq fuel h = .ok (l.find? eq) := by
  induction l generalizing h fuel with
  | nil =>
      cases fuel with
      | zero => simp at hf
      | succ f => rw [show h = none from s]; rfl
  | cons p l ih =>
      cases fuel with
      | zero => simp at hf
      | succ f =>
          rw [s.1, findWalk, List.find?_cons]
          cases eq p with
          | true => rfl
          | false => exact ih s.2 (by simpa using hf)

theorem follow_spec {next : Ptr → Option Ptr} (l : List Ptr) {h : Option Ptr} {fuel : Nat}
    (s : Seg next h l) (hf : l.length < fuel) : follow next fuel h = .ok l := by
  induction l generalizing h fuel with
  | nil =>
      cases fuel with
      | zero => simp at hf
      | succ f => rw [show h = none from s]; rfl
  | cons p l ih =>
      cases fuel with
      | zero => simp at hf
      | succ f => rw [s.1, follow, ih s.2 (by simpa using hf)]

theorem followAll_spec {next : Ptr → Option Ptr} {fuel : Nat} {heads : Nat → Option Ptr} {C : Nat → List Ptr}
    (bs : List Nat) (s : ∀ b ∈ bs, Seg next (heads b) (C b)) (hf : ∀ b ∈ bs, (C b).length < fuel) :
    followAll next fuel heads bs = .ok (bs.flatMap C) := by
  induction bs with
  | nil => rfl
  | cons b bs ih =>
      rw [followAll, follow_spec _ (s b (by simp)) (hf b (by simp)),
        ih (fun d hd => s d (by simp [hd])) (fun d hd => hf d (by simp [hd]))]
      rfl

/-- A walk finds nothing else than the list its pointers stand for. -/
theorem follow_sound {next : Ptr → Option Ptr} {fuel : Nat} {h : Option Ptr} {l : List Ptr}
    (e : follow next fuel h = .ok l) : Seg next h l := by
  induction fuel generalizing h l with
  | zero => cases e
  | succ f ih =>
      cases h with
      | none => cases e; rfl
      | some p =>
          rw [follow] at e
          cases e1 : follow next f (next p) with
          | error x => rw [e1] at e; cases e
          | ok l' =>
              rw [e1] at e
              cases e
              exact ⟨rfl, ih e1⟩

/-- Taking a node out of a chain after its first node. -/
theorem eraseWalk_spec {p : Ptr} (l : List Ptr) {q : Ptr} {fuel : Nat} {L : Links}
    (s : Seg L.next (some q) (q :: l)) (hn : (q :: l).Nodup) (hp : p ∈ l) (hf : l.length < fuel) :
    ∃ L', eraseWalk p fuel (some q) L = .ok L' ∧ Seg L'.next (some q) (q :: l.erase p) ∧ L'.next p = none ∧
      (∀ r, r ∉ q :: l → L'.next r = L.next r) ∧ L'.head = L.head ∧ L'.saved = L.saved := by
  induction l generalizing q fuel with
  | nil => simp at hp
  | cons a l ih =>
      cases fuel with
      | zero => simp at hf
      | succ f =>
          have ha : L.next q = some a := s.2.1
          obtain ⟨hqn, hn'⟩ := List.nodup_cons.1 hn
          obtain ⟨han, hn''⟩ := List.nodup_cons.1 hn'
          have hqa : q ≠ a := fun e => hqn (by simp [e])
          have hql : q ∉ l := fun e => hqn (by simp [e])
          rw [eraseWalk]
          by_cases e : a = p
          · subst e
            rw [if_pos ha]
            refine ⟨_, rfl, ⟨rfl, ?_⟩, ?_, ?_, rfl, rfl⟩
            · simp only [setNext, List.erase_cons_head]
              rw [upd_other _ _ hqa, upd_same]
              exact (s.2.2.upd hql).upd han
            · simp [setNext]
            · intro r hr
              simp only [List.mem_cons, not_or] at hr
              simp only [setNext]
              rw [upd_other _ _ hr.2.1, upd_other _ _ hr.1]
          · have hp' : p ∈ l := by
              rcases List.mem_cons.1 hp with h | h
              · exact absurd h.symm e
              · exact h
            rw [if_neg (by rw [ha]; simpa using e), ha]
            obtain ⟨L', e1, s1, n1, k1, h1, v1⟩ := ih (q := a) (by rw [← ha]; exact s.2) hn' hp' (by simpa using hf)
            refine ⟨L', e1, ⟨rfl, ?_⟩, n1, ?_, h1, v1⟩
            · rw [k1 q hqn, ha, List.erase_cons_tail (by simpa using e)]
              exact s1
            · intro r hr
              exact k1 r fun h => hr (List.mem_cons_of_mem _ h)

/-- Taking a node out of a chain: only the pointers of its nodes change. -/
theorem erase_spec {i b : Nat} {p : Ptr} {l : List Ptr} {fuel : Nat} {L : Links}
    (s : Seg L.next (L.head i b) l) (hn : l.Nodup) (hp : p ∈ l) (hf : l.length ≤ fuel) :
    ∃ L', L.erase fuel i b p = .ok L' ∧ Seg L'.next (L'.head i b) (l.erase p) ∧ L'.next p = none ∧
      (∀ r, r ∉ l → L'.next r = L.next r) ∧ (∀ j d, (j, d) ≠ (i, b) → L'.head j d = L.head j d) ∧
      L'.saved = L.saved := by
  cases l with
  | nil => simp at hp
  | cons q l =>
      obtain ⟨hql, hn'⟩ := List.nodup_cons.1 hn
      rw [erase, s.1]
      by_cases e : q = p
      · subst e
        rw [if_pos rfl]
        refine ⟨_, rfl, ?_, by simp [setNext], ?_, ?_, rfl⟩
        · simp only [setNext, setHead, upd_same, List.erase_cons_head]
          exact s.2.upd hql
        · intro r hr
          simp only [List.mem_cons, not_or] at hr
          simp only [setNext, setHead]
          exact upd_other _ _ hr.1
        · intro j d hjd
          simp only [setNext, setHead, upd_apply]
          split
          · rename_i h1
            rw [h1, upd_other]
            intro h2
            exact hjd (by rw [h1, h2])
          · rfl
      · have hp' : p ∈ l := by
          rcases List.mem_cons.1 hp with h | h
          · exact absurd h.symm e
          · exact h
        rw [if_neg (by simpa using e)]
        have s' : Seg L.next (some q) (q :: l) := by rw [← s.1]; exact s
        obtain ⟨L', e1, s1, n1, k1, h1, v1⟩ := eraseWalk_spec l s' hn hp' hf
        refine ⟨L', e1, ?_, n1, k1, fun j d _ => by rw [h1], v1⟩
        rw [h1, s.1, List.erase_cons_tail (by simpa using e)]
        exact s1

theorem insert_next {L : Links} {i b : Nat} {p q : Ptr} (hq : q ≠ p) : (L.insert i b p).next q = L.next q := by
  unfold insert
  split
  · simp only [setNext, setHead]; exact upd_other _ _ hq
  · rfl

theorem insert_head {L : Links} {i b : Nat} {p : Ptr} : (L.insert i b p).head = upd L.head i (upd (L.head i) b (some p)) := by
  unfold insert
  split <;> rfl

theorem insert_saved {L : Links} {i b : Nat} {p : Ptr} : (L.insert i b p).saved = L.saved := by
  unfold insert
  split <;> rfl

theorem insert_next_self {L : Links} {i b : Nat} {p : Ptr} (hp : L.next p = none) :
    (L.insert i b p).next p = L.head i b := by
  unfold insert
  split
  · rename_i q e; simp [setNext, setHead, e]
  · rename_i e; simp [setHead, e, hp]

/-- The chains of table `i` are those of `t`. -/
def TabSeg (L : Links) (i : Nat) (t : Table) : Prop :=
  ∀ b, b < t.cap → Seg L.next (L.head i b) (t.buckets b)

theorem insert_spec {L : Links} {i : Nat} {t : Table} {p : Ptr} {hash : Nat} (s : L.TabSeg i t)
    (hp : L.next p = none) (hn : p ∉ t.nodes) :
    (L.insert i (hash % t.cap) p).TabSeg i (t.insertImpl p hash) := by
  intro b hb
  have hb' : b < t.cap := hb
  have hpb : p ∉ t.buckets b := fun h => hn (Table.mem_nodes_iff.2 ⟨b, hb', h⟩)
  have hs : Seg (L.insert i (hash % t.cap) p).next (L.head i b) (t.buckets b) :=
    (s b hb').congr fun q hq => insert_next fun e => hpb (e ▸ hq)
  rw [insert_head, upd_same]
  simp only [Table.insertImpl, upd_apply]
  split
  · rename_i e
    subst e
    refine ⟨rfl, ?_⟩
    rw [insert_next_self hp]
    exact hs
  · exact hs

/-- The loop of `rehash` and `merge` over one chain. -/
theorem relinkChain_spec {h : Ptr → Nat} {i : Nat} (l : List Ptr) {cur : Option Ptr} {fuel : Nat} {L : Links}
    {t : Table} (hc : 0 < t.cap) (s : Seg L.next cur l) (hn : l.Nodup) (ht : L.TabSeg i t)
    (hd : ∀ p ∈ l, p ∉ t.nodes) (hf : l.length < fuel) :
    ∃ L', relinkChain h i t.cap fuel cur L = .ok L' ∧ L'.TabSeg i (Table.insertAll h l t) ∧
      (∀ q, q ∉ l → L'.next q = L.next q) ∧ (∀ j, j ≠ i → L'.head j = L.head j) ∧ L'.saved = L.saved := by
  induction l generalizing cur fuel L t with
  | nil =>
      cases fuel with
      | zero => simp at hf
      | succ f =>
          rw [show cur = none from s]
          exact ⟨L, rfl, ht, fun _ _ => rfl, fun _ _ => rfl, rfl⟩
  | cons p l ih =>
      cases fuel with
      | zero => simp at hf
      | succ f =>
          obtain ⟨hpl, hn'⟩ := List.nodup_cons.1 hn
          have hpt := hd p (by simp)
          have ht1 : (L.setNext p none).TabSeg i t := fun b hb =>
            (ht b hb).upd fun hm => hpt (Table.mem_nodes_iff.2 ⟨b, hb, hm⟩)
          have ht2 : ((L.setNext p none).insert i (h p % t.cap) p).TabSeg i (t.insertImpl p (h p)) :=
            insert_spec ht1 (by simp [setNext]) hpt
          have hnx : ∀ q, q ≠ p → ((L.setNext p none).insert i (h p % t.cap) p).next q = L.next q := by
            intro q hq
            rw [insert_next hq]
            exact upd_other _ _ hq
          rw [s.1, relinkChain]
          obtain ⟨L', e1, s1, n1, h1, v1⟩ := ih (t := t.insertImpl p (h p))
            (L := (L.setNext p none).insert i (h p % t.cap) p) (cur := L.next p) (fuel := f) hc
            (s.2.congr fun q hq => hnx q fun e => hpl (e ▸ hq)) hn' ht2
            (by
              intro q hq hm
              rw [(Table.insertImpl_nodes hc p (h p)).mem_iff, List.mem_cons] at hm
              rcases hm with e | hm
              · exact hpl (e ▸ hq)
              · exact hd q (by simp [hq]) hm)
            (by simpa using hf)
          refine ⟨L', e1, s1, ?_, ?_, ?_⟩
          · intro q hq
            simp only [List.mem_cons, not_or] at hq
            rw [n1 q hq.2, hnx q hq.1]
          · intro j hj
            rw [h1 j hj, insert_head, upd_other _ _ hj]
            rfl
          · rw [v1, insert_saved]; rfl

theorem length_le_flatMap {C : Nat → List Ptr} {bs : List Nat} {b : Nat} (hb : b ∈ bs) :
    (C b).length ≤ (bs.flatMap C).length := by
  induction bs with
  | nil => simp at hb
  | cons a bs ih =>
      rw [List.flatMap_cons, List.length_append]
      rcases List.mem_cons.1 hb with e | h
      · rw [e]; exact Nat.le_add_right _ _
      · exact Nat.le_trans (ih h) (Nat.le_add_left _ _)

theorem insertAll_cap {h : Ptr → Nat} (l : List Ptr) (t : Table) : (Table.insertAll h l t).cap = t.cap := by
  induction l generalizing t with
  | nil => rfl
  | cons p l ih => rw [Table.insertAll, ih]; rfl

theorem insertAll_mem {h : Ptr → Nat} (l : List Ptr) (t : Table) (hc : 0 < t.cap) {q : Ptr} :
    q ∈ (Table.insertAll h l t).nodes ↔ q ∈ l ∨ q ∈ t.nodes := by
  induction l generalizing t with
  | nil => simp [Table.insertAll]
  | cons p l ih =>
      rw [Table.insertAll, ih (t.insertImpl p (h p)) hc, (Table.insertImpl_nodes hc p (h p)).mem_iff, List.mem_cons, List.mem_cons]
      constructor
      · rintro (h | h | h)
        · exact Or.inl (Or.inr h)
        · exact Or.inl (Or.inl h)
        · exact Or.inr h
      · rintro ((h | h) | h)
        · exact Or.inr (Or.inl h)
        · exact Or.inl h
        · exact Or.inr (Or.inr h)

theorem insertAll_append {h : Ptr → Nat} (l l' : List Ptr) (t : Table) :
    Table.insertAll h (l ++ l') t = Table.insertAll h l' (Table.insertAll h l t) := by
  induction l generalizing t with
  | nil => rfl
  | cons p l ih => exact ih _

/-- The same over several chains. -/
theorem relinkAll_spec {h : Ptr → Nat} {i fuel : Nat} {heads : Nat → Option Ptr} {C : Nat → List Ptr}
    (bs : List Nat) {L : Links} {t : Table} (hc : 0 < t.cap) (s : ∀ b ∈ bs, Seg L.next (heads b) (C b))
    (hn : (bs.flatMap C).Nodup) (ht : L.TabSeg i t) (hd : ∀ p ∈ bs.flatMap C, p ∉ t.nodes)
    (hf : ∀ b ∈ bs, (C b).length < fuel) :
    ∃ L', relinkAll h i t.cap fuel heads bs L = .ok L' ∧ L'.TabSeg i (Table.insertAll h (bs.flatMap C) t) ∧
      (∀ q, q ∉ bs.flatMap C → L'.next q = L.next q) ∧ (∀ j, j ≠ i → L'.head j = L.head j) ∧
      L'.saved = L.saved := by
  induction bs generalizing L t with
  | nil => exact ⟨L, rfl, ht, fun _ _ => rfl, fun _ _ => rfl, rfl⟩
  | cons b bs ih =>
      rw [List.flatMap_cons] at hn hd ⊢
      obtain ⟨hn1, hn2, hn3⟩ := List.nodup_append.1 hn
      obtain ⟨L1, e1, s1, n1, h1, v1⟩ := relinkChain_spec (h := h) (i := i) (C b) (cur := heads b) (fuel := fuel)
        hc (s b (by simp)) hn1 ht (fun p hp => hd p (by simp [hp])) (hf b (by simp))
      have hcap := insertAll_cap (h := h) (C b) t
      obtain ⟨L2, e2, s2, n2, h2, v2⟩ := ih (L := L1) (t := Table.insertAll h (C b) t) (by rw [hcap]; exact hc)
        (fun d hd' => (s d (by simp [hd'])).congr fun q hq => n1 q fun hq' =>
          hn3 q hq' q (List.mem_flatMap.2 ⟨d, hd', hq⟩) rfl) hn2 s1
        (by
          intro p hp hm
          rw [insertAll_mem _ _ hc] at hm
          rcases hm with hm | hm
          · exact hn3 p hm p hp rfl
          · exact hd p (List.mem_append_right _ hp) hm)
        (fun d hd' => hf d (by simp [hd']))
      refine ⟨L2, ?_, ?_, ?_, fun j hj => (h2 j hj).trans (h1 j hj), v2.trans v1⟩
      · rw [relinkAll, e1]
        rw [hcap] at e2
        exact e2
      · rw [insertAll_append]; exact s2
      · intro q hq
        simp only [List.mem_append, not_or] at hq
        rw [n2 q hq.2, n1 q hq.1]

theorem rehash_spec {h : Ptr → Nat} {i fuel newCap : Nat} {L : Links} {t : Table} (hc : 0 < newCap)
    (ht : L.TabSeg i t) (hn : t.nodes.Nodup) (hf : t.nodes.length < fuel) :
    ∃ L', L.rehash h i t.cap newCap fuel = .ok L' ∧ L'.TabSeg i (t.rehash h newCap) ∧
      (∀ q, q ∉ t.nodes → L'.next q = L.next q) ∧ (∀ j, j ≠ i → L'.head j = L.head j) ∧ L'.saved = L.saved := by
  obtain ⟨L', e1, s1, n1, h1, v1⟩ := relinkAll_spec (h := h) (i := i) (fuel := fuel) (heads := L.head i)
    (C := t.buckets) (List.range t.cap) (L := L.clear i) (t := { size := t.size, cap := newCap, buckets := fun _ => [] })
    hc (fun b hb => ht b (List.mem_range.1 hb)) hn (fun b _ => by simp [clear, Seg])
    (by simp [Table.nodes_empty]) (by
      intro b hb
      refine Nat.lt_of_le_of_lt ?_ hf
      exact length_le_flatMap hb)
  refine ⟨L', e1, s1, n1, fun j hj => ?_, v1⟩
  rw [h1 j hj]
  exact upd_other _ _ hj

theorem adjust_spec {h : Ptr → Nat} {i fuel : Nat} {L : Links} {t : Table}
    (ht : L.TabSeg i t) (hn : t.nodes.Nodup) (hf : t.nodes.length < fuel) :
    ∃ L', L.adjust h i t fuel = .ok L' ∧ L'.TabSeg i (t.adjustCapacity h) ∧
      (∀ q, q ∉ t.nodes → L'.next q = L.next q) ∧ (∀ j, j ≠ i → L'.head j = L.head j) ∧ L'.saved = L.saved := by
  unfold adjust Table.adjustCapacity Table.grows
  by_cases hg : gteCapacity (t.size * 4 / 3) > t.cap
  · rw [if_pos (by simpa using hg), if_pos hg]
    exact rehash_spec (gteCapacity_pos _) ht hn hf
  · rw [if_neg (by simpa using hg), if_neg hg]
    exact ⟨L, rfl, ht, fun _ _ => rfl, fun _ _ => rfl, rfl⟩

theorem adjustCapacity_cap_pos {h : Ptr → Nat} {t : Table} (hc : 0 < t.cap) : 0 < (t.adjustCapacity h).cap := by
  unfold Table.adjustCapacity
  dsimp only
  split
  · rw [Table.rehash, insertAll_cap]; exact gteCapacity_pos _
  · exact hc

theorem adjustCapacity_mem {h : Ptr → Nat} {t : Table} {q : Ptr} :
    q ∈ (t.adjustCapacity h).nodes ↔ q ∈ t.nodes := by
  unfold Table.adjustCapacity
  dsimp only
  split
  · rw [Table.rehash, insertAll_mem _ _ (gteCapacity_pos _)]; simp [Table.nodes_empty]
  · rfl

theorem merge_spec {h : Ptr → Nat} {i fuel : Nat} {L : Links} {t o : Table} {heads : Nat → Option Ptr}
    (hc : 0 < t.cap) (ht : L.TabSeg i t) (hn : t.nodes.Nodup) (hf : t.nodes.length < fuel)
    (ho : ∀ b, b < o.cap → Seg L.next (heads b) (o.buckets b)) (hno : o.nodes.Nodup) (hfo : o.nodes.length < fuel)
    (hd : ∀ p ∈ o.nodes, p ∉ t.nodes) :
    ∃ L', L.merge h i t o heads fuel = .ok L' ∧ L'.TabSeg i (t.merge o h) ∧
      (∀ q, q ∉ t.nodes → q ∉ o.nodes → L'.next q = L.next q) ∧ (∀ j, j ≠ i → L'.head j = L.head j) ∧
      L'.saved = L.saved := by
  obtain ⟨L1, e1, s1, n1, h1, v1⟩ := adjust_spec (h := h) (i := i) (fuel := fuel) (L := L)
    (t := { t with size := t.size + o.size }) ht hn hf
  obtain ⟨L2, e2, s2, n2, h2, v2⟩ := relinkAll_spec (h := h) (i := i) (fuel := fuel) (heads := heads)
    (C := o.buckets) (List.range o.cap) (L := L1)
    (t := ({ t with size := t.size + o.size } : Table).adjustCapacity h) (adjustCapacity_cap_pos hc)
    (fun b hb => (ho b (List.mem_range.1 hb)).congr fun q hq => n1 q fun hq' =>
      hd q (Table.mem_nodes_iff.2 ⟨b, List.mem_range.1 hb, hq⟩) hq') hno s1
    (by
      intro p hp hm
      rw [adjustCapacity_mem] at hm
      exact hd p hp hm)
    (by
      intro b hb
      refine Nat.lt_of_le_of_lt ?_ hfo
      exact length_le_flatMap hb)
  refine ⟨L2, ?_, s2, ?_, fun j hj => (h2 j hj).trans (h1 j hj), v2.trans v1⟩
  · rw [merge, e1]; exact e2
  · intro q hq hq'
    rw [n2 q hq', n1 q hq]

end Links

/-- The pointers stand for the chains of the tables and for the list of free nodes; those of the nodes `tmp`, taken out of
their table by `swap_variable_with_next`, have not changed since. -/
structure LinkOK (n : Nat) (T : Nat → Table) (free tmp : List Ptr) (L : Links) : Prop where
  tab : ∀ i, i < n → L.TabSeg i (T i)
  free : Seg L.next free.head? free
  tmp : ∀ p ∈ tmp, L.next p = L.saved p

/-- No node is in two chains. -/
structure Apart (n : Nat) (T : Nat → Table) (free tmp : List Ptr) : Prop where
  nodup : ∀ i, i < n → (T i).nodes.Nodup
  cross : ∀ i, i < n → ∀ j, j < n → i ≠ j → ∀ p ∈ (T i).nodes, p ∉ (T j).nodes
  free : ∀ i, i < n → ∀ p ∈ (T i).nodes, p ∉ free
  tmp : ∀ i, i < n → ∀ p ∈ (T i).nodes, p ∉ tmp

namespace LinkOK

variable {n : Nat} {T : Nat → Table} {free fr tmp tmp' : List Ptr} {L L' : Links}

/-- One table has changed, and the pointers of the nodes in `D`. -/
theorem change {D : Ptr → Prop} {i : Nat} {t : Table} (h : LinkOK n T free tmp L) (hs : L'.TabSeg i t)
    (hn : ∀ q, ¬ D q → L'.next q = L.next q) (hh : ∀ j, j ≠ i → L'.head j = L.head j) (hv : L'.saved = L.saved)
    (d1 : ∀ j, j < n → j ≠ i → ∀ p ∈ (T j).nodes, ¬ D p) (d2 : ∀ p ∈ free, ¬ D p)
    (d3 : ∀ p ∈ tmp', p ∈ tmp ∧ ¬ D p) : LinkOK n (upd T i t) free tmp' L' where
  tab j hj := by
    by_cases e : j = i
    · subst e; rw [upd_same]; exact hs
    · rw [upd_other _ _ e]
      intro b hb
      rw [hh j e]
      exact (h.tab j hj b hb).congr fun q hq => hn q (d1 j hj e q (Table.mem_nodes_iff.2 ⟨b, hb, hq⟩))
  free := h.free.congr fun q hq => hn q (d2 q hq)
  tmp p hp := by
    obtain ⟨h1, h2⟩ := d3 p hp
    rw [hn p h2, hv]
    exact h.tmp p h1

/-- The pointer of a node on no chain has changed. -/
theorem setNext (h : LinkOK n T free tmp L) {p : Ptr} {v : Option Ptr} (hp : ∀ i, i < n → p ∉ (T i).nodes)
    (hf : p ∉ free) (ht : p ∉ tmp) : LinkOK n T free tmp (L.setNext p v) where
  tab i hi b hb := (h.tab i hi b hb).upd fun hm => hp i hi (Table.mem_nodes_iff.2 ⟨b, hb, hm⟩)
  free := h.free.upd hf
  tmp q hq := by
    have : q ≠ p := fun e => ht (e ▸ hq)
    simp only [Links.setNext]
    rw [upd_other _ _ this]
    exact h.tmp q hq

theorem tail {p : Ptr} (h : LinkOK n T (p :: fr) tmp L) : L.next p = fr.head? ∧ LinkOK n T fr tmp L := by
  have h1 := h.free.2
  refine ⟨h1.head, h.tab, ?_, h.tmp⟩
  rw [← h1.head]; exact h1

/-- `node_pool::create`. -/
theorem taken (h : LinkOK n T free tmp L) {p : Ptr} (hp : ∀ i, i < n → p ∉ (T i).nodes)
    (hf : (free = p :: fr ∧ p ∉ fr) ∨ (free = [] ∧ fr = [])) (ht : p ∉ tmp) :
    LinkOK n T fr tmp (L.setNext p none) := by
  rcases hf with ⟨e, hf⟩ | ⟨e, e'⟩
  · subst e
    exact h.tail.2.setNext hp hf ht
  · subst e e'
    exact h.setNext hp (by simp) ht

/-- `node_pool::destroy`. -/
theorem pushed (h : LinkOK n T free tmp L) {p : Ptr} (hp : ∀ i, i < n → p ∉ (T i).nodes) (hf : p ∉ free)
    (ht : p ∉ tmp) : LinkOK n T (p :: free) tmp (L.setNext p free.head?) := by
  have h' := h.setNext (v := free.head?) hp hf ht
  refine ⟨h'.tab, ⟨rfl, ?_⟩, h'.tmp⟩
  simp only [Links.setNext, upd_same]
  exact h'.free

theorem inserted (h : LinkOK n T free tmp L) {p : Ptr} {i hash : Nat} (hi : i < n) (hnone : L.next p = none)
    (hp : ∀ i, i < n → p ∉ (T i).nodes) (hf : p ∉ free) (ht : p ∉ tmp) :
    LinkOK n (upd T i ((T i).insert p hash)) free tmp (L.insert i (hash % (T i).cap) p) := by
  have e : (L.insert i (hash % (T i).cap) p).TabSeg i ((T i).insert p hash) :=
    Links.insert_spec (h.tab i hi) hnone (hp i hi)
  refine h.change (D := fun q => q = p) e (fun q hq => Links.insert_next hq) ?_ Links.insert_saved ?_ ?_ ?_
  · intro j hj
    rw [Links.insert_head, upd_other _ _ hj]
  · intro j hj _ q hq e
    exact hp j hj (e ▸ hq)
  · intro q hq e; exact hf (e ▸ hq)
  · intro q hq; exact ⟨hq, fun e => ht (e ▸ hq)⟩

theorem erased (h : LinkOK n T free tmp L) (A : Apart n T free tmp) {i b fuel : Nat} {p : Ptr} (hi : i < n)
    (hb : b < (T i).cap) (hp : p ∈ (T i).buckets b) (hf : ((T i).buckets b).length ≤ fuel) :
    ∃ L', L.erase fuel i b p = .ok L' ∧ LinkOK n (upd T i ((T i).remove b p)) free tmp L' := by
  have hsub : ∀ q ∈ (T i).buckets b, q ∈ (T i).nodes := fun q hq => Table.mem_nodes_iff.2 ⟨b, hb, hq⟩
  have hno : ∀ d, d < (T i).cap → d ≠ b → ∀ q ∈ (T i).buckets d, q ∉ (T i).buckets b := by
    intro d hd hdb q hq hq'
    have hnd := A.nodup i hi
    unfold Table.nodes at hnd
    rw [List.nodup_flatMap] at hnd
    have hpw := hnd.2
    rw [List.pairwise_iff_getElem] at hpw
    rcases Nat.lt_or_gt_of_ne hdb with hlt | hlt
    · have := hpw d b (by simpa using hd) (by simpa using hb) hlt
      simp only [List.getElem_range, Function.onFun] at this
      exact this hq hq'
    · have := hpw b d (by simpa using hb) (by simpa using hd) hlt
      simp only [List.getElem_range, Function.onFun] at this
      exact this hq' hq
  have hndb : ((T i).buckets b).Nodup := by
    have hnd := A.nodup i hi
    unfold Table.nodes at hnd
    rw [List.nodup_flatMap] at hnd
    exact hnd.1 b (by simpa using hb)
  obtain ⟨L', e1, s1, _, k1, h1, v1⟩ := Links.erase_spec (h.tab i hi b hb) hndb hp hf
  refine ⟨L', e1, h.change (D := fun q => q ∈ (T i).buckets b) ?_ k1 ?_ v1 ?_ ?_ ?_⟩
  · intro d hd
    have hd' : d < (T i).cap := hd
    simp only [Table.remove, upd_apply]
    split
    · rename_i e; subst e; exact s1
    · rename_i e
      rw [h1 i d (fun h => e (congrArg Prod.snd h))]
      exact (h.tab i hi d hd').congr fun q hq => k1 q (hno d hd' e q hq)
  · intro j hj
    funext d
    exact h1 j d fun h => hj (congrArg Prod.fst h)
  · intro j hj hji q hq hq'
    exact A.cross j hj i hi hji q hq (hsub q hq')
  · intro q hq hq'; exact A.free i hi q (hsub q hq') hq
  · intro q hq; exact ⟨hq, fun hq' => A.tmp i hi q (hsub q hq') hq⟩

theorem adjusted (h : LinkOK n T free tmp L) (A : Apart n T free tmp) {i fuel : Nat} {hash : Ptr → Nat} (hi : i < n)
    (hf : (T i).nodes.length < fuel) :
    ∃ L', L.adjust hash i (T i) fuel = .ok L' ∧ LinkOK n (upd T i ((T i).adjustCapacity hash)) free tmp L' := by
  obtain ⟨L', e1, s1, k1, h1, v1⟩ := Links.adjust_spec (h := hash) (h.tab i hi) (A.nodup i hi) hf
  refine ⟨L', e1, h.change (D := fun q => q ∈ (T i).nodes) s1 k1 h1 v1 ?_ ?_ ?_⟩
  · intro j hj hji q hq hq'
    exact A.cross j hj i hi hji q hq hq'
  · intro q hq hq'; exact A.free i hi q hq' hq
  · intro q hq; exact ⟨hq, fun hq' => A.tmp i hi q hq' hq⟩

theorem merged (h : LinkOK n T free tmp L) (A : Apart n T free tmp) {i fuel : Nat} {hash : Ptr → Nat} (hi : i < n)
    {o : Table} {heads : Nat → Option Ptr} (hc : 0 < (T i).cap) (hf : (T i).nodes.length < fuel)
    (ho : ∀ b, b < o.cap → Seg L.next (heads b) (o.buckets b)) (hno : o.nodes.Nodup) (hfo : o.nodes.length < fuel)
    (hd : ∀ p ∈ o.nodes, ∀ j, j < n → p ∉ (T j).nodes) (hdf : ∀ p ∈ o.nodes, p ∉ free) :
    ∃ L', L.merge hash i (T i) o heads fuel = .ok L' ∧ LinkOK n (upd T i ((T i).merge o hash)) free [] L' := by
  obtain ⟨L', e1, s1, k1, h1, v1⟩ := Links.merge_spec (h := hash) hc (h.tab i hi) (A.nodup i hi) hf ho hno hfo
    (fun p hp => hd p hp i hi)
  refine ⟨L', e1, h.change (D := fun q => q ∈ (T i).nodes ∨ q ∈ o.nodes) s1
    (fun q hq => k1 q (fun h => hq (Or.inl h)) (fun h => hq (Or.inr h))) h1 v1 ?_ ?_ (by simp)⟩
  · rintro j hj hji q hq (hq' | hq')
    · exact A.cross j hj i hi hji q hq hq'
    · exact hd q hq' j hj hq
  · rintro q hq (hq' | hq')
    · exact A.free i hi q hq' hq
    · exact hdf q hq' hq

/-- `clear` of one table at the beginning of a swap. -/
theorem detach (h : LinkOK n T free tmp L) {i : Nat} {l : List Ptr} :
    LinkOK n (upd T i (T i).clear) free l { L.clear i with saved := L.next } where
  tab j hj := by
    by_cases e : j = i
    · subst e
      rw [upd_same]
      intro b _
      simp [Links.clear, Table.clear, Seg]
    · rw [upd_other _ _ e]
      intro b hb
      simp only [Links.clear]
      rw [upd_other _ _ e]
      exact h.tab j hj b hb
  free := h.free
  tmp _ _ := rfl

end LinkOK

theorem Apart.adjusted {n : Nat} {T : Nat → Table} {free tmp : List Ptr} {hash : Ptr → Nat} (A : Apart n T free tmp)
    (i : Nat) : Apart n (upd T i ((T i).adjustCapacity hash)) free tmp := by
  have hm : ∀ j q, q ∈ (upd T i ((T i).adjustCapacity hash) j).nodes ↔ q ∈ (T j).nodes := by
    intro j q
    by_cases ej : j = i
    · subst ej; rw [upd_same, Links.adjustCapacity_mem]
    · rw [upd_other _ _ ej]
  refine ⟨?_, ?_, ?_, ?_⟩
  · intro j hj
    by_cases ej : j = i
    · subst ej
      rw [upd_same]
      unfold Table.adjustCapacity
      dsimp only
      split
      · rw [Table.rehash]
        refine (Table.insertAll_perm _ _ (gteCapacity_pos _)).nodup_iff.2 ?_
        simpa [Table.nodes_empty] using A.nodup j hj
      · exact A.nodup j hj
    · rw [upd_other _ _ ej]; exact A.nodup j hj
  · intro j hj k hk hjk q hq hq'
    exact A.cross j hj k hk hjk q ((hm j q).1 hq) ((hm k q).1 hq')
  · intro j hj q hq; exact A.free j hj q ((hm j q).1 hq)
  · intro j hj q hq; exact A.tmp j hj q ((hm j q).1 hq)

/-- The tables of the variables `is` adjusted. -/
theorem Links.adjustAll_spec {n fuel : Nat} {hash : Ptr → Nat} {T : Nat → Table} {free tmp : List Ptr} (is : List Nat)
    (hlt : ∀ i ∈ is, i < n) (hnd : is.Nodup) :
    ∀ {T' : Nat → Table} {L : Links}, (∀ i ∈ is, T' i = T i) → LinkOK n T' free tmp L → Apart n T' free tmp →
      (∀ i ∈ is, (T i).nodes.length < fuel) →
      ∃ L', L.adjustAll hash T fuel is = .ok L' ∧
        LinkOK n (fun i => if i ∈ is then (T i).adjustCapacity hash else T' i) free tmp L' := by
  induction is with
  | nil => intro T' L _ h _ _; exact ⟨L, rfl, by simpa using h⟩
  | cons i is ih =>
      intro T' L hT h A hf
      obtain ⟨hni, hnd'⟩ := List.nodup_cons.1 hnd
      have hi := hlt i (by simp)
      have e := hT i (by simp)
      obtain ⟨L1, e1, h1⟩ := h.adjusted (hash := hash) A hi (by rw [e]; exact hf i (by simp))
      have A1 := A.adjusted (hash := hash) i
      obtain ⟨L2, e2, h2⟩ := ih (fun j hj => hlt j (by simp [hj])) hnd' (T' := upd T' i ((T' i).adjustCapacity hash))
        (L := L1) (fun j hj => by
          have : j ≠ i := fun e => hni (e ▸ hj)
          rw [upd_other _ _ this, hT j (by simp [hj])]) h1 A1 (fun j hj => hf j (by simp [hj]))
      refine ⟨L2, ?_, ?_⟩
      · rw [Links.adjustAll, ← e, e1]; exact e2
      · convert h2 using 2 with j
        by_cases ej : j = i
        · subst ej; simp [hni, e]
        · simp [ej, upd_other]

end Teddy
