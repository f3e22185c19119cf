import Verif.Proofs.SwapNode
import Verif.Proofs.Good
import Verif.Proofs.SortLemmas
import Verif.Proofs.Saved

/-! Swapping two neighbouring variables and sifting: the invariant, the order, and the functions of
all diagrams are kept. -/

namespace Teddy

open SM

/-- What reordering needs and keeps. -/
structure Sane (c : Cfg) (ext : Ptr → Nat) (s : Mgr) : Prop where
  inv : Inv c ext [] s
  ord : Ordered c s
  pool : PoolOK c s

section
variable {c : Cfg} {ext : Ptr → Nat} {s : Mgr}

/-- A used node of variable `i` is in the table of variable `i`, unless it is detached. -/
theorem Inv.inTable {tmp : List Ptr} (h : Inv c ext tmp s) {p i : Nat} {ss : List Ptr}
    (hu : s.used p = true) (hk : s.kind p = .inner i ss) : p ∈ (s.tables i).nodes ∨ p ∈ tmp := by
  rcases (h.placed p).1 hu with ⟨j', hj', hm⟩ | hm | hm | hm
  · obtain ⟨ss', hk'⟩ := h.tabKind j' hj' p hm
    rw [hk] at hk'; cases hk'
    exact Or.inl hm
  · exact Or.inr hm
  · obtain ⟨w, hw⟩ := List.mem_iff_getElem?.1 hm
    have := (h.termKind w p hw).1
    rw [hk] at this; cases this
  · have := h.specKind p hm
    rw [hk] at this; cases this

/-- Taking all nodes of one table out. -/
theorem Inv.detach (h : Inv c ext [] s) {i : Nat} (hi : i < c.n) :
    Inv c ext (s.tables i).nodes { s with
      tables := upd s.tables i (s.tables i).clear
      link := { s.link.clear i with saved := s.link.next } } := by
  have hin : ∀ k, k < c.n → ∀ p, p ∈ (s.tables i).nodes → p ∈ (s.tables k).nodes → k = i := by
    intro k hk p h1 h2
    obtain ⟨_, e1⟩ := h.tabKind i hi p h1
    obtain ⟨_, e2⟩ := h.tabKind k hk p h2
    rw [e1] at e2; cases e2; rfl
  have P := h.pool
  refine
    { tabWF := ?_, tabKind := ?_, termKind := h.termKind, specKind := h.specKind
      tmpInner := fun p hp => ⟨i, h.tabKind i hi p hp⟩, tmpDisj := ?_, placed := ?_
      sons := h.sons, refs := h.refs, extUsed := h.extUsed, markUsed := h.markUsed
      pool := ⟨P.freeNodup, P.freeUnused, P.allFree, P.usedLt, P.avail_eq, P.le, P.count⟩
      order := ⟨h.order.i2l_lt, h.order.l2i_lt, h.order.l2i2l, h.order.i2l2i⟩
      mem := h.mem, heap := h.heap, link := h.link.detach }
  · intro k hk
    by_cases e : k = i
    · subst e; simp only [upd_same]; exact (h.tabWF k hk).clear
    · simp only [upd_other _ _ e]; exact h.tabWF k hk
  · intro k hk p hp
    by_cases e : k = i
    · subst e; simp at hp
    · simp only [upd_other _ _ e] at hp; exact h.tabKind k hk p hp
  · intro p hp k hk hp'
    by_cases e : k = i
    · subst e; simp at hp'
    · simp only [upd_other _ _ e] at hp'
      exact e (hin k hk p hp hp')
  · intro p
    show s.used p = true ↔ _
    rw [h.placed p]
    constructor
    · rintro (⟨k, hk, hp⟩ | hp | hp | hp)
      · by_cases e : k = i
        · subst e; exact Or.inr (Or.inl hp)
        · exact Or.inl ⟨k, hk, by simpa only [upd_other _ _ e] using hp⟩
      · cases hp
      · exact Or.inr (Or.inr (Or.inl hp))
      · exact Or.inr (Or.inr (Or.inr hp))
    · rintro (⟨k, hk, hp⟩ | hp | hp | hp)
      · by_cases e : k = i
        · subst e; simp at hp
        · exact Or.inl ⟨k, hk, by simpa only [upd_other _ _ e] using hp⟩
      · exact Or.inl ⟨i, hi, hp⟩
      · exact Or.inr (Or.inr (Or.inl hp))
      · exact Or.inr (Or.inr (Or.inr hp))

/-- Before the first node is rewritten. -/
theorem Sane.mid (h : Sane c ext s) {i j L : Nat} (hi : i < c.n) (hj : j < c.n)
    (hli : s.idx2lvl i = L) (hlj : s.idx2lvl j = L + 1) :
    Mid c ext (s.tables i).nodes i j L (s.tables i).nodes
      { s with
        tables := upd s.tables i (s.tables i).clear
        link := { s.link.clear i with saved := s.link.next } } := by
  have hrank : ∀ p, s.used p = true →
      rankOf c (s.tables i).nodes i j L { s with
        tables := upd s.tables i (s.tables i).clear
        link := { s.link.clear i with saved := s.link.next } } p = s.levelOf c p := by
    intro p hp
    unfold rankOf Mgr.levelOf
    by_cases hT : p ∈ (s.tables i).nodes
    · obtain ⟨ss, hk⟩ := h.inv.tabKind i hi p hT
      simp [hT, hk, hli]
    · rw [if_neg hT]
      simp only
      cases hk : s.kind p with
      | leaf v => rfl
      | inner k ss =>
          simp only
          by_cases e : k = j
          · subst e; simp [hlj]
          · have : k ≠ i := by
              rintro rfl
              rcases h.inv.inTable hp hk with h1 | h1
              · exact hT h1
              · cases h1
            simp [e, this]
  refine
    { inv := h.inv.detach hi, pool := ⟨h.pool.extra, h.pool.den, h.pool.thr⟩, hi := hi, hj := hj
      lvi := hli, lvj := hlj, rank := ?_, old := ?_, fin := fun p hp hn => absurd hp hn }
  · intro p k ss q hp hk hq
    rw [hrank p hp, hrank q ((h.inv.sons p k ss hp hk).2.2 q hq)]
    exact h.ord p k ss q hp hk hq
  · intro p hp _
    obtain ⟨ss, hk⟩ := h.inv.tabKind i hi p hp
    refine ⟨ss, hk, fun q hq ts hkq => ?_⟩
    have := h.ord p i ss q (h.inv.tabUsed hi hp) hk hq
    simp only [Mgr.levelOf, hk, show s.kind q = _ from hkq] at this
    omega

/-- The state after the loop over the nodes: the moved nodes get into the table of `j`. -/
def Mgr.merged (c : Cfg) (s : Mgr) (i j L : Nat) (t : Table) (Lk : Links) : Mgr :=
  { s with
    tables := upd (upd s.tables i ((s.tables i).adjustCapacity (fun p => c.hash (s.sonsOf p)))) j
      ((upd s.tables i ((s.tables i).adjustCapacity (fun p => c.hash (s.sonsOf p))) j).merge t
        (fun p => c.hash (s.sonsOf p)))
    lvl2idx := upd (upd s.lvl2idx L (s.lvl2idx (1 + L))) (1 + L) (s.lvl2idx L)
    idx2lvl := upd (upd s.idx2lvl i (s.idx2lvl i + 1)) j (s.idx2lvl j - 1)
    heap :=
      if (upd s.tables i ((s.tables i).adjustCapacity (fun p => c.hash (s.sonsOf p))) j).mergeGrows t then
        (if (s.tables i).grows then s.heap.rehashTable i else s.heap).rehashTable j
      else if (s.tables i).grows then s.heap.rehashTable i else s.heap
    link := Lk }

theorem Mid.merged {i j L : Nat} {t : Table} (m : Mid c ext t.nodes i j L [] s) (hL : L + 1 < c.n)
    (hn : t.nodes.Nodup) (hsz : t.size = t.nodes.length) {Lk : Links}
    (hLk : LinkOK c.n (s.merged c i j L t Lk).tables s.free [] Lk) :
    Sane c ext (s.merged c i j L t Lk) := by
  have hij : i ≠ j := by
    rintro rfl
    have h1 := m.lvi
    have h2 := m.lvj
    omega
  have h := m.inv
  have O := h.order
  have P := h.pool
  have wi := (h.tabWF i m.hi).adjustCapacity
  have pi := (Table.adjustCapacity_spec (h.tabWF i m.hi).toWFb).2.1
  obtain ⟨wj, pj⟩ := Table.merge_spec (o := t) (h.tabWF j m.hj) hn hsz
    (fun p hp => h.tmpDisj p hp j m.hj)
  have ti : (s.merged c i j L t Lk).tables i = (s.tables i).adjustCapacity (s.hashOf c) := by
    simp only [Mgr.merged, upd_other _ _ hij, upd_same]; rfl
  have tj : (s.merged c i j L t Lk).tables j = (s.tables j).merge t (s.hashOf c) := by
    simp only [Mgr.merged, upd_same, upd_other _ _ hij.symm]; rfl
  have tk : ∀ k, k ≠ i → k ≠ j → (s.merged c i j L t Lk).tables k = s.tables k := by
    intro k h1 h2
    simp only [Mgr.merged, upd_other _ _ h2, upd_other _ _ h1]
  have mem : ∀ k p, p ∈ ((s.merged c i j L t Lk).tables k).nodes ↔
      p ∈ (s.tables k).nodes ∨ (k = j ∧ p ∈ t.nodes) := by
    intro k p
    by_cases e1 : k = i
    · subst e1
      rw [ti, pi.mem_iff]
      simp [hij]
    · by_cases e2 : k = j
      · subst e2
        rw [tj, pj.mem_iff, List.mem_append]
        simp [or_comm]
      · rw [tk k e1 e2]; simp [e2]
  have li : s.lvl2idx L = i := by have := O.i2l2i i m.hi; rwa [m.lvi] at this
  have lj : s.lvl2idx (1 + L) = j := by
    have := O.i2l2i j m.hj; rw [m.lvj] at this; rw [Nat.add_comm]; exact this
  have i2l : ∀ k, (s.merged c i j L t Lk).idx2lvl k
      = if k = j then L else if k = i then L + 1 else s.idx2lvl k := by
    intro k
    simp only [Mgr.merged, upd_apply, m.lvi, m.lvj]
    rfl
  have l2i : ∀ l, (s.merged c i j L t Lk).lvl2idx l
      = if l = L + 1 then i else if l = L then j else s.lvl2idx l := by
    intro l
    simp only [Mgr.merged, upd_apply, li, lj]
    simp only [Nat.add_comm 1 L]
  have inj : ∀ k, k < c.n → s.idx2lvl k = L → k = i := by
    intro k hk e
    have := O.i2l2i k hk
    rw [e, li] at this; exact this.symm
  have inj' : ∀ k, k < c.n → s.idx2lvl k = L + 1 → k = j := by
    intro k hk e
    have := O.i2l2i k hk
    rw [e, Nat.add_comm, lj] at this; exact this.symm
  have injl : ∀ l, l < c.n → s.lvl2idx l = i → l = L := by
    intro l hl e
    have := O.l2i2l l hl
    rw [e, m.lvi] at this; exact this.symm
  have injl' : ∀ l, l < c.n → s.lvl2idx l = j → l = L + 1 := by
    intro l hl e
    have := O.l2i2l l hl
    rw [e, m.lvj] at this; exact this.symm
  have hinv : Inv c ext [] (s.merged c i j L t Lk) := by
    refine
      { tabWF := ?_, tabKind := ?_, termKind := h.termKind, specKind := h.specKind
        tmpInner := fun p hp => by cases hp
        tmpDisj := fun p hp => by cases hp
        placed := ?_
        sons := h.sons, refs := h.refs, extUsed := h.extUsed, markUsed := h.markUsed
        pool := ⟨P.freeNodup, P.freeUnused, P.allFree, P.usedLt, P.avail_eq, P.le, P.count⟩
        order := ?_, mem := h.mem, heap := (h.heap.rehashIf _ i).rehashIf _ j, link := hLk }
    · intro k hk
      show ((s.merged c i j L t Lk).tables k).WF (s.hashOf c)
      by_cases e1 : k = i
      · subst e1; rw [ti]; exact wi
      · by_cases e2 : k = j
        · subst e2; rw [tj]; exact wj
        · rw [tk k e1 e2]; exact h.tabWF k hk
    · intro k hk p hp
      rcases (mem k p).1 hp with h1 | ⟨rfl, h1⟩
      · exact h.tabKind k hk p h1
      · obtain ⟨ss, hk', _⟩ := m.fin p h1 (by simp)
        exact ⟨ss, hk'⟩
    · intro p
      show s.used p = true ↔ _
      rw [h.placed p]
      constructor
      · rintro (⟨k, hk, hp⟩ | hp | hp | hp)
        · exact Or.inl ⟨k, hk, (mem k p).2 (Or.inl hp)⟩
        · exact Or.inl ⟨j, m.hj, (mem j p).2 (Or.inr ⟨rfl, hp⟩)⟩
        · exact Or.inr (Or.inr (Or.inl hp))
        · exact Or.inr (Or.inr (Or.inr hp))
      · rintro (⟨k, hk, hp⟩ | hp | hp | hp)
        · rcases (mem k p).1 hp with h1 | ⟨rfl, h1⟩
          · exact Or.inl ⟨k, hk, h1⟩
          · exact Or.inr (Or.inl h1)
        · cases hp
        · exact Or.inr (Or.inr (Or.inl hp))
        · exact Or.inr (Or.inr (Or.inr hp))
    · constructor
      · intro k hk
        rw [i2l]
        have := O.i2l_lt k hk
        split
        · omega
        · split <;> omega
      · intro l hl
        rw [l2i]
        split
        · exact m.hi
        · split
          · exact m.hj
          · exact O.l2i_lt l hl
      · intro l hl
        rw [l2i]
        split
        · rename_i e; rw [i2l, if_neg hij, if_pos rfl, e]
        · split
          · rename_i e; rw [i2l, if_pos rfl, e]
          · rename_i e1 e2
            rw [i2l, if_neg (fun e => e1 (injl' l hl e)), if_neg (fun e => e2 (injl l hl e))]
            exact O.l2i2l l hl
      · intro k hk
        rw [i2l]
        split
        · rename_i e; rw [l2i, if_neg (by omega), if_pos rfl, e]
        · split
          · rename_i e; rw [l2i, if_pos rfl, e]
          · rename_i e1 e2
            rw [l2i, if_neg (fun e => e1 (inj' k hk e)), if_neg (fun e => e2 (inj k hk e))]
            exact O.i2l2i k hk
  refine ⟨hinv, ?_, ⟨m.pool.extra, m.pool.den, m.pool.thr⟩⟩
  -- levels after the swap
  have lev : ∀ p, s.used p = true →
      (∃ ss, p ∉ t.nodes ∧ s.kind p = .inner j ss ∧ (s.merged c i j L t Lk).levelOf c p = L ∧
        rankOf c t.nodes i j L s p = L + 1) ∨
      (p ∈ t.nodes ∧ (s.merged c i j L t Lk).levelOf c p = L ∧ rankOf c t.nodes i j L s p = L) ∨
      (p ∉ t.nodes ∧ (s.merged c i j L t Lk).levelOf c p = rankOf c t.nodes i j L s p ∧
        rankOf c t.nodes i j L s p ≠ L) := by
    intro p hp
    by_cases hT : p ∈ t.nodes
    · obtain ⟨ss, hk, _⟩ := m.fin p hT (by simp)
      refine Or.inr (Or.inl ⟨hT, ?_, rankOf_T hT⟩)
      simp [Mgr.levelOf, show (s.merged c i j L t Lk).kind p = .inner j ss from hk, i2l]
    · cases hk : s.kind p with
      | leaf v =>
          refine Or.inr (Or.inr ⟨hT, ?_, ?_⟩)
          · simp [Mgr.levelOf, rankOf, hT, show (s.merged c i j L t Lk).kind p = .leaf v from hk, hk]
          · simp only [rankOf, hT, if_false, hk]; omega
      | inner k ss =>
          have hk2 : (s.merged c i j L t Lk).kind p = .inner k ss := hk
          by_cases e1 : k = j
          · subst e1
            refine Or.inl ⟨ss, hT, rfl, ?_, ?_⟩
            · simp [Mgr.levelOf, hk2, i2l]
            · simp [rankOf, hT, hk]
          · by_cases e2 : k = i
            · subst e2
              refine Or.inr (Or.inr ⟨hT, ?_, ?_⟩)
              · simp [Mgr.levelOf, hk2, i2l, e1, rankOf, hT, hk]
              · simp [rankOf, hT, hk]
            · refine Or.inr (Or.inr ⟨hT, ?_, ?_⟩)
              · simp [Mgr.levelOf, hk2, i2l, e1, e2, rankOf, hT, hk]
              · simp only [rankOf, hT, if_false, hk, e1, e2, or_self]
                intro e
                exact e2 (inj k (h.sons p k ss hp hk).1 e)
  intro p k ss q hp hk hq
  have hp' : s.used p = true := hp
  have hk' : s.kind p = .inner k ss := hk
  have hr := m.rank p k ss q hp' hk' hq
  have huq := (h.sons p k ss hp' hk').2.2 q hq
  rcases lev p hp' with ⟨ts, a1, a2, a3, a4⟩ | ⟨a1, a2, a3⟩ | ⟨a1, a2, a3⟩ <;>
    rcases lev q huq with ⟨us, b1, b2, b3, b4⟩ | ⟨b1, b2, b3⟩ | ⟨b1, b2, b3⟩ <;>
    first | omega | skip
  obtain ⟨ss', c1, c2⟩ := m.fin p a1 (by simp)
  rw [hk'] at c1
  cases c1
  exact absurd b2 (c2 q hq us)

/-- Loop rule for a range-for over a chain whose pointers, when they are read, are those of `N`. -/
theorem walkChain_rule {body : Ptr → M Unit} {N : Ptr → Option Ptr} (I : List Ptr → Mgr → Prop)
    (hf : ∀ p l s, I (p :: l) s → Ok (body p) s (fun _ s' => I l s' ∧ s'.link.next p = N p)) (l2 : List Ptr) :
    ∀ (fuel : Nat) (cur : Option Ptr) (l1 : List Ptr) (s : Mgr), Seg N cur l1 → l1.length < fuel → I (l1 ++ l2) s →
      Ok (walkChain body fuel cur) s (fun _ s' => I l2 s')
  | 0, _, _, _, _, hl, _ => absurd hl (Nat.not_lt_zero _)
  | _ + 1, none, [], s, _, _, hi => Ok.pure hi
  | _ + 1, none, _ :: _, _, hs, _, _ => by cases hs.1
  | _ + 1, some _, [], _, hs, _, _ => by cases hs
  | f + 1, some p, q :: l, s, hs, hl, hi => by
    obtain ⟨e, hs⟩ := hs
    cases e
    refine Ok.bind (hf p (l ++ l2) s hi) ?_
    rintro _ s1 ⟨h1, h2⟩
    refine Ok.bindGet ?_
    rw [h2]
    exact walkChain_rule I hf l2 f _ l s1 hs (by simpa using hl) h1

/-- The same for the chains of the buckets `bs`. -/
theorem walkAll_rule {body : Ptr → M Unit} {N : Ptr → Option Ptr} {B : Nat → List Ptr} {heads : Nat → Option Ptr}
    {fuel : Nat} (I : List Ptr → Mgr → Prop)
    (hf : ∀ p l s, I (p :: l) s → Ok (body p) s (fun _ s' => I l s' ∧ s'.link.next p = N p)) :
    ∀ (bs : List Nat) (s : Mgr), (∀ b ∈ bs, Seg N (heads b) (B b)) → (∀ b ∈ bs, (B b).length < fuel) →
      I (bs.flatMap B) s → Ok (forL (fun b => walkChain body fuel (heads b)) bs) s (fun _ s' => I [] s')
  | [], _, _, _, hi => Ok.pure hi
  | b :: bs, s, hs, hl, hi => by
    refine Ok.bind (walkChain_rule I hf (bs.flatMap B) fuel _ _ s (hs b (by simp)) (hl b (by simp)) hi) ?_
    intro _ s1 h1
    exact walkAll_rule I hf bs s1 (fun d hd => hs d (by simp [hd])) (fun d hd => hl d (by simp [hd])) h1

theorem SM.Ok.and {σ α : Type} {m : SM σ α} {s : σ} {Q : α → σ → Prop} {R : σ → σ → Prop} (h : Ok m s Q)
    (hr : Always m R) : Ok m s (fun a s' => Q a s' ∧ R s s') := by
  obtain ⟨a, s', e, hq⟩ := h
  exact Ok.of_eq e ⟨hq, hr s a s' e⟩

/-- `swap_variable_with_next`. -/
theorem swapVariable_spec (h : Sane c ext s) (hdom : ∀ k, k < c.n → 0 < c.dom k) {i : Nat}
    (hi : i < c.n) (hL : s.idx2lvl i + 1 < c.n) :
    Ok (swapVariableWithNext c i) s (fun _ s' => Sane c ext s' ∧
      Swapped c (fun p => 0 < ext p) s s' ∧
      ∀ k, s'.idx2lvl k = if k = s.lvl2idx (s.idx2lvl i + 1) then s.idx2lvl i
        else if k = i then s.idx2lvl i + 1 else s.idx2lvl k) := by
  have O := h.inv.order
  have hj : s.lvl2idx (1 + s.idx2lvl i) < c.n := O.l2i_lt _ (by omega)
  have hlj : s.idx2lvl (s.lvl2idx (1 + s.idx2lvl i)) = s.idx2lvl i + 1 := by
    rw [O.l2i2l _ (by omega)]; omega
  unfold swapVariableWithNext
  refine Ok.bindGet ?_
  refine Ok.bindEq (getIndex_ok (by omega)) ?_
  refine Ok.bindEq (set_run _ _) ?_
  have m0 := h.mid hi hj rfl hlj
  generalize hT : s.tables i = t at m0
  have hwt := hT ▸ h.inv.tabWF i hi
  have hnd : t.nodes.Nodup := hwt.nodup_nodes
  have hsz : t.size = t.nodes.length := hwt.size_eq
  have hc0 : ∀ b, b < t.cap → Seg s.link.next (s.link.head i b) (t.buckets b) := hT ▸ h.inv.link.tab i hi
  have hfu : ∀ b, b < t.cap → (t.buckets b).length < s.next + 1 := fun b hb => by
    subst hT
    exact Nat.lt_succ_of_le (h.inv.bucketLen hi hb)
  generalize hs0 : ({ s with
    tables := upd s.tables i t.clear
    link := { s.link.clear i with saved := s.link.next } } : Mgr) = s0 at m0
  have e0 : s0.idx2lvl = s.idx2lvl := by rw [← hs0]
  have e1 : s0.lvl2idx = s.lvl2idx := by rw [← hs0]
  have e2 : s0.link.saved = s.link.next := by rw [← hs0]
  have sw0 : Swapped c (fun p => 0 < ext p ∨ p ∈ t.nodes) s s0 := by
    rw [← hs0]
    exact ⟨fun _ _ _ _ _ h => h, fun _ h => h, rfl, rfl, fun _ => rfl, Nat.le_refl _⟩
  have hloop := walkAll_rule (body := swapNodeWithNext c) (N := s.link.next) (B := t.buckets) (heads := s.link.head i)
    (fuel := s.next + 1)
    (fun l s1 => l.Nodup ∧ (∀ p ∈ l, p ∈ t.nodes) ∧
      Mid c ext t.nodes i (s.lvl2idx (1 + s.idx2lvl i)) (s.idx2lvl i) l s1 ∧
      Swapped c (fun p => 0 < ext p ∨ p ∈ t.nodes) s s1 ∧ s1.idx2lvl = s.idx2lvl ∧
      s1.lvl2idx = s.lvl2idx ∧ s1.link.saved = s.link.next)
    (by
      rintro p l s1 ⟨b1, b2, b3, b4, b5, b6, b7⟩
      refine ((swapNode_spec b3 hL hdom (b2 p (by simp)) (List.nodup_cons.1 b1).1).and (SameSaved.swapNode c p)).mono ?_
      rintro _ s2 ⟨⟨d1, d2, d3, d4⟩, d5⟩
      have d6 : s2.link.saved = s.link.next := Eq.trans d5 b7
      refine ⟨⟨(List.nodup_cons.1 b1).2, fun q hq => b2 q (by simp [hq]), d1, b4.trans d2,
        d3.trans b5, d4.trans b6, d6⟩, ?_⟩
      rw [d1.inv.link.tmp p (b2 p (by simp)), d6])
    (List.range t.cap) s0 (fun b hb => hc0 b (List.mem_range.1 hb)) (fun b hb => hfu b (List.mem_range.1 hb))
    ⟨hnd, fun _ h => h, m0, sw0, e0, e1, e2⟩
  refine Ok.bind hloop ?_
  rintro _ s1 ⟨_, _, m1, sw1, f0, f1, f2⟩
  have hij : i ≠ s.lvl2idx (1 + s.idx2lvl i) := by
    intro e
    rw [← e] at hlj
    omega
  have I1 := m1.inv
  have hlen : t.nodes.length < s1.next + 1 :=
    Nat.lt_succ_of_le (nodup_length_le hnd fun p hp => I1.pool.usedLt p (I1.tmpUsed hp))
  obtain ⟨L1, r1, k1⟩ := I1.link.adjusted (hash := fun p => c.hash (s1.sonsOf p)) I1.apart hi (fuel := s1.next + 1)
    (Nat.lt_succ_of_le (I1.nodesLen hi))
  have A1 := I1.apart.adjusted (hash := fun p => c.hash (s1.sonsOf p)) i
  have tj : upd s1.tables i ((s1.tables i).adjustCapacity fun p => c.hash (s1.sonsOf p)) (s.lvl2idx (1 + s.idx2lvl i))
      = s1.tables (s.lvl2idx (1 + s.idx2lvl i)) := upd_other _ _ hij.symm
  have hsub : ∀ k q, q ∈ (upd s1.tables i ((s1.tables i).adjustCapacity fun p => c.hash (s1.sonsOf p)) k).nodes ↔
      q ∈ (s1.tables k).nodes := by
    intro k q
    by_cases ek : k = i
    · subst ek; rw [upd_same, Links.adjustCapacity_mem]
    · rw [upd_other _ _ ek]
  obtain ⟨L2, r2, k2⟩ := k1.merged (hash := fun p => c.hash (s1.sonsOf p)) A1 hj (o := t) (heads := s.link.head i)
    (fuel := s1.next + 1)
    (by rw [tj]; exact (I1.tabWF _ hj).cap_pos)
    (by rw [tj]; exact Nat.lt_succ_of_le (I1.nodesLen hj))
    (fun b hb => (hc0 b hb).congr fun p hp => by
      rw [k1.tmp p (Table.mem_nodes_iff.2 ⟨b, hb, hp⟩), Links.adjust_saved r1, f2])
    hnd hlen (fun p hp k hk hq => I1.tmpDisj p hp k hk ((hsub k p).1 hq))
    (fun p hp hq => by
      have h1 := I1.tmpUsed hp
      rw [(I1.pool.freeUnused p hq).2] at h1
      cases h1)
  refine Ok.bindGet ?_
  refine Ok.bindEq (onLinks_run r1) ?_
  refine Ok.bindMod ?_
  refine Ok.bindGet ?_
  refine Ok.bindEq (onLinks_run r2) ?_
  refine Ok.bindMod ?_
  have hL' : s.idx2lvl i + 1 < c.n := hL
  have m2 := m1.merged hL' hnd hsz k2
  refine Ok.of_eq (a := ()) (s' := s1.merged c i (s.lvl2idx (1 + s.idx2lvl i)) (s.idx2lvl i) t L2) rfl
    ⟨m2, ?_, ?_⟩
  · exact { sw1.weaken (fun p hp => Or.inl hp) with }
  · intro k
    simp only [Mgr.merged, upd_apply, f0, hlj]
    simp only [Nat.add_comm 1, Nat.add_sub_cancel]

/-- Loop rule data of the sifting loops. -/
theorem moveUp_spec (h : Sane c ext s) (hdom : ∀ k, k < c.n → 0 < c.dom k) {i : Nat}
    (hi : i < c.n) (hL : 0 < s.idx2lvl i) :
    Ok (moveVarUp c i) s (fun _ s' => Sane c ext s' ∧
      Swapped c (fun p => 0 < ext p) s s' ∧ s'.idx2lvl i = s.idx2lvl i - 1) := by
  have O := h.inv.order
  have hlt := O.i2l_lt i hi
  have hprev : s.lvl2idx (s.idx2lvl i - 1) < c.n := O.l2i_lt _ (by omega)
  have hlp : s.idx2lvl (s.lvl2idx (s.idx2lvl i - 1)) = s.idx2lvl i - 1 := O.l2i2l _ (by omega)
  unfold moveVarUp
  refine Ok.bindGet ?_
  refine Ok.bindEq (getIndex_ok (by omega)) ?_
  refine (swapVariable_spec h hdom hprev (by omega)).mono ?_
  rintro _ s' ⟨h1, h2, h3⟩
  refine ⟨h1, h2, ?_⟩
  rw [h3 i, hlp, if_pos]
  rw [show s.idx2lvl i - 1 + 1 = s.idx2lvl i by omega]
  exact (O.i2l2i i hi).symm

theorem siftDown_var (hdom : ∀ k, k < c.n → 0 < c.dom k) {i : Nat} (hi : i < c.n) :
    ∀ (f : Nat) (pl : Place) (s : Mgr), Sane c ext s → s.idx2lvl i = pl.level →
      c.n ≤ pl.level + 1 + f → pl.optLevel < c.n →
      Ok (siftDownVar c i f pl) s (fun pl' s' => Sane c ext s' ∧
        Swapped c (fun p => 0 < ext p) s s' ∧ s'.idx2lvl i = pl'.level ∧ pl'.optLevel < c.n) := by
  intro f
  induction f with
  | zero =>
      intro pl s h hl hf ho
      have hlt := h.inv.order.i2l_lt i hi
      rw [siftDownVar, if_pos (by omega)]
      exact Ok.pure ⟨h, Swapped.refl s, hl, ho⟩
  | succ f ih =>
      intro pl s h hl hf ho
      have hlt := h.inv.order.i2l_lt i hi
      rw [siftDownVar]
      by_cases e : pl.level = c.n - 1
      · rw [if_pos e]
        exact Ok.pure ⟨h, Swapped.refl s, hl, ho⟩
      · rw [if_neg e]
        refine Ok.bind (swapVariable_spec h hdom hi (by omega)) ?_
        rintro _ s1 ⟨h1, h2, h3⟩
        refine Ok.bindGet ?_
        have hne : i ≠ s.lvl2idx (s.idx2lvl i + 1) := by
          intro e2
          have := h.inv.order.l2i2l (s.idx2lvl i + 1) (by omega)
          rw [← e2] at this
          omega
        have hlev : s1.idx2lvl i = pl.level + 1 := by
          rw [h3 i, if_neg hne, if_pos rfl, hl]
        have hp : (placeUpdate pl (pl.level + 1) s1.nodeCount).level = pl.level + 1 := by
          unfold placeUpdate; split <;> rfl
        have hp2 : (placeUpdate pl (pl.level + 1) s1.nodeCount).optLevel < c.n := by
          unfold placeUpdate; split
          · show pl.level + 1 < c.n; omega
          · exact ho
        refine (ih _ s1 h1 (by rw [hp]; exact hlev) (by rw [hp]; omega) hp2).mono ?_
        rintro pl' s2 ⟨g1, g2, g3, g4⟩
        exact ⟨g1, h2.trans g2, g3, g4⟩

theorem siftUp_var (hdom : ∀ k, k < c.n → 0 < c.dom k) {i : Nat} (hi : i < c.n) :
    ∀ (f : Nat) (pl : Place) (s : Mgr), Sane c ext s → s.idx2lvl i = pl.level →
      pl.level ≤ f → pl.optLevel < c.n →
      Ok (siftUpVar c i f pl) s (fun pl' s' => Sane c ext s' ∧
        Swapped c (fun p => 0 < ext p) s s' ∧ s'.idx2lvl i = pl'.level ∧ pl'.level = 0 ∧
        pl'.optLevel < c.n) := by
  intro f
  induction f with
  | zero =>
      intro pl s h hl hf ho
      rw [siftUpVar, if_pos (by omega)]
      exact Ok.pure ⟨h, Swapped.refl s, hl, by omega, ho⟩
  | succ f ih =>
      intro pl s h hl hf ho
      have hlt := h.inv.order.i2l_lt i hi
      rw [siftUpVar]
      by_cases e : pl.level = 0
      · rw [if_pos e]
        exact Ok.pure ⟨h, Swapped.refl s, hl, e, ho⟩
      · rw [if_neg e]
        refine Ok.bind (moveUp_spec h hdom hi (by omega)) ?_
        rintro _ s1 ⟨h1, h2, h3⟩
        refine Ok.bindGet ?_
        have hp : (placeUpdate pl (pl.level - 1) s1.nodeCount).level = pl.level - 1 := by
          unfold placeUpdate; split <;> rfl
        have hp2 : (placeUpdate pl (pl.level - 1) s1.nodeCount).optLevel < c.n := by
          unfold placeUpdate; split
          · show pl.level - 1 < c.n; omega
          · exact ho
        refine (ih _ s1 h1 (by rw [hp, h3, hl]) (by rw [hp]; omega) hp2).mono ?_
        rintro pl' s2 ⟨g1, g2, g3, g4, g5⟩
        exact ⟨g1, h2.trans g2, g3, g4, g5⟩

theorem siftRestore_spec (hdom : ∀ k, k < c.n → 0 < c.dom k) {i opt : Nat} (hi : i < c.n)
    (ho : opt < c.n) :
    ∀ (f level : Nat) (s : Mgr), Sane c ext s → s.idx2lvl i = level → level ≤ opt →
      opt ≤ level + f →
      Ok (siftRestore c i opt f level) s (fun _ s' => Sane c ext s' ∧
        Swapped c (fun p => 0 < ext p) s s') := by
  intro f
  induction f with
  | zero =>
      intro level s h hl h1 h2
      rw [siftRestore, if_pos (by omega)]
      exact Ok.pure ⟨h, Swapped.refl s⟩
  | succ f ih =>
      intro level s h hl hle hf
      rw [siftRestore]
      by_cases e : level = opt
      · rw [if_pos e]
        exact Ok.pure ⟨h, Swapped.refl s⟩
      · rw [if_neg e]
        refine Ok.bind (swapVariable_spec h hdom hi (by omega)) ?_
        rintro _ s1 ⟨h1, h2, h3⟩
        have hne : i ≠ s.lvl2idx (s.idx2lvl i + 1) := by
          intro e2
          have := h.inv.order.l2i2l (s.idx2lvl i + 1) (by omega)
          rw [← e2] at this
          omega
        have hlev : s1.idx2lvl i = level + 1 := by
          rw [h3 i, if_neg hne, if_pos rfl, hl]
        refine (ih (level + 1) s1 h1 hlev (by omega) (by omega)).mono ?_
        rintro _ s2 ⟨g1, g2⟩
        exact ⟨g1, h2.trans g2⟩

theorem placeVariable_spec (h : Sane c ext s) (hdom : ∀ k, k < c.n → 0 < c.dom k) {i : Nat}
    (hi : i < c.n) :
    Ok (placeVariable c i) s (fun _ s' => Sane c ext s' ∧ Swapped c (fun p => 0 < ext p) s s') := by
  unfold placeVariable
  refine Ok.bindGet ?_
  refine Ok.bind (siftDown_var hdom hi c.n _ s h rfl (by simp only; omega)
    (h.inv.order.i2l_lt i hi)) ?_
  rintro pl s1 ⟨h1, h2, h3, h4⟩
  have hlt := h1.inv.order.i2l_lt i hi
  refine Ok.bind (siftUp_var hdom hi c.n pl s1 h1 h3 (by omega) h4) ?_
  rintro pl2 s2 ⟨g1, g2, g3, g4, g5⟩
  refine (siftRestore_spec hdom hi g5 c.n pl2.level s2 g1 g3 (by omega) (by omega)).mono ?_
  rintro _ s3 ⟨k1, k2⟩
  exact ⟨k1, (h2.trans g2).trans k2⟩

theorem siftOrder_lt : ∀ i ∈ siftOrder c s, i < c.n := by
  intro i hi
  unfold siftOrder at hi
  obtain ⟨k, hk, rfl⟩ := List.mem_map.1 hi
  have hsw : StrictWeak (fun (a b : Nat × Nat) => decide (a.2 > b.2)) :=
    ⟨fun a b h => by simp at h ⊢; omega, fun a b d h1 h2 => by simp at h1 h2 ⊢; omega⟩
  obtain ⟨_, π, h1, h2⟩ := SortLemmas.heapSort_spec hsw c.n (fun i => (i, (s.tables i).size))
  rw [h2 k]
  show π k < c.n
  by_contra hc
  have h3 := h1 (π k) (by omega)
  have := π.injective h3
  rw [this] at hc
  exact hc (List.mem_range.1 hk)

theorem siftVariables_spec (h : Sane c ext s) (hdom : ∀ k, k < c.n → 0 < c.dom k) :
    Ok (siftVariables c) s (fun _ s' => Sane c ext s' ∧ s'.deferred = false ∧
      Swapped c (fun p => 0 < ext p) { s with deferred := false } s') := by
  unfold siftVariables
  refine Ok.bindGet ?_
  refine Ok.bind (forL_rule (fun l s1 => (∀ i ∈ l, i < c.n) ∧ Sane c ext s1 ∧
    Swapped c (fun p => 0 < ext p) s s1) ?_ (siftOrder c s) s ⟨siftOrder_lt, h, Swapped.refl s⟩) ?_
  · rintro i l s1 ⟨h1, h2, h3⟩
    refine (placeVariable_spec h2 hdom (h1 i (by simp))).mono ?_
    rintro _ s2 ⟨g1, g2⟩
    exact ⟨fun k hk => h1 k (by simp [hk]), g1, h3.trans g2⟩
  · rintro _ s1 ⟨_, h2, h3⟩
    refine Ok.of_eq (modify_run _ _) ⟨⟨?_, ?_, ⟨h2.pool.extra, h2.pool.den, h2.pool.thr⟩⟩, rfl, ?_⟩
    · exact h2.inv.of_eq rfl rfl rfl rfl rfl rfl rfl rfl rfl rfl rfl rfl rfl rfl
    · exact h2.ord
    · exact { h3 with deferred := fun _ => rfl }

end

end Teddy
