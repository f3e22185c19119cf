import Verif.Proofs.Mem
import Verif.Proofs.Links
import Mathlib.Algebra.BigOperators.Group.Finset.Basic
import Mathlib.Algebra.Order.BigOperators.Group.Finset
import Mathlib.Tactic.Ring

/-! The structural invariant of the manager, protection of nodes, and their basic lemmas. -/

namespace Teddy

open SM

/-- Hash of the sons of `p`. -/
def Mgr.hashOf (c : Cfg) (s : Mgr) (p : Ptr) : Nat := c.hash (s.sonsOf p)

/-- `p` is registered somewhere: a unique table, the detached list `tmp`, the terminals. -/
def Mgr.Placed (c : Cfg) (s : Mgr) (tmp : List Ptr) (p : Ptr) : Prop :=
  (∃ i, i < c.n ∧ p ∈ (s.tables i).nodes) ∨ p ∈ tmp ∨ some p ∈ s.terminals ∨ s.special = some p

/-- Number of references to `p` from sons of used nodes. -/
def Mgr.inDeg (s : Mgr) (p : Ptr) : Nat :=
  ∑ q ∈ Finset.range s.next, if s.used q then (s.sonsOf q).count p else 0

/-- The node pool. -/
structure PoolInv (s : Mgr) : Prop where
  freeNodup : s.free.Nodup
  freeUnused : ∀ p ∈ s.free, p < s.next ∧ s.used p = false
  allFree : ∀ p, p < s.next → s.used p = false → p ∈ s.free
  usedLt : ∀ p, s.used p = true → p < s.next
  avail_eq : s.avail = s.free.length + (s.poolEnd - s.next)
  le : s.next ≤ s.poolEnd
  count : s.nodeCount + s.free.length = s.next

/-- `levelToIndex_` and `indexToLevel_` are inverse permutations. -/
structure OrderOK (c : Cfg) (s : Mgr) : Prop where
  i2l_lt : ∀ i, i < c.n → s.idx2lvl i < c.n
  l2i_lt : ∀ l, l < c.n → s.lvl2idx l < c.n
  l2i2l : ∀ l, l < c.n → s.idx2lvl (s.lvl2idx l) = l
  i2l2i : ∀ i, i < c.n → s.lvl2idx (s.idx2lvl i) = i

/-- The structural invariant.  `ext p` is the number of diagrams whose root is `p`; `tmp` lists
nodes taken out of the unique tables (during a swap of two variables). -/
structure Inv (c : Cfg) (ext : Ptr → Nat) (tmp : List Ptr) (s : Mgr) : Prop where
  tabWF : ∀ i, i < c.n → (s.tables i).WF (s.hashOf c)
  tabKind : ∀ i, i < c.n → ∀ p ∈ (s.tables i).nodes, ∃ ss, s.kind p = .inner i ss
  termKind : ∀ (v : Nat) p, s.terminals[v]? = some (some p) →
    s.kind p = .leaf v ∧ (v : Int) ≠ Undefined
  specKind : ∀ p, s.special = some p → s.kind p = .leaf Undefined
  tmpInner : ∀ p ∈ tmp, ∃ i ss, s.kind p = .inner i ss
  tmpDisj : ∀ p ∈ tmp, ∀ i, i < c.n → p ∉ (s.tables i).nodes
  placed : ∀ p, s.used p = true ↔ s.Placed c tmp p
  sons : ∀ p i ss, s.used p = true → s.kind p = .inner i ss →
    i < c.n ∧ ss.length = c.dom i ∧ ∀ q ∈ ss, s.used q = true
  refs : ∀ p, s.used p = true → s.refs p = ext p + s.inDeg p
  extUsed : ∀ p, 0 < ext p → s.used p = true
  markUsed : ∀ p, s.mark p = true → s.used p = true
  pool : PoolInv s
  order : OrderOK c s
  mem : MemOK c s.kind s.next s.poolEnd s.mem
  heap : HeapOK c.n s.heap
  link : LinkOK c.n s.tables s.free tmp s.link

/-- Levels strictly increase from a node to its sons. -/
def Ordered (c : Cfg) (s : Mgr) : Prop :=
  ∀ p i ss q, s.used p = true → s.kind p = .inner i ss → q ∈ ss → s.levelOf c p < s.levelOf c q

/-- Reachable from a marked node, from a diagram or from a detached node. -/
inductive Prot (ext : Ptr → Nat) (tmp : List Ptr) (s : Mgr) : Ptr → Prop
  | root {p : Ptr} : (s.mark p = true ∨ 0 < ext p ∨ p ∈ tmp) → Prot ext tmp s p
  | son {p q : Ptr} {i : Nat} {ss : List Ptr} :
      Prot ext tmp s p → s.kind p = .inner i ss → q ∈ ss → Prot ext tmp s q

section
variable {c : Cfg} {ext : Ptr → Nat} {tmp : List Ptr} {s : Mgr}

theorem Inv.tmpUsed (h : Inv c ext tmp s) {p : Ptr} (hp : p ∈ tmp) : s.used p = true :=
  (h.placed p).2 (Or.inr (Or.inl hp))

theorem Inv.tabUsed (h : Inv c ext tmp s) {p i : Ptr} (hi : i < c.n)
    (hp : p ∈ (s.tables i).nodes) : s.used p = true :=
  (h.placed p).2 (Or.inl ⟨i, hi, hp⟩)

theorem Inv.apart (h : Inv c ext tmp s) : Apart c.n s.tables s.free tmp where
  nodup i hi := (h.tabWF i hi).toWFb.nodup_nodes
  cross i hi j hj hij p hp hp' := by
    obtain ⟨_, e⟩ := h.tabKind i hi p hp
    obtain ⟨_, e'⟩ := h.tabKind j hj p hp'
    rw [e] at e'
    cases e'
    exact hij rfl
  free i hi p hp hp' := by
    have h1 := h.tabUsed hi hp
    rw [(h.pool.freeUnused p hp').2] at h1
    cases h1
  tmp i hi p hp hp' := h.tmpDisj p hp' i hi hp

theorem nodup_length_le {l : List Nat} {n : Nat} (hn : l.Nodup) (h : ∀ p ∈ l, p < n) : l.length ≤ n := by
  have hsub : l.Subperm (List.range n) := hn.subperm fun p hp => List.mem_range.2 (h p hp)
  simpa using hsub.length_le

theorem Inv.nodesLen (h : Inv c ext tmp s) {i : Nat} (hi : i < c.n) : (s.tables i).nodes.length ≤ s.next :=
  nodup_length_le (h.tabWF i hi).toWFb.nodup_nodes fun _ hp => h.pool.usedLt _ (h.tabUsed hi hp)

theorem Inv.bucketLen (h : Inv c ext tmp s) {i b : Nat} (hi : i < c.n) (hb : b < (s.tables i).cap) :
    ((s.tables i).buckets b).length ≤ s.next :=
  nodup_length_le ((h.tabWF i hi).nodup b hb) fun _ hp =>
    h.pool.usedLt _ (h.tabUsed hi (Table.mem_nodes_iff.2 ⟨b, hb, hp⟩))

theorem Inv.termUsed (h : Inv c ext tmp s) {p v : Ptr}
    (hp : s.terminals[v]? = some (some p)) : s.used p = true :=
  (h.placed p).2 (Or.inr (Or.inr (Or.inl (List.mem_of_getElem? hp))))

theorem Inv.specUsed (h : Inv c ext tmp s) {p : Ptr}
    (hp : s.special = some p) : s.used p = true :=
  (h.placed p).2 (Or.inr (Or.inr (Or.inr hp)))

theorem Prot.used (h : Inv c ext tmp s) {p : Ptr} (hp : Prot ext tmp s p) : s.used p = true := by
  induction hp with
  | root hr =>
      rcases hr with hr | hr | hr
      · exact h.markUsed _ hr
      · exact h.extUsed _ hr
      · exact h.tmpUsed hr
  | son _ hk hq ih => exact (h.sons _ _ _ ih hk).2.2 _ hq

theorem sonsOf_inner {s : Mgr} {p i : Nat} {ss : List Ptr} (h : s.kind p = .inner i ss) :
    s.sonsOf p = ss := by simp [Mgr.sonsOf, h]

theorem sonsOf_leaf {s : Mgr} {p : Nat} {v : Int} (h : s.kind p = .leaf v) :
    s.sonsOf p = [] := by simp [Mgr.sonsOf, h]

theorem Inv.sonsUsed (h : Inv c ext tmp s) {p : Ptr} (hp : s.used p = true) :
    ∀ q ∈ s.sonsOf p, s.used q = true := by
  intro q hq
  cases hk : s.kind p with
  | leaf v => simp [sonsOf_leaf hk] at hq
  | inner i ss =>
      rw [sonsOf_inner hk] at hq
      exact (h.sons p i ss hp hk).2.2 q hq

theorem sum_two {f g : Nat → Nat} {p : Nat} {S : Finset Nat} (hp : p ∈ S)
    (h : ∀ x, x ≠ p → f x = g x) : ∑ x ∈ S, f x + g p = ∑ x ∈ S, g x + f p := by
  rw [← Finset.add_sum_erase S f hp, ← Finset.add_sum_erase S g hp]
  rw [Finset.sum_congr rfl (fun x hx => h x (Finset.ne_of_mem_erase hx))]
  ring

theorem inDeg_pos_of_son {p q : Ptr} (hu : s.used q = true) (hlt : q < s.next)
    (hp : p ∈ s.sonsOf q) : 0 < s.inDeg p := by
  unfold Mgr.inDeg
  refine Finset.sum_pos' (fun _ _ => Nat.zero_le _) ⟨q, Finset.mem_range.2 hlt, ?_⟩
  simp only [hu, if_true]
  exact List.count_pos_iff.2 hp

theorem count_le_inDeg {p q : Ptr} (hu : s.used q = true) (hlt : q < s.next) :
    (s.sonsOf q).count p ≤ s.inDeg p := by
  unfold Mgr.inDeg
  have := Finset.single_le_sum (f := fun q => if s.used q then (s.sonsOf q).count p else 0)
    (s := Finset.range s.next) (fun _ _ => Nat.zero_le _) (Finset.mem_range.2 hlt)
  simpa [hu] using this

theorem inDeg_pos {p : Ptr} (h : 0 < s.inDeg p) :
    ∃ q, q < s.next ∧ s.used q = true ∧ p ∈ s.sonsOf q := by
  unfold Mgr.inDeg at h
  by_contra hc
  push Not at hc
  have : ∑ q ∈ Finset.range s.next, (if s.used q then (s.sonsOf q).count p else 0) = 0 := by
    refine Finset.sum_eq_zero (fun q hq => ?_)
    split
    · rename_i hu
      exact List.count_eq_zero.2 (hc q (Finset.mem_range.1 hq) hu)
    · rfl
  omega

/-- A node that is neither counted nor marked nor detached is not protected. -/
theorem not_prot (h : Inv c ext tmp s) {p : Ptr} (hu : s.used p = true) (hr : s.refs p = 0)
    (hm : s.mark p = false) (ht : p ∉ tmp) : ¬ Prot ext tmp s p := by
  intro hp
  have e := h.refs p hu
  cases hp with
  | root hroot =>
      rcases hroot with h1 | h1 | h1
      · simp [hm] at h1
      · omega
      · exact ht h1
  | son hq hk hmem =>
      rename_i q i ss
      have uq := hq.used h
      have := inDeg_pos_of_son (p := p) uq (h.pool.usedLt _ uq) (by rw [sonsOf_inner hk]; exact hmem)
      omega

end

end Teddy
