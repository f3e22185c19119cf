import Verif.Proofs.Inv

/-! Garbage collection: it frees exactly the unprotected nodes and keeps the invariant. -/

namespace Teddy

open SM

/-- State after removing node `p` (whose sons lose one reference each). -/
def Mgr.removed (s : Mgr) (p : Ptr) (T : Nat → Table) (Te : List (Option Ptr))
    (Sp : Option Ptr) (Lk : Links) : Mgr :=
  { s with
    refs := fun q => s.refs q - (s.sonsOf p).count q
    tables := T
    terminals := Te
    special := Sp
    nodeCount := s.nodeCount - 1
    used := upd s.used p false
    avail := s.avail + 1
    free := p :: s.free
    link := Lk.setNext p s.free.head? }

section
variable {c : Cfg} {ext : Ptr → Nat} {tmp : List Ptr} {s : Mgr}

theorem inDeg_removed {p q : Ptr} {T Te Sp Lk} (hu : s.used p = true) (hlt : p < s.next) :
    s.inDeg q = (s.removed p T Te Sp Lk).inDeg q + (s.sonsOf p).count q := by
  unfold Mgr.inDeg
  have hso : ∀ r, (s.removed p T Te Sp Lk).sonsOf r = s.sonsOf r := fun _ => rfl
  have hn : (s.removed p T Te Sp Lk).next = s.next := rfl
  simp only [hso, hn]
  have := sum_two (S := Finset.range s.next) (p := p)
    (f := fun r => if s.used r then (s.sonsOf r).count q else 0)
    (g := fun r => if (s.removed p T Te Sp Lk).used r then (s.sonsOf r).count q else 0)
    (Finset.mem_range.2 hlt) (by
      intro x hx
      simp [Mgr.removed, upd_other _ _ hx])
  simpa [Mgr.removed, hu] using this

theorem Inv.removed (h : Inv c ext tmp s) {p : Ptr} (hu : s.used p = true) (hr : s.refs p = 0)
    (hm : s.mark p = false) (ht : p ∉ tmp) {T : Nat → Table} {Te : List (Option Ptr)}
    {Sp : Option Ptr} {Lk : Links}
    (hT : ∀ i, i < c.n → (T i).WF (s.hashOf c) ∧
      ∀ q, q ∈ (T i).nodes ↔ q ∈ (s.tables i).nodes ∧ q ≠ p)
    (hTe : ∀ (v : Nat) q, Te[v]? = some (some q) ↔ s.terminals[v]? = some (some q) ∧ q ≠ p)
    (hSp : ∀ q, Sp = some q ↔ s.special = some q ∧ q ≠ p) (hLk : LinkOK c.n T s.free tmp Lk) :
    Inv c ext tmp (s.removed p T Te Sp Lk) := by
  have hlt := h.pool.usedLt p hu
  have eref := h.refs p hu
  have hext : ext p = 0 := by omega
  have hdeg : s.inDeg p = 0 := by omega
  have noparent : ∀ q, s.used q = true → p ∉ s.sonsOf q := by
    intro q hq hmem
    have := inDeg_pos_of_son hq (h.pool.usedLt q hq) hmem
    omega
  have hTe' : ∀ q, some q ∈ Te ↔ some q ∈ s.terminals ∧ q ≠ p := by
    intro q
    rw [List.mem_iff_getElem?, List.mem_iff_getElem?]
    constructor
    · rintro ⟨v, hv⟩
      exact ⟨⟨v, ((hTe v q).1 hv).1⟩, ((hTe v q).1 hv).2⟩
    · rintro ⟨⟨v, hv⟩, hne⟩
      exact ⟨v, (hTe v q).2 ⟨hv, hne⟩⟩
  have hnf : p ∉ s.free := fun hp => by
    have := (h.pool.freeUnused p hp).2
    simp [hu] at this
  have used' : ∀ q, (s.removed p T Te Sp Lk).used q = true ↔ s.used q = true ∧ q ≠ p := by
    intro q
    simp only [Mgr.removed, upd_apply]
    by_cases e : q = p <;> simp [e]
  refine
    { tabWF := fun i hi => (hT i hi).1
      tabKind := fun i hi q hq => h.tabKind i hi q (((hT i hi).2 q).1 hq).1
      termKind := fun v q hq => h.termKind v q ((hTe v q).1 hq).1
      specKind := fun q hq => h.specKind q ((hSp q).1 hq).1
      tmpInner := h.tmpInner
      tmpDisj := fun q hq i hi hq' => h.tmpDisj q hq i hi (((hT i hi).2 q).1 hq').1
      placed := ?_, sons := ?_, refs := ?_, extUsed := ?_, markUsed := ?_, pool := ?_
      order := ⟨h.order.i2l_lt, h.order.l2i_lt, h.order.l2i2l, h.order.i2l2i⟩
      mem := h.mem, heap := h.heap
      link := hLk.pushed (fun i hi hp => (((hT i hi).2 p).1 hp).2 rfl) hnf ht }
  · intro q
    rw [used' q, h.placed q]
    constructor
    · rintro ⟨h1 | h1 | h1 | h1, hne⟩
      · obtain ⟨i, hi, hq⟩ := h1
        exact Or.inl ⟨i, hi, ((hT i hi).2 q).2 ⟨hq, hne⟩⟩
      · exact Or.inr (Or.inl h1)
      · exact Or.inr (Or.inr (Or.inl ((hTe' q).2 ⟨h1, hne⟩)))
      · exact Or.inr (Or.inr (Or.inr ((hSp q).2 ⟨h1, hne⟩)))
    · rintro (h1 | h1 | h1 | h1)
      · obtain ⟨i, hi, hq⟩ := h1
        have := ((hT i hi).2 q).1 hq
        exact ⟨Or.inl ⟨i, hi, this.1⟩, this.2⟩
      · exact ⟨Or.inr (Or.inl h1), fun e => ht (e ▸ h1)⟩
      · have := (hTe' q).1 h1
        exact ⟨Or.inr (Or.inr (Or.inl this.1)), this.2⟩
      · have := (hSp q).1 h1
        exact ⟨Or.inr (Or.inr (Or.inr this.1)), this.2⟩
  · intro q i ss hq hk
    have hq' := (used' q).1 hq
    have hk' : s.kind q = .inner i ss := hk
    obtain ⟨a, b, d⟩ := h.sons q i ss hq'.1 hk'
    refine ⟨a, b, fun r hr' => (used' r).2 ⟨d r hr', ?_⟩⟩
    rintro rfl
    exact noparent q hq'.1 (by rw [sonsOf_inner hk']; exact hr')
  · intro q hq
    have hq' := (used' q).1 hq
    have e1 := h.refs q hq'.1
    have e2 := inDeg_removed (q := q) (T := T) (Te := Te) (Sp := Sp) (Lk := Lk) hu hlt
    show s.refs q - (s.sonsOf p).count q = _
    omega
  · intro q hq
    refine (used' q).2 ⟨h.extUsed q hq, ?_⟩
    rintro rfl
    omega
  · intro q hq
    have hq2 : s.mark q = true := hq
    refine (used' q).2 ⟨h.markUsed q hq2, ?_⟩
    rintro rfl
    simp [hm] at hq2
  · have P := h.pool
    refine
      { freeNodup := List.nodup_cons.2 ⟨hnf, P.freeNodup⟩, freeUnused := ?_, allFree := ?_
        usedLt := fun q hq => P.usedLt q ((used' q).1 hq).1
        avail_eq := ?_, le := P.le, count := ?_ }
    · intro q hq
      simp only [Mgr.removed, List.mem_cons] at hq
      rcases hq with rfl | hq
      · exact ⟨hlt, by simp [Mgr.removed]⟩
      · obtain ⟨a, b⟩ := P.freeUnused q hq
        refine ⟨a, ?_⟩
        simp only [Mgr.removed, upd_apply]
        split <;> simp [b]
    · intro q hq hq'
      simp only [Mgr.removed, upd_apply, List.mem_cons] at hq' ⊢
      split at hq'
      · left; assumption
      · right; exact P.allFree q hq hq'
    · have := P.avail_eq
      show s.avail + 1 = (p :: s.free).length + (s.poolEnd - s.next)
      simp only [List.length_cons]
      omega
    · have h2 := P.count
      have h3 : 0 < s.nodeCount := by
        by_contra h0
        -- all nodes below `next` would be free, but `p` is used
        have hlen : s.free.length = s.next := by omega
        have hsub : s.free.Subperm (List.range s.next) :=
          (List.subperm_of_subset P.freeNodup (fun q hq => List.mem_range.2 (P.freeUnused q hq).1))
        have hperm := hsub.perm_of_length_le (by simp [hlen])
        exact hnf (hperm.mem_iff.2 (List.mem_range.2 hlt))
      show s.nodeCount - 1 + (p :: s.free).length = s.next
      simp only [List.length_cons]
      omega

/-- What garbage collection may change. -/
structure GcRel (ext : Ptr → Nat) (tmp : List Ptr) (s s' : Mgr) : Prop where
  kind : s'.kind = s.kind
  mark : s'.mark = s.mark
  data : s'.data = s.data
  i2l : s'.idx2lvl = s.idx2lvl
  l2i : s'.lvl2idx = s.lvl2idx
  cache : s'.cache = s.cache
  gcRatio : s'.gcRatio = s.gcRatio
  cacheRatio : s'.cacheRatio = s.cacheRatio
  adj : s'.adjCount = s.adjCount
  auto : s'.autoReorder = s.autoReorder
  deferred : s'.deferred = s.deferred
  next : s'.next = s.next
  poolEnd : s'.poolEnd = s.poolEnd
  cap : ∀ i, (s'.tables i).cap = (s.tables i).cap
  termLen : s'.terminals.length = s.terminals.length
  usedSub : ∀ p, s'.used p = true → s.used p = true
  prot : ∀ p, Prot ext tmp s p → Prot ext tmp s' p

theorem GcRel.refl (s : Mgr) : GcRel ext tmp s s := by
  constructor <;> first | rfl | exact fun _ => rfl | exact fun _ h => h

theorem GcRel.trans {s1 s2 s3 : Mgr} (a : GcRel ext tmp s1 s2) (b : GcRel ext tmp s2 s3) :
    GcRel ext tmp s1 s3 where
  kind := b.kind.trans a.kind
  mark := b.mark.trans a.mark
  data := b.data.trans a.data
  i2l := b.i2l.trans a.i2l
  l2i := b.l2i.trans a.l2i
  cache := b.cache.trans a.cache
  gcRatio := b.gcRatio.trans a.gcRatio
  cacheRatio := b.cacheRatio.trans a.cacheRatio
  adj := b.adj.trans a.adj
  auto := b.auto.trans a.auto
  deferred := b.deferred.trans a.deferred
  next := b.next.trans a.next
  poolEnd := b.poolEnd.trans a.poolEnd
  cap i := (b.cap i).trans (a.cap i)
  termLen := b.termLen.trans a.termLen
  usedSub p h := a.usedSub p (b.usedSub p h)
  prot p h := b.prot p (a.prot p h)

/-- Protection only depends on marks and kinds. -/
theorem Prot.of_same {s s' : Mgr} (hk : s'.kind = s.kind) (hm : s'.mark = s.mark) {p : Ptr}
    (h : Prot ext tmp s p) : Prot ext tmp s' p := by
  induction h with
  | root hr => exact .root (by rwa [hm])
  | son _ hk' hq ih => exact .son ih (by rw [hk]; exact hk') hq

theorem GcRel.sonsOf {s' : Mgr} (g : GcRel ext tmp s s') : s'.sonsOf = s.sonsOf := by
  funext p; simp [Mgr.sonsOf, g.kind]

theorem GcRel.levelOf {s' : Mgr} (g : GcRel ext tmp s s') (p : Ptr) :
    s'.levelOf c p = s.levelOf c p := by
  simp [Mgr.levelOf, g.kind, g.i2l]

/-- Removal is a legal collection step. -/
theorem GcRel.removed {p : Ptr} {T Te Sp Lk} (hc : ∀ i, (T i).cap = (s.tables i).cap)
    (hl : Te.length = s.terminals.length) : GcRel ext tmp s (s.removed p T Te Sp Lk) := by
  refine { kind := rfl, mark := rfl, data := rfl, i2l := rfl, l2i := rfl, cache := rfl
           gcRatio := rfl, cacheRatio := rfl, adj := rfl, auto := rfl, deferred := rfl, next := rfl
           poolEnd := rfl, cap := hc, termLen := hl, usedSub := ?_, prot := ?_ }
  · intro q hq
    simp only [Mgr.removed, upd_apply] at hq
    split at hq
    · cases hq
    · exact hq
  · intro q hq
    exact Prot.of_same (s := s) (s' := s.removed p T Te Sp Lk) rfl rfl hq

/-- Run of `collectNode` on a node that is kept. -/
theorem collectNode_keep {i b p : Nat} (hu : s.used p = true) (hc : s.canBeGced p = false) :
    collectNode i b p s = .ok ((), s) := by
  simp [collectNode, bind_run, chkUsed_ok hu, hc]

/-- Run of `collectNode` on a node that is removed. -/
theorem collectNode_del (h : Inv c ext tmp s) {i b p : Nat} (hu : s.used p = true)
    (hc : s.canBeGced p = true) {Lk : Links} (he : s.link.erase (s.next + 1) i b p = .ok Lk) :
    collectNode i b p s
      = .ok ((), s.removed p (upd s.tables i ((s.tables i).remove b p)) s.terminals s.special Lk) := by
  have hm : s.mark p = false := by
    simp [Mgr.canBeGced] at hc; exact hc.2
  have hd := decRef_all (l := s.sonsOf p) (s := s) (h.sonsUsed hu) (by
    intro q
    by_cases hq : q ∈ s.sonsOf p
    · have := h.refs q (h.sonsUsed hu q hq)
      have := count_le_inDeg (p := q) hu (h.pool.usedLt p hu)
      omega
    · rw [List.count_eq_zero.2 hq]; omega)
  simp only [collectNode, bind_run, chkUsed_ok hu, get_run, hc, if_true, hd]
  simp only [eraseBucket, onLinks, bind_run, get_run, he, set_run, modify_run]
  simp only [deleteNode, chkUsed, bind_run, get_run, hu, if_true]
  simp [hm, bind_run, poolDestroy, Mgr.removed]

theorem canBeGced_iff {p : Ptr} : s.canBeGced p = true ↔ s.refs p = 0 ∧ s.mark p = false := by
  simp [Mgr.canBeGced]

/-- One node of the sweep. -/
theorem collectNode_spec (h : Inv c ext tmp s) {i b p : Nat} (hi : i < c.n)
    (hb : b < (s.tables i).cap) (hp : p ∈ (s.tables i).buckets b) :
    Ok (collectNode i b p) s (fun _ s' => Inv c ext tmp s' ∧ GcRel ext tmp s s' ∧
      (∀ q, q ∈ (s'.tables i).buckets b ↔ q ∈ (s.tables i).buckets b ∧ (q = p → s'.used q = true)) ∧
      ((s'.tables i).buckets b = (s.tables i).buckets b ∨
        (s'.tables i).buckets b = ((s.tables i).buckets b).erase p) ∧
      (∀ d, d ≠ b → (s'.tables i).buckets d = (s.tables i).buckets d) ∧
      (∀ j, j ≠ i → s'.tables j = s.tables j) ∧
      (∀ q, q ≠ p → s'.used q = s.used q) ∧
      (s'.used p = true → s'.canBeGced p = false) ∧
      (∀ q, q ∉ s.sonsOf p → s'.refs q = s.refs q) ∧
      s'.terminals = s.terminals ∧ s'.special = s.special) := by
  have hpn : p ∈ (s.tables i).nodes := Table.mem_nodes_iff.2 ⟨b, hb, hp⟩
  have hu := h.tabUsed hi hpn
  by_cases hc : s.canBeGced p = true
  · obtain ⟨hr, hm⟩ := canBeGced_iff.1 hc
    obtain ⟨t', w', perm, hcap, hoth, hbk, rfl⟩ := Table.remove_ok (h.tabWF i hi) hb hp
    obtain ⟨Lk, he, hLk⟩ := h.link.erased h.apart hi hb hp (Nat.le_succ_of_le (h.bucketLen hi hb))
    have hnd : (s.tables i).nodes.Nodup := (h.tabWF i hi).nodup_nodes
    have hpt : p ∉ tmp := fun ht => h.tmpDisj p ht i hi hpn
    obtain ⟨ss, hk⟩ := h.tabKind i hi p hpn
    refine Ok.of_eq (collectNode_del h hu hc he) ⟨?_, ?_, ?_, ?_, ?_, ?_, ?_, ?_, ?_, rfl, rfl⟩
    · refine h.removed hu hr hm hpt ?_ ?_ ?_ hLk
      · intro j hj
        by_cases e : j = i
        · subst e
          simp only [upd_same]
          refine ⟨w', fun q => ?_⟩
          have hn2 : (p :: ((s.tables j).remove b p).nodes).Nodup := (perm.nodup_iff).1 hnd
          have hm1 : q ∈ (s.tables j).nodes ↔ q = p ∨ q ∈ ((s.tables j).remove b p).nodes := by
            rw [perm.mem_iff, List.mem_cons]
          rw [hm1]
          constructor
          · intro hq
            refine ⟨Or.inr hq, ?_⟩
            rintro rfl
            exact (List.nodup_cons.1 hn2).1 hq
          · rintro ⟨rfl | hq, hne⟩
            · exact absurd rfl hne
            · exact hq
        · rw [upd_other _ _ e]
          refine ⟨h.tabWF j hj, fun q => ⟨fun hq => ⟨hq, ?_⟩, fun hq => hq.1⟩⟩
          rintro rfl
          obtain ⟨ss', hk'⟩ := h.tabKind j hj q hq
          rw [hk] at hk'
          cases hk'
          exact e rfl
      · intro v q
        refine ⟨fun hq => ⟨hq, ?_⟩, fun hq => hq.1⟩
        rintro rfl
        have := (h.termKind v q hq).1
        rw [hk] at this
        cases this
      · intro q
        refine ⟨fun hq => ⟨hq, ?_⟩, fun hq => hq.1⟩
        rintro rfl
        have := h.specKind q hq
        rw [hk] at this
        cases this
    · refine GcRel.removed ?_ rfl
      intro j
      simp only [upd_apply]
      split
      · rename_i e; subst e; exact hcap
      · rfl
    · intro q
      simp only [Mgr.removed, upd_same, hbk]
      rw [((h.tabWF i hi).nodup b hb).mem_erase_iff]
      constructor
      · rintro ⟨h1, h2⟩
        exact ⟨h2, fun e => absurd e h1⟩
      · rintro ⟨h1, h2⟩
        refine ⟨?_, h1⟩
        rintro rfl
        simpa using h2 rfl
    · right
      simp only [Mgr.removed, upd_same, hbk]
    · intro d hd
      simp only [Mgr.removed, upd_same]
      exact hoth d hd
    · intro j hj
      simp [Mgr.removed, upd_other _ _ hj]
    · intro q hq
      simp [Mgr.removed, upd_other _ _ hq]
    · intro hup
      simp [Mgr.removed] at hup
    · intro q hq
      simp [Mgr.removed, List.count_eq_zero.2 hq]
  · have hc' : s.canBeGced p = false := by simpa using hc
    refine Ok.of_eq (collectNode_keep hu hc') ⟨h, GcRel.refl s, ?_, Or.inl rfl, ?_, ?_, ?_, ?_, ?_, rfl, rfl⟩
    · intro q
      exact ⟨fun hq => ⟨hq, fun e => e ▸ hu⟩, fun hq => hq.1⟩
    · intros; rfl
    · intros; rfl
    · intros; rfl
    · intro _; exact hc'
    · intros; rfl

/-- Effect of sweeping (part of) the table of variable `i`. -/
structure SweepRel (c : Cfg) (ext : Ptr → Nat) (tmp : List Ptr) (i : Nat) (s s' : Mgr) : Prop where
  inv : Inv c ext tmp s'
  gc : GcRel ext tmp s s'
  other : ∀ j, j ≠ i → s'.tables j = s.tables j
  terminals : s'.terminals = s.terminals
  special : s'.special = s.special
  sub : ∀ q, q ∈ (s'.tables i).nodes → q ∈ (s.tables i).nodes
  refs : ∀ q, (∀ p ∈ (s.tables i).nodes, q ∉ s.sonsOf p) → s'.refs q = s.refs q

theorem SweepRel.refl {i : Nat} (h : Inv c ext tmp s) : SweepRel c ext tmp i s s :=
  ⟨h, GcRel.refl s, fun _ _ => rfl, rfl, rfl, fun _ h => h, fun _ _ => rfl⟩

/-- No node of the table of `i` is a son of another one. -/
def NoSelf (i : Nat) (s : Mgr) : Prop :=
  ∀ p ∈ (s.tables i).nodes, ∀ q ∈ (s.tables i).nodes, q ∉ s.sonsOf p

theorem sweepBucket {i b : Nat} {s0 : Mgr} (hi : i < c.n) (hb : b < (s0.tables i).cap)
    (todo : Ptr → Prop) :
    ∀ (l : List Ptr) (fuel : Nat) (s : Mgr), l.length < fuel → SweepRel c ext tmp i s0 s →
      (∃ pre, (s.tables i).buckets b = pre ++ l) →
      (NoSelf i s0 → ∀ q ∈ (s.tables i).nodes, q ∉ l → ¬ todo q → s.canBeGced q = false) →
      Ok (sweepChain i b fuel l.head?) s (fun _ s' => SweepRel c ext tmp i s0 s' ∧
        (∀ d, d ≠ b → (s'.tables i).buckets d = (s.tables i).buckets d) ∧
        (∀ q, q ∈ (s'.tables i).buckets b → q ∈ (s.tables i).buckets b) ∧
        (NoSelf i s0 → ∀ q ∈ (s'.tables i).nodes, ¬ todo q → s'.canBeGced q = false)) := by
  intro l
  induction l with
  | nil =>
      intro fuel s hf hs _ hd
      cases fuel with
      | zero => simp at hf
      | succ f =>
      exact Ok.pure ⟨hs, fun _ _ => rfl, fun _ h => h, fun hn q hq ht => hd hn q hq (by simp) ht⟩
  | cons p l ih =>
      intro fuel s hf hs hl hd
      cases fuel with
      | zero => simp at hf
      | succ f =>
      have hb' : b < (s.tables i).cap := by rw [hs.gc.cap i]; exact hb
      obtain ⟨pre, hl⟩ := hl
      have hp : p ∈ (s.tables i).buckets b := by rw [hl]; simp
      have hnd := (hs.inv.tabWF i hi).nodup b hb'
      rw [hl, List.nodup_append] at hnd
      obtain ⟨_, hnd, hpre⟩ := hnd
      have hnx : s.link.next p = l.head? := by
        have h1 := hs.inv.link.tab i hi b hb'
        rw [hl] at h1
        exact h1.suffix.2.head
      simp only [List.head?_cons, sweepChain]
      refine Ok.bindGet ?_
      rw [hnx]
      refine Ok.bind (collectNode_spec hs.inv hi hb' hp) ?_
      rintro ⟨⟩ s1 ⟨h1, g1, hbk, hbe, hoth, htab, hused, hpg, href, hte, hsp⟩
      have hcap1 : (s1.tables i).cap = (s.tables i).cap := g1.cap i
      have sub1 : ∀ q, q ∈ (s1.tables i).nodes → q ∈ (s.tables i).nodes := by
        intro q hq
        obtain ⟨d, hd1, hd2⟩ := Table.mem_nodes_iff.1 hq
        by_cases e : d = b
        · subst e
          exact Table.mem_nodes_iff.2 ⟨d, hcap1 ▸ hd1, ((hbk q).1 hd2).1⟩
        · rw [hoth d e] at hd2
          exact Table.mem_nodes_iff.2 ⟨d, hcap1 ▸ hd1, hd2⟩
      have hpn : p ∈ (s.tables i).nodes := Table.mem_nodes_iff.2 ⟨b, hb', hp⟩
      have hs1 : SweepRel c ext tmp i s0 s1 :=
        { inv := h1
          gc := hs.gc.trans g1
          other := fun j hj => (htab j hj).trans (hs.other j hj)
          terminals := hte.trans hs.terminals
          special := hsp.trans hs.special
          sub := fun q hq => hs.sub q (sub1 q hq)
          refs := fun q hq => by
            rw [href q ?_, hs.refs q hq]
            have := hq p (hs.sub p hpn)
            rwa [hs.gc.sonsOf] }
      rw [List.nodup_cons] at hnd
      refine (ih f s1 (by simpa using hf) hs1 ?_ ?_).mono ?_
      · rcases hbe with e | e
        · exact ⟨pre ++ [p], by rw [e, hl]; simp⟩
        · refine ⟨pre, ?_⟩
          rw [e, hl, List.erase_append_right _ (fun hm => hpre p hm p (by simp) rfl), List.erase_cons_head]
      · intro hn q hq hql ht
        by_cases e : q = p
        · subst e
          exact hpg (h1.tabUsed hi hq)
        · have hqs := sub1 q hq
          have := hd hn q hqs (by simp [e, hql]) ht
          have hr : s1.refs q = s.refs q := href q (by
            have := hn p (hs.sub p hpn) q (hs.sub q hqs)
            rwa [hs.gc.sonsOf])
          simpa [Mgr.canBeGced, hr, g1.mark] using this
      · rintro ⟨⟩ s2 ⟨a, b1, c1, d1⟩
        refine ⟨a, fun d hd' => (b1 d hd').trans (hoth d hd'), fun q hq => ?_, d1⟩
        exact ((hbk q).1 (c1 q hq)).1

theorem collectTable_spec {i : Nat} (h : Inv c ext tmp s) (hi : i < c.n) :
    Ok (collectTable i) s (fun _ s' => SweepRel c ext tmp i s s' ∧
      (NoSelf i s → ∀ q ∈ (s'.tables i).nodes, s'.canBeGced q = false)) := by
  unfold collectTable
  refine Ok.bindGet ?_
  have key := forL_rule (f := fun b => do
      let s ← get
      sweepChain i b (s.next + 1) (s.link.head i b))
    (I := fun bs s' => SweepRel c ext tmp i s s' ∧ bs.Nodup ∧ (∀ b ∈ bs, b < (s.tables i).cap) ∧
      (NoSelf i s → ∀ q ∈ (s'.tables i).nodes, (∀ b ∈ bs, q ∉ (s'.tables i).buckets b) →
        s'.canBeGced q = false)) ?_ (List.range (s.tables i).cap) s
      ⟨SweepRel.refl h, List.nodup_range, by simp, ?_⟩
  · refine key.mono ?_
    rintro ⟨⟩ s' ⟨a, _, _, d⟩
    exact ⟨a, fun hn q hq => d hn q hq (by simp)⟩
  · rintro b bs s1 ⟨hs, hnd, hlt, hd⟩
    rw [List.nodup_cons] at hnd
    refine Ok.bindGet ?_
    have hb := hlt b (by simp)
    have hb1 : b < (s1.tables i).cap := by rw [hs.gc.cap i]; exact hb
    rw [(hs.inv.link.tab i hi b hb1).head]
    refine (sweepBucket hi hb (fun q => ∃ d ∈ bs, q ∈ (s1.tables i).buckets d)
      ((s1.tables i).buckets b) (s1.next + 1) s1 (Nat.lt_succ_of_le (hs.inv.bucketLen hi hb1)) hs ⟨[], rfl⟩ ?_).mono ?_
    · intro hn q hq hqb ht
      refine hd hn q hq ?_
      intro d hd' hq'
      rcases List.mem_cons.1 hd' with rfl | hd'
      · exact hqb hq'
      · exact ht ⟨d, hd', hq'⟩
    · rintro ⟨⟩ s2 ⟨a, b2, _, d2⟩
      refine ⟨a, hnd.2, fun d hd' => hlt d (by simp [hd']), ?_⟩
      intro hn q hq hqb
      refine d2 hn q hq ?_
      rintro ⟨d, hd', hq'⟩
      have hne : d ≠ b := by rintro rfl; exact hnd.1 hd'
      exact hqb d hd' (by rw [b2 d hne]; exact hq')
  · intro _ q hq hqb
    obtain ⟨d, hd1, hd2⟩ := Table.mem_nodes_iff.1 hq
    exact absurd hd2 (hqb d (List.mem_range.2 hd1))

/-- A terminal (no sons) is removed. -/
theorem removed_leaf {p : Ptr} {v : Int} (hk : s.kind p = .leaf v) {T Te Sp Lk} :
    s.removed p T Te Sp Lk =
      { s with tables := T, terminals := Te, special := Sp, nodeCount := s.nodeCount - 1,
               used := upd s.used p false, avail := s.avail + 1, free := p :: s.free
               link := Lk.setNext p s.free.head? } := by
  simp [Mgr.removed, sonsOf_leaf hk]

/-- Relation for the terminal part of the sweep. -/
structure TermRel (c : Cfg) (ext : Ptr → Nat) (tmp : List Ptr) (s s' : Mgr) : Prop where
  inv : Inv c ext tmp s'
  gc : GcRel ext tmp s s'
  refs : s'.refs = s.refs
  tables : s'.tables = s.tables
  len : s'.terminals.length = s.terminals.length
  sub : ∀ (v : Nat) q, s'.terminals[v]? = some (some q) → s.terminals[v]? = some (some q)

theorem TermRel.refl (h : Inv c ext tmp s) : TermRel c ext tmp s s :=
  ⟨h, GcRel.refl s, rfl, rfl, rfl, fun _ _ h => h⟩

theorem TermRel.trans {s1 s2 s3 : Mgr} (a : TermRel c ext tmp s1 s2)
    (b : TermRel c ext tmp s2 s3) : TermRel c ext tmp s1 s3 :=
  ⟨b.inv, a.gc.trans b.gc, b.refs.trans a.refs, b.tables.trans a.tables, b.len.trans a.len,
    fun v q h => a.sub v q (b.sub v q h)⟩

theorem collectTerminal_spec (h : Inv c ext tmp s) (v : Nat) :
    Ok (collectTerminal v) s (fun _ s' => TermRel c ext tmp s s' ∧ s'.special = s.special ∧
      (∀ q, s'.terminals[v]? = some (some q) → s'.canBeGced q = false)) := by
  unfold collectTerminal
  refine Ok.bindGet ?_
  split
  · rename_i p hp
    have hu := h.termUsed hp
    have hk := (h.termKind v p hp).1
    refine Ok.bindEq (chkUsed_ok hu) ?_
    split
    · rename_i hc
      obtain ⟨hr, hm⟩ := canBeGced_iff.1 hc
      have e : (do
          deleteNode p
          modify fun s => { s with terminals := s.terminals.set v none } : M Unit) s
          = .ok ((), s.removed p s.tables (s.terminals.set v none) s.special s.link) := by
        rw [removed_leaf hk]
        simp [deleteNode, chkUsed, bind_run, hm, hu, poolDestroy]
      have hset : ∀ (w : Nat) q, (s.terminals.set v none)[w]? = some (some q) ↔
          s.terminals[w]? = some (some q) ∧ q ≠ p := by
        intro w q
        rw [List.getElem?_set]
        constructor
        · intro hq
          split at hq
          · split at hq <;> simp at hq
          · rename_i hne
            refine ⟨hq, ?_⟩
            rintro rfl
            have h1 := (h.termKind w q hq).1
            rw [hk] at h1
            simp only [Kind.leaf.injEq] at h1
            omega
        · rintro ⟨hq, hne⟩
          split
          · rename_i hvw
            subst hvw
            rw [hp] at hq
            simp at hq
            exact absurd hq.symm hne
          · exact hq
      refine Ok.of_eq e ⟨⟨?_, ?_, ?_, rfl, ?_, ?_⟩, rfl, ?_⟩
      · refine h.removed hu hr hm ?_ ?_ hset ?_ h.link
        · intro ht
          obtain ⟨i, ss, hk'⟩ := h.tmpInner p ht
          rw [hk] at hk'; cases hk'
        · intro j hj
          refine ⟨h.tabWF j hj, fun q => ⟨fun hq => ⟨hq, ?_⟩, fun hq => hq.1⟩⟩
          rintro rfl
          obtain ⟨ss', hk'⟩ := h.tabKind j hj q hq
          rw [hk] at hk'; cases hk'
        · intro q
          refine ⟨fun hq => ⟨hq, ?_⟩, fun hq => hq.1⟩
          rintro rfl
          have h1 := h.specKind q hq
          rw [hk] at h1
          simp only [Kind.leaf.injEq] at h1
          exact (h.termKind v q hp).2 h1
      · exact GcRel.removed (fun _ => rfl) (by simp)
      · rw [removed_leaf hk]
      · simp [Mgr.removed]
      · intro w q hq
        exact ((hset w q).1 hq).1
      · intro q hq
        have := ((hset v q).1 hq)
        rw [hp] at this
        simp at this
        exact absurd this.1.symm this.2
    · rename_i hc
      refine Ok.pure ⟨TermRel.refl h, rfl, ?_⟩
      intro q hq
      rw [hp] at hq
      simp at hq
      subst hq
      simpa using hc
  · rename_i hno
    refine Ok.pure ⟨TermRel.refl h, rfl, ?_⟩
    intro q hq
    exact absurd hq (hno q)

theorem collectSpecial_spec (h : Inv c ext tmp s) :
    Ok collectSpecial s (fun _ s' => TermRel c ext tmp s s' ∧ s'.terminals = s.terminals ∧
      (∀ q, s'.special = some q → s'.canBeGced q = false)) := by
  unfold collectSpecial
  refine Ok.bindGet ?_
  split
  · rename_i p hp
    have hu := h.specUsed hp
    have hk := h.specKind p hp
    refine Ok.bindEq (chkUsed_ok hu) ?_
    split
    · rename_i hc
      obtain ⟨hr, hm⟩ := canBeGced_iff.1 hc
      have e : (do
          deleteNode p
          modify fun s => { s with special := none } : M Unit) s
          = .ok ((), s.removed p s.tables s.terminals none s.link) := by
        rw [removed_leaf hk]
        simp [deleteNode, chkUsed, bind_run, hm, hu, poolDestroy]
      refine Ok.of_eq e ⟨⟨?_, ?_, ?_, rfl, rfl, fun _ _ h => h⟩, rfl, ?_⟩
      · refine h.removed hu hr hm ?_ ?_ ?_ ?_ h.link
        · intro ht
          obtain ⟨i, ss, hk'⟩ := h.tmpInner p ht
          rw [hk] at hk'; cases hk'
        · intro j hj
          refine ⟨h.tabWF j hj, fun q => ⟨fun hq => ⟨hq, ?_⟩, fun hq => hq.1⟩⟩
          rintro rfl
          obtain ⟨ss', hk'⟩ := h.tabKind j hj q hq
          rw [hk] at hk'; cases hk'
        · intro w q
          refine ⟨fun hq => ⟨hq, ?_⟩, fun hq => hq.1⟩
          rintro rfl
          have h1 := h.termKind w q hq
          rw [hk] at h1
          simp only [Kind.leaf.injEq] at h1
          exact h1.2 h1.1.symm
        · intro q
          rw [hp]
          simp
          intro e; exact e.symm
      · exact GcRel.removed (fun _ => rfl) (by simp)
      · rw [removed_leaf hk]
      · intro q hq
        simp [Mgr.removed] at hq
    · rename_i hc
      refine Ok.pure ⟨TermRel.refl h, rfl, ?_⟩
      intro q hq
      rw [hp] at hq
      cases hq
      simpa using hc
  · rename_i hno
    refine Ok.pure ⟨TermRel.refl h, rfl, ?_⟩
    intro q hq
    rw [hno] at hq
    cases hq

/-- A swept state in which every node that remains has a reason to stay is fully protected. -/
theorem prot_of_kept (h : Inv c ext tmp s) (ho : Ordered c s)
    (hk : ∀ p, s.used p = true → s.canBeGced p = false) :
    ∀ p, s.used p = true → Prot ext tmp s p := by
  have key : ∀ n p, s.levelOf c p = n → s.used p = true → Prot ext tmp s p := by
    intro n
    induction n using Nat.strong_induction_on with
    | _ n ih =>
        intro p hl hu
        have hc := hk p hu
        have e := h.refs p hu
        by_cases hm : s.mark p = true
        · exact .root (Or.inl hm)
        · by_cases he : 0 < ext p
          · exact .root (Or.inr (Or.inl he))
          · have : 0 < s.inDeg p := by
              have : s.refs p ≠ 0 := by
                intro h0
                have := canBeGced_iff.2 ⟨h0, by simpa using hm⟩
                rw [hc] at this; cases this
              omega
            obtain ⟨q, _, hq, hpq⟩ := inDeg_pos this
            cases hkq : s.kind q with
            | leaf v => simp [sonsOf_leaf hkq] at hpq
            | inner i ss =>
                rw [sonsOf_inner hkq] at hpq
                have hlt := ho q i ss p hq hkq hpq
                exact .son (ih _ (hl ▸ hlt) q rfl hq) hkq hpq
  exact fun p hu => key _ p rfl hu

theorem Ordered.of_gc {s' : Mgr} (ho : Ordered c s) (g : GcRel ext tmp s s') : Ordered c s' := by
  intro p i ss q hu hk hq
  rw [g.levelOf, g.levelOf]
  exact ho p i ss q (g.usedSub p hu) (by rw [← g.kind]; exact hk) hq

/-- `collect_garbage`. -/
theorem collectGarbage_spec (h : Inv c ext tmp s) :
    Ok (collectGarbage c) s (fun _ s' => Inv c ext tmp s' ∧ GcRel ext tmp s s' ∧
      (Ordered c s → tmp = [] → ∀ p, s'.used p = true → Prot ext tmp s' p)) := by
  unfold collectGarbage
  -- the unique tables, level by level
  have key := forL_rule (f := fun level => do
      let s ← get
      collectTable (s.lvl2idx level))
    (I := fun ls (s' : Mgr) => ∃ L, ls = List.range' L (c.n - L) ∧ L ≤ c.n ∧
      Inv c ext tmp s' ∧ GcRel ext tmp s s' ∧
      s'.terminals = s.terminals ∧ s'.special = s.special ∧
      (Ordered c s → ∀ i, i < c.n → s.idx2lvl i < L → ∀ p ∈ (s'.tables i).nodes,
        s'.canBeGced p = false)) ?_ (List.range c.n) s
      ⟨0, by simp [List.range_eq_range'], by omega, h, GcRel.refl s, rfl, rfl, by
        intro _ i _ hlt; omega⟩
  · refine Ok.bind key ?_
    rintro ⟨⟩ s1 ⟨L, hL, hLn, h1, g1, hte1, hsp1, hg1⟩
    have hLe : L = c.n := by
      have := congrArg List.length hL
      simp at this
      omega
    subst hLe
    refine Ok.bindGet ?_
    -- the terminals
    have key2 := forL_rule (f := collectTerminal)
      (I := fun vs (s' : Mgr) => ∃ V, vs = List.range' V (s1.terminals.length - V) ∧
        V ≤ s1.terminals.length ∧ TermRel c ext tmp s1 s' ∧ s'.special = s1.special ∧
        (∀ v, v < V → ∀ q, s'.terminals[v]? = some (some q) → s'.canBeGced q = false)) ?_
        (List.range s1.terminals.length) s1
        ⟨0, by simp [List.range_eq_range'], by omega, TermRel.refl h1, rfl, by
          intro v hv; omega⟩
    · refine Ok.bind key2 ?_
      rintro ⟨⟩ s2 ⟨V, hV, hVn, t2, hsp2, hg2⟩
      have hVe : V = s1.terminals.length := by
        have := congrArg List.length hV
        simp at this
        omega
      subst hVe
      refine (collectSpecial_spec t2.inv).mono ?_
      rintro ⟨⟩ s3 ⟨t3, hte3, hg3⟩
      have t13 := t2.trans t3
      refine ⟨t3.inv, g1.trans t13.gc, ?_⟩
      intro ho htmp
      subst htmp
      have ho3 : Ordered c s3 := ho.of_gc (g1.trans t13.gc)
      refine prot_of_kept t3.inv ho3 ?_
      intro p hu
      rcases (t3.inv.placed p).1 hu with ⟨i, hi, hp⟩ | hp | hp | hp
      · have hp1 : p ∈ (s1.tables i).nodes := by rw [← t13.tables]; exact hp
        have := hg1 ho i hi (h.order.i2l_lt i hi) p hp1
        simpa [Mgr.canBeGced, t13.refs, t13.gc.mark] using this
      · simp at hp
      · obtain ⟨v, hv⟩ := List.mem_iff_getElem?.1 hp
        rw [hte3] at hv
        have hlt : v < s1.terminals.length := by
          rw [← t2.len]
          by_contra hge
          rw [List.getElem?_eq_none (by omega)] at hv
          cases hv
        have := hg2 v hlt p hv
        simpa [Mgr.canBeGced, t3.refs, t3.gc.mark] using this
      · exact hg3 p hp
    · rintro v vs s2 ⟨V, hV, hVn, t2, hsp2, hg2⟩
      have hlt : V < s1.terminals.length := by
        by_contra hge
        rw [Nat.sub_eq_zero_of_le (by omega)] at hV
        simp at hV
      obtain ⟨k, hk⟩ : ∃ k, s1.terminals.length - V = k + 1 := ⟨s1.terminals.length - V - 1, by omega⟩
      rw [hk, List.range'_succ] at hV
      simp only [List.cons.injEq] at hV
      obtain ⟨rfl, rfl⟩ := hV
      refine (collectTerminal_spec t2.inv v).mono ?_
      rintro ⟨⟩ s3 ⟨t3, hsp3, hg3⟩
      refine ⟨v + 1, by congr 1; omega, hlt, t2.trans t3, hsp3.trans hsp2, ?_⟩
      intro w hw q hq
      by_cases e : w = v
      · subst e; exact hg3 q hq
      · have := hg2 w (by omega) q (t3.sub w q hq)
        simpa [Mgr.canBeGced, t3.refs, t3.gc.mark] using this
  · rintro level ls s1 ⟨L, hL, hLn, h1, g1, hte1, hsp1, hg1⟩
    have hlt : L < c.n := by
      by_contra hge
      rw [Nat.sub_eq_zero_of_le (by omega)] at hL
      simp at hL
    obtain ⟨k, hk⟩ : ∃ k, c.n - L = k + 1 := ⟨c.n - L - 1, by omega⟩
    rw [hk, List.range'_succ] at hL
    simp only [List.cons.injEq] at hL
    obtain ⟨rfl, rfl⟩ := hL
    refine Ok.bindGet ?_
    have hi : s1.lvl2idx level < c.n := by rw [g1.l2i]; exact h.order.l2i_lt level hlt
    refine (collectTable_spec h1 hi).mono ?_
    rintro ⟨⟩ s2 ⟨sw, hg2⟩
    refine ⟨level + 1, by congr 1; omega, hlt, sw.inv, g1.trans sw.gc,
      sw.terminals.trans hte1, sw.special.trans hsp1, ?_⟩
    intro ho i hi' hil p hp
    have hsame : s1.idx2lvl = s.idx2lvl := g1.i2l
    have ho1 : Ordered c s1 := ho.of_gc g1
    have lev : ∀ j q, j < c.n → q ∈ (s1.tables j).nodes → s1.levelOf c q = s.idx2lvl j := by
      intro j q hj hq
      obtain ⟨ss, hkq⟩ := h1.tabKind j hj q hq
      simp [Mgr.levelOf, hkq, hsame]
    have levi : s.idx2lvl (s1.lvl2idx level) = level := by
      rw [g1.l2i]; exact h.order.l2i2l level hlt
    have nos : ∀ r ∈ (s1.tables (s1.lvl2idx level)).nodes, ∀ q, s1.levelOf c q ≤ level →
        q ∉ s1.sonsOf r := by
      intro r hr q hq hmem
      obtain ⟨ss, hkr⟩ := h1.tabKind _ hi r hr
      rw [sonsOf_inner hkr] at hmem
      have := ho1 r _ ss q (h1.tabUsed hi hr) hkr hmem
      rw [lev _ r hi hr, levi] at this
      omega
    by_cases e : i = s1.lvl2idx level
    · subst e
      refine hg2 ?_ p hp
      intro r hr q hq
      refine nos r hr q ?_
      rw [lev _ q hi hq, levi]
    · have hp1 : p ∈ (s1.tables i).nodes := by rw [← sw.other i e]; exact hp
      have hil' : s.idx2lvl i < level := by
        have : s.idx2lvl i ≠ level := by
          intro e2
          apply e
          have := h.order.i2l2i i hi'
          rw [e2] at this
          rw [g1.l2i]; exact this.symm
        omega
      have hgc := hg1 ho i hi' hil' p hp1
      have hr : s2.refs p = s1.refs p := sw.refs p (fun r hr => nos r hr p (by
        rw [lev i p hi' hp1]; omega))
      simpa [Mgr.canBeGced, hr, sw.gc.mark] using hgc

end

end Teddy
