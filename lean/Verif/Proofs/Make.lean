import Verif.Proofs.Sem

/-! Creating nodes: `make_new_node`, `make_terminal_node`, `make_internal_node`. -/

namespace Teddy

open SM

/-- Sons of a node of the given kind. -/
def Kind.sons : Kind → List Ptr
  | .leaf _ => []
  | .inner _ ss => ss

/-- How the pool hands out address `p`. -/
def PoolStep (s : Mgr) (p : Ptr) (fr : List Ptr) (nx : Nat) : Prop :=
  (s.free = p :: fr ∧ nx = s.next) ∨
    (s.free = [] ∧ fr = [] ∧ p = s.next ∧ nx = s.next + 1 ∧ s.next < s.poolEnd)

/-- State after a new node of kind `k` at address `p` has been registered, its sons counted and
unmarked and itself marked. -/
def Mgr.created (s : Mgr) (p : Ptr) (k : Kind) (fr : List Ptr) (nx : Nat) (T : Nat → Table)
    (Te : List (Option Ptr)) (Sp : Option Ptr) (Lk : Links) : Mgr :=
  { s with
    kind := upd s.kind p k
    refs := fun q => upd s.refs p 0 q + k.sons.count q
    mark := fun q => if q = p then true else if q ∈ k.sons then false else s.mark q
    used := upd s.used p true
    data := upd s.data p none
    tables := T
    terminals := Te
    special := Sp
    nodeCount := s.nodeCount + 1
    free := fr
    next := nx
    avail := s.avail - 1
    mem := s.mem.create s.kind s.free p k
    link := Lk }

section
variable {c : Cfg} {ext : Ptr → Nat} {tmp : List Ptr} {s : Mgr}

theorem PoolStep.unused (h : Inv c ext tmp s) {p fr nx} (hp : PoolStep s p fr nx) :
    s.used p = false := by
  rcases hp with ⟨hf, _⟩ | ⟨_, _, rfl, _, _⟩
  · exact (h.pool.freeUnused p (by simp [hf])).2
  · by_contra hc
    have := h.pool.usedLt _ (by simpa using hc)
    exact Nat.lt_irrefl _ this

theorem PoolStep.memStep (h : Inv c ext tmp s) {p fr nx} (hp : PoolStep s p fr nx) :
    (s.free = p :: fr ∧ p < s.next ∧ nx = s.next) ∨
      (s.free = [] ∧ p = s.next ∧ nx = s.next + 1) := by
  rcases hp with ⟨hf, hn⟩ | ⟨hf, _, hp, hn, _⟩
  · exact Or.inl ⟨hf, (h.pool.freeUnused p (by simp [hf])).1, hn⟩
  · exact Or.inr ⟨hf, hp, hn⟩

theorem inDeg_created (h : Inv c ext tmp s) {p k fr nx T Te Sp Lk} (hp : PoolStep s p fr nx)
    (q : Ptr) :
    (s.created p k fr nx T Te Sp Lk).inDeg q = s.inDeg q + k.sons.count q := by
  have hun := hp.unused h
  have hsons : ∀ r, r ≠ p → (s.created p k fr nx T Te Sp Lk).sonsOf r = s.sonsOf r := by
    intro r hr
    simp [Mgr.sonsOf, Mgr.created, upd_other _ _ hr]
  have hsp : (s.created p k fr nx T Te Sp Lk).sonsOf p = k.sons := by
    cases k <;> simp [Mgr.sonsOf, Mgr.created, Kind.sons]
  have hus : ∀ r, r ≠ p → (s.created p k fr nx T Te Sp Lk).used r = s.used r := by
    intro r hr
    simp [Mgr.created, upd_other _ _ hr]
  have hup : (s.created p k fr nx T Te Sp Lk).used p = true := by simp [Mgr.created]
  unfold Mgr.inDeg
  have hn : (s.created p k fr nx T Te Sp Lk).next = nx := rfl
  rw [hn]
  rcases hp with ⟨hf, rfl⟩ | ⟨_, _, rfl, rfl, _⟩
  · have hlt := (h.pool.freeUnused p (by simp [hf])).1
    have := sum_two (S := Finset.range s.next) (p := p)
      (f := fun r => if (s.created p k fr s.next T Te Sp Lk).used r then
        ((s.created p k fr s.next T Te Sp Lk).sonsOf r).count q else 0)
      (g := fun r => if s.used r then (s.sonsOf r).count q else 0)
      (Finset.mem_range.2 hlt) (by
        intro x hx
        simp [hus x hx, hsons x hx])
    simpa [hun, hup, hsp] using this
  · rw [Finset.sum_range_succ, hup, hsp, if_pos rfl]
    congr 1
    refine Finset.sum_congr rfl (fun x hx => ?_)
    have hne : x ≠ s.next := by
      have := Finset.mem_range.1 hx
      omega
    rw [hus x hne, hsons x hne]

theorem Inv.created (h : Inv c ext tmp s) {p k fr nx} {T : Nat → Table}
    {Te : List (Option Ptr)} {Sp : Option Ptr} {Lk : Links} (hp : PoolStep s p fr nx)
    (hk : ∀ i ss, k = .inner i ss → i < c.n ∧ ss.length = c.dom i)
    (hs : ∀ q ∈ k.sons, s.used q = true)
    (hT : ∀ i, i < c.n → (T i).WF (fun q => c.hash (if q = p then k.sons else s.sonsOf q)) ∧
      ∀ q, q ∈ (T i).nodes ↔ q ∈ (s.tables i).nodes ∨ (q = p ∧ ∃ ss, k = .inner i ss))
    (hTe : ∀ (v : Nat) q, Te[v]? = some (some q) ↔ s.terminals[v]? = some (some q) ∨
      (q = p ∧ k = .leaf v ∧ (v : Int) ≠ Undefined))
    (hSp : ∀ q, Sp = some q ↔ s.special = some q ∨ (q = p ∧ k = .leaf Undefined))
    (hreg : (∃ i ss, k = .inner i ss) ∨ (∃ v : Nat, k = .leaf v)) (hLk : LinkOK c.n T fr tmp Lk) :
    Inv c ext tmp (s.created p k fr nx T Te Sp Lk) := by
  have hun := hp.unused h
  have ne_of_used : ∀ q, s.used q = true → q ≠ p := by
    rintro q hq rfl
    rw [hun] at hq; cases hq
  have kind' : ∀ q, q ≠ p → (s.created p k fr nx T Te Sp Lk).kind q = s.kind q := by
    intro q hq; simp [Mgr.created, upd_other _ _ hq]
  have kindp : (s.created p k fr nx T Te Sp Lk).kind p = k := by simp [Mgr.created]
  have used' : ∀ q, (s.created p k fr nx T Te Sp Lk).used q = true ↔ s.used q = true ∨ q = p := by
    intro q
    simp only [Mgr.created, upd_apply]
    by_cases e : q = p <;> simp [e]
  have sons' : ∀ q, (s.created p k fr nx T Te Sp Lk).sonsOf q
      = if q = p then k.sons else s.sonsOf q := by
    intro q
    by_cases e : q = p
    · subst e
      rw [if_pos rfl]
      cases k <;> simp [Mgr.sonsOf, Mgr.created, Kind.sons]
    · rw [if_neg e]
      simp [Mgr.sonsOf, kind' q e]
  have hTe' : ∀ q, some q ∈ Te ↔ some q ∈ s.terminals ∨
      (q = p ∧ ∃ v : Nat, k = .leaf v ∧ (v : Int) ≠ Undefined) := by
    intro q
    rw [List.mem_iff_getElem?, List.mem_iff_getElem?]
    constructor
    · rintro ⟨v, hv⟩
      rcases (hTe v q).1 hv with h1 | ⟨h1, h2⟩
      · exact Or.inl ⟨v, h1⟩
      · exact Or.inr ⟨h1, v, h2⟩
    · rintro (⟨v, hv⟩ | ⟨h1, v, h2⟩)
      · exact ⟨v, (hTe v q).2 (Or.inl hv)⟩
      · exact ⟨v, (hTe v q).2 (Or.inr ⟨h1, h2⟩)⟩
  refine
    { tabWF := ?_, tabKind := ?_, termKind := ?_, specKind := ?_, tmpInner := ?_, tmpDisj := ?_
      placed := ?_, sons := ?_, refs := ?_, extUsed := ?_, markUsed := ?_, pool := ?_
      order := ⟨h.order.i2l_lt, h.order.l2i_lt, h.order.l2i2l, h.order.i2l2i⟩
      mem := h.mem.create (hp.memStep h), heap := h.heap, link := hLk }
  · intro i hi
    refine (hT i hi).1.congr ?_
    intro q _
    simp [Mgr.hashOf, sons']
  · intro i hi q hq
    rcases ((hT i hi).2 q).1 hq with h1 | ⟨rfl, ss, h1⟩
    · rw [kind' q (ne_of_used q (h.tabUsed hi h1))]
      exact h.tabKind i hi q h1
    · exact ⟨ss, by rw [kindp, h1]⟩
  · intro v q hq
    rcases (hTe v q).1 hq with h1 | ⟨rfl, h1, h2⟩
    · rw [kind' q (ne_of_used q (h.termUsed h1))]
      exact h.termKind v q h1
    · exact ⟨by rw [kindp, h1], h2⟩
  · intro q hq
    rcases (hSp q).1 hq with h1 | ⟨rfl, h1⟩
    · rw [kind' q (ne_of_used q (h.specUsed h1))]
      exact h.specKind q h1
    · rw [kindp, h1]
  · intro q hq
    rw [kind' q (ne_of_used q (h.tmpUsed hq))]
    exact h.tmpInner q hq
  · intro q hq i hi hq'
    rcases ((hT i hi).2 q).1 hq' with h1 | ⟨rfl, ss, h1⟩
    · exact h.tmpDisj q hq i hi h1
    · exact ne_of_used _ (h.tmpUsed hq) rfl
  · intro q
    rw [used' q]
    constructor
    · rintro (hq | rfl)
      · rcases (h.placed q).1 hq with ⟨i, hi, h1⟩ | h1 | h1 | h1
        · exact Or.inl ⟨i, hi, ((hT i hi).2 q).2 (Or.inl h1)⟩
        · exact Or.inr (Or.inl h1)
        · exact Or.inr (Or.inr (Or.inl ((hTe' q).2 (Or.inl h1))))
        · exact Or.inr (Or.inr (Or.inr ((hSp q).2 (Or.inl h1))))
      · rcases hreg with ⟨i, ss, e⟩ | ⟨v, e⟩
        · have hi := (hk i ss e).1
          exact Or.inl ⟨i, hi, ((hT i hi).2 _).2 (Or.inr ⟨rfl, ss, e⟩)⟩
        · by_cases hv : (v : Int) = Undefined
          · exact Or.inr (Or.inr (Or.inr ((hSp _).2 (Or.inr ⟨rfl, by rw [e, hv]⟩))))
          · exact Or.inr (Or.inr (Or.inl ((hTe' _).2 (Or.inr ⟨rfl, v, e, hv⟩))))
    · rintro (⟨i, hi, h1⟩ | h1 | h1 | h1)
      · rcases ((hT i hi).2 q).1 h1 with h2 | h2
        · exact Or.inl (h.tabUsed hi h2)
        · exact Or.inr h2.1
      · exact Or.inl (h.tmpUsed h1)
      · rcases (hTe' q).1 h1 with h2 | h2
        · exact Or.inl ((h.placed q).2 (Or.inr (Or.inr (Or.inl h2))))
        · exact Or.inr h2.1
      · rcases (hSp q).1 h1 with h2 | h2
        · exact Or.inl (h.specUsed h2)
        · exact Or.inr h2.1
  · intro q i ss hq hkq
    by_cases e : q = p
    · subst e
      rw [kindp] at hkq
      obtain ⟨a, b⟩ := hk i ss hkq
      refine ⟨a, b, fun r hr => (used' r).2 (Or.inl (hs r ?_))⟩
      rw [hkq]; exact hr
    · rw [kind' q e] at hkq
      have hq' : s.used q = true := by
        rcases (used' q).1 hq with h1 | h1
        · exact h1
        · exact absurd h1 e
      obtain ⟨a, b, d⟩ := h.sons q i ss hq' hkq
      exact ⟨a, b, fun r hr => (used' r).2 (Or.inl (d r hr))⟩
  · intro q hq
    rw [inDeg_created h hp]
    show upd s.refs p 0 q + k.sons.count q = _
    by_cases e : q = p
    · subst e
      have e1 : ext q = 0 := by
        by_contra h0
        have := h.extUsed q (by omega)
        rw [hun] at this; cases this
      have e2 : s.inDeg q = 0 := by
        by_contra h0
        obtain ⟨r, _, hr, hmem⟩ := inDeg_pos (s := s) (p := q) (by omega)
        have := h.sonsUsed hr q hmem
        rw [hun] at this; cases this
      rw [upd_same, e1, e2]; omega
    · have hq' : s.used q = true := by
        rcases (used' q).1 hq with h1 | h1
        · exact h1
        · exact absurd h1 e
      rw [upd_other _ _ e, h.refs q hq']; omega
  · intro q hq
    exact (used' q).2 (Or.inl (h.extUsed q hq))
  · intro q hq
    simp only [Mgr.created] at hq
    split at hq
    · rename_i e; exact (used' q).2 (Or.inr e)
    · split at hq
      · cases hq
      · exact (used' q).2 (Or.inl (h.markUsed q hq))
  · have P := h.pool
    have he := P.avail_eq
    have hc := P.count
    have hle := P.le
    rcases hp with ⟨hf, rfl⟩ | ⟨hf, rfl, rfl, rfl, hlt⟩
    · have hnd := P.freeNodup
      rw [hf, List.nodup_cons] at hnd
      rw [hf, List.length_cons] at he hc
      refine
        { freeNodup := hnd.2, freeUnused := ?_, allFree := ?_, usedLt := ?_, avail_eq := ?_
          le := hle, count := ?_ }
      · intro q hq
        have hq' : q ∈ fr := hq
        obtain ⟨a, b⟩ := P.freeUnused q (by rw [hf]; simp [hq'])
        refine ⟨a, ?_⟩
        have : q ≠ p := by rintro rfl; exact hnd.1 hq'
        simp [Mgr.created, upd_other _ _ this, b]
      · intro q hq hq'
        have hne : q ≠ p := by
          rintro rfl
          simp [Mgr.created] at hq'
        have hq2 : s.used q = false := by
          simpa [Mgr.created, upd_other _ _ hne] using hq'
        have := P.allFree q hq hq2
        rw [hf, List.mem_cons] at this
        rcases this with h1 | h1
        · exact absurd h1 hne
        · exact h1
      · intro q hq
        rcases (used' q).1 hq with h1 | rfl
        · exact P.usedLt q h1
        · exact (P.freeUnused _ (by rw [hf]; simp)).1
      · show s.avail - 1 = fr.length + (s.poolEnd - s.next)
        omega
      · show s.nodeCount + 1 + fr.length = s.next
        omega
    · rw [hf, List.length_nil] at he hc
      refine
        { freeNodup := List.nodup_nil, freeUnused := ?_, allFree := ?_, usedLt := ?_
          avail_eq := ?_, le := hlt, count := ?_ }
      · intro q hq; cases hq
      · intro q hq hq'
        have hne : q ≠ s.next := by
          rintro rfl
          simp [Mgr.created] at hq'
        have hq2 : s.used q = false := by
          simpa [Mgr.created, upd_other _ _ hne] using hq'
        have hq3 : q < s.next + 1 := hq
        have := P.allFree q (Nat.lt_of_le_of_ne (Nat.lt_succ_iff.1 hq3) hne) hq2
        rw [hf] at this; cases this
      · intro q hq
        show q < s.next + 1
        rcases (used' q).1 hq with h1 | rfl
        · exact Nat.lt_succ_of_lt (P.usedLt q h1)
        · exact Nat.lt_succ_self _
      · show s.avail - 1 = 0 + (s.poolEnd - (s.next + 1))
        omega
      · show s.nodeCount + 1 + 0 = s.next + 1
        omega

theorem Prot.same {s s' : Mgr} {p : Ptr} (h : Prot ext tmp s p) (hk : s'.kind = s.kind)
    (hm : s'.mark = s.mark) : Prot ext tmp s' p := Prot.of_same hk hm h

/-- Preparation of a new node: garbage may be collected, the pool, the tables and the cache may
grow; nothing else happens. -/
structure Room (c : Cfg) (ext : Ptr → Nat) (tmp : List Ptr) (s s' : Mgr) : Prop where
  inv : Inv c ext tmp s'
  kind : s'.kind = s.kind
  mark : s'.mark = s.mark
  data : s'.data = s.data
  i2l : s'.idx2lvl = s.idx2lvl
  l2i : s'.lvl2idx = s.lvl2idx
  gcRatio : s'.gcRatio = s.gcRatio
  auto : s'.autoReorder = s.autoReorder
  deferred : s.autoReorder = false → s'.deferred = s.deferred
  poolEnd : s.poolEnd ≤ s'.poolEnd
  usedSub : ∀ p, s'.used p = true → s.used p = true
  prot : ∀ p, Prot ext tmp s p → Prot ext tmp s' p
  termLen : s'.terminals.length = s.terminals.length
  cache : ∀ Γ, CacheOK c Γ s → CacheOK c Γ s'

theorem Room.refl (h : Inv c ext tmp s) : Room c ext tmp s s :=
  ⟨h, rfl, rfl, rfl, rfl, rfl, rfl, rfl, fun _ => rfl, Nat.le_refl _, fun _ h => h, fun _ h => h,
    rfl, fun _ h => h⟩

theorem Room.trans {s1 s2 s3 : Mgr} (a : Room c ext tmp s1 s2) (b : Room c ext tmp s2 s3) :
    Room c ext tmp s1 s3 where
  inv := b.inv
  kind := b.kind.trans a.kind
  mark := b.mark.trans a.mark
  data := b.data.trans a.data
  i2l := b.i2l.trans a.i2l
  l2i := b.l2i.trans a.l2i
  gcRatio := b.gcRatio.trans a.gcRatio
  auto := b.auto.trans a.auto
  deferred h := (b.deferred (a.auto.trans h)).trans (a.deferred h)
  poolEnd := a.poolEnd.trans b.poolEnd
  usedSub p h := a.usedSub p (b.usedSub p h)
  prot p h := b.prot p (a.prot p h)
  termLen := b.termLen.trans a.termLen
  cache Γ h := b.cache Γ (a.cache Γ h)

theorem Room.keeps {s' : Mgr} (a : Room c ext tmp s s') : Keeps ext tmp s s' :=
  ⟨a.prot, fun p _ => by rw [a.kind], a.i2l, a.l2i, a.gcRatio, a.auto, a.deferred, a.poolEnd⟩

theorem Room.sonsOf {s' : Mgr} (a : Room c ext tmp s s') : s'.sonsOf = s.sonsOf := by
  funext p; simp [Mgr.sonsOf, a.kind]

theorem Room.levelOf {s' : Mgr} (a : Room c ext tmp s s') (p : Ptr) :
    s'.levelOf c p = s.levelOf c p := by
  simp [Mgr.levelOf, a.kind, a.i2l]

/-- An entry stays correct when kinds and levels are kept and its nodes are still there. -/
theorem EntryOK.same {s s' : Mgr} {Γ : Nat → BinOp} {e : CacheEntry} (h : EntryOK c Γ s e)
    (hk : s'.kind = s.kind) (hl : s'.idx2lvl = s.idx2lvl)
    (hu : s'.used e.lhs = true ∧ s'.used e.rhs = true ∧ s'.used e.res = true) :
    EntryOK c Γ s' e where
  lhs := hu.1
  rhs := hu.2.1
  res := hu.2.2
  level := by simpa [Mgr.levelOf, hk, hl] using h.level
  sem := by rw [hk]; exact h.sem

/-- `force_gc`. -/
theorem forceGc_spec (h : Inv c ext tmp s) :
    Ok (forceGc c) s (fun _ s' => Room c ext tmp s s' ∧ s'.next = s.next ∧
      s'.poolEnd = s.poolEnd ∧ s'.deferred = s.deferred ∧
      (Ordered c s → tmp = [] → ∀ p, s'.used p = true → Prot ext tmp s' p)) := by
  unfold forceGc
  refine Ok.bind (collectGarbage_spec h) ?_
  rintro ⟨⟩ s1 ⟨h1, g1, hc⟩
  refine Ok.modify ⟨?_, g1.next, g1.poolEnd, g1.deferred, ?_⟩
  · refine
      { inv := ?_, kind := g1.kind, mark := g1.mark, data := g1.data, i2l := g1.i2l, l2i := g1.l2i
        gcRatio := g1.gcRatio, auto := g1.auto, deferred := fun _ => g1.deferred
        poolEnd := Nat.le_of_eq g1.poolEnd.symm, usedSub := g1.usedSub, prot := ?_
        termLen := g1.termLen, cache := ?_ }
    · exact ⟨h1.tabWF, h1.tabKind, h1.termKind, h1.specKind, h1.tmpInner, h1.tmpDisj, h1.placed,
        h1.sons, h1.refs, h1.extUsed, h1.markUsed,
        ⟨h1.pool.freeNodup, h1.pool.freeUnused, h1.pool.allFree, h1.pool.usedLt,
          h1.pool.avail_eq, h1.pool.le, h1.pool.count⟩,
        ⟨h1.order.i2l_lt, h1.order.l2i_lt, h1.order.l2i2l, h1.order.i2l2i⟩, h1.mem, h1.heap, h1.link⟩
    · intro p hp
      exact (g1.prot p hp).same rfl rfl
    · intro Γ hΓ i e he
      have hu := Cache.removeUnused_used he
      refine EntryOK.same (s := s) ?_ g1.kind g1.i2l hu
      have := Cache.All.removeUnused (ca := s1.cache) (P := EntryOK c Γ s)
        (by rw [g1.cache]; exact hΓ) s1.used
      exact this i e he
  · intro ho ht p hp
    exact (hc ho ht p hp).same rfl rfl

/-- The invariant does not look at the cache and the statistics. -/
theorem Inv.of_eq {s s' : Mgr} (h : Inv c ext tmp s) (hk : s'.kind = s.kind)
    (hr : s'.refs = s.refs) (hm : s'.mark = s.mark) (hu : s'.used = s.used)
    (ht : s'.tables = s.tables) (hte : s'.terminals = s.terminals) (hs : s'.special = s.special)
    (h1 : s'.idx2lvl = s.idx2lvl) (h2 : s'.lvl2idx = s.lvl2idx) (hn : s'.nodeCount = s.nodeCount)
    (hf : s'.free = s.free) (hx : s'.next = s.next) (he : s'.poolEnd = s.poolEnd)
    (ha : s'.avail = s.avail) (hmm : s'.mem = s.mem := by rfl) (hh : s'.heap = s.heap := by rfl)
    (hlk : s'.link = s.link := by rfl) : Inv c ext tmp s' := by
  have hso : s'.sonsOf = s.sonsOf := by funext p; simp [Mgr.sonsOf, hk]
  have hd : s'.inDeg = s.inDeg := by funext p; simp [Mgr.inDeg, hx, hu, hso]
  refine
    { tabWF := ?_, tabKind := ?_, termKind := ?_, specKind := ?_, tmpInner := ?_, tmpDisj := ?_
      placed := ?_, sons := ?_, refs := ?_, extUsed := ?_, markUsed := ?_, pool := ?_
      order := ?_, mem := by rw [hk, hx, he, hmm]; exact h.mem, heap := by rw [hh]; exact h.heap
      link := by rw [ht, hf, hlk]; exact h.link }
  · rw [ht]
    intro i hi
    have := h.tabWF i hi
    have e : s'.hashOf c = s.hashOf c := by funext p; simp [Mgr.hashOf, hso]
    rw [e]; exact this
  · rw [ht, hk]; exact h.tabKind
  · rw [hte, hk]; exact h.termKind
  · rw [hs, hk]; exact h.specKind
  · rw [hk]; exact h.tmpInner
  · rw [ht]; exact h.tmpDisj
  · intro p
    rw [hu, h.placed p]
    simp [Mgr.Placed, ht, hte, hs]
  · rw [hu, hk]; exact h.sons
  · rw [hu, hr, hd]; exact h.refs
  · rw [hu]; exact h.extUsed
  · rw [hu, hm]; exact h.markUsed
  · have P := h.pool
    exact ⟨by rw [hf]; exact P.freeNodup, by rw [hf, hx, hu]; exact P.freeUnused,
      by rw [hf, hx, hu]; exact P.allFree, by rw [hx, hu]; exact P.usedLt,
      by rw [ha, hf, he, hx]; exact P.avail_eq, by rw [he, hx]; exact P.le,
      by rw [hn, hf, hx]; exact P.count⟩
  · exact ⟨by rw [h1]; exact h.order.i2l_lt, by rw [h2]; exact h.order.l2i_lt,
      by rw [h1, h2]; exact h.order.l2i2l, by rw [h1, h2]; exact h.order.i2l2i⟩

/-- The pool after `grow`. -/
def Mgr.grown (c : Cfg) (s : Mgr) (b : Bool) : Mgr :=
  { s with next := s.poolEnd, poolEnd := s.poolEnd + c.extra, avail := s.avail + c.extra
           deferred := b, mem := { s.mem with pools := (s.poolEnd, c.extra) :: s.mem.pools } }

/-- Growing the pool once it is exhausted. -/
theorem Inv.grown (h : Inv c ext tmp s) (he : s.next = s.poolEnd) (b : Bool) :
    Inv c ext tmp (s.grown c b) := by
  have P := h.pool
  have hd : ∀ p, (s.grown c b).inDeg p = s.inDeg p := by
    intro p
    simp only [Mgr.inDeg, Mgr.grown, he]
    rfl
  refine { tabWF := h.tabWF, tabKind := h.tabKind, termKind := h.termKind, specKind := h.specKind
           tmpInner := h.tmpInner, tmpDisj := h.tmpDisj, placed := h.placed, sons := h.sons
           refs := ?_, extUsed := h.extUsed, markUsed := h.markUsed, pool := ?_
           order := ⟨h.order.i2l_lt, h.order.l2i_lt, h.order.l2i2l, h.order.i2l2i⟩
           mem := h.mem.grow he, heap := h.heap, link := h.link }
  · intro p hp
    rw [hd p]; exact h.refs p hp
  · have a1 := P.avail_eq
    have a2 := P.count
    refine ⟨P.freeNodup, ?_, ?_, ?_, ?_, ?_, ?_⟩
    · show ∀ p ∈ s.free, p < s.poolEnd ∧ s.used p = false
      rw [← he]; exact P.freeUnused
    · show ∀ p, p < s.poolEnd → s.used p = false → p ∈ s.free
      rw [← he]; exact P.allFree
    · show ∀ p, s.used p = true → p < s.poolEnd
      rw [← he]; exact P.usedLt
    · show s.avail + c.extra = s.free.length + (s.poolEnd + c.extra - s.poolEnd)
      omega
    · show s.poolEnd ≤ s.poolEnd + c.extra
      omega
    · show s.nodeCount + s.free.length = s.poolEnd
      omega

theorem Room.grown (h : Inv c ext tmp s) (he : s.next = s.poolEnd) (b : Bool)
    (hb : s.autoReorder = false → b = s.deferred) : Room c ext tmp s (s.grown c b) where
  inv := h.grown he b
  kind := rfl
  mark := rfl
  data := rfl
  i2l := rfl
  l2i := rfl
  gcRatio := rfl
  auto := rfl
  deferred := hb
  poolEnd := Nat.le_add_right _ _
  usedSub _ h := h
  prot _ hp := hp.same rfl rfl
  termLen := rfl
  cache _ hΓ i e he := (hΓ i e he).same rfl rfl
    ⟨(hΓ i e he).lhs, (hΓ i e he).rhs, (hΓ i e he).res⟩

theorem makeRoom_spec (h : Inv c ext tmp s) (hp : PoolOK c s) :
    Ok (makeRoom c) s (fun _ s' => Room c ext tmp s s' ∧ 0 < s'.avail) := by
  unfold makeRoom
  refine Ok.bindGet ?_
  have hav := h.pool.avail_eq
  have hle := h.pool.le
  have hcnt := h.pool.count
  split
  · rename_i hauto
    split
    · rename_i h0
      have he : s.next = s.poolEnd := by omega
      unfold poolGrow
      refine Ok.bindMod (Ok.modify ⟨?_, ?_⟩)
      · exact Room.grown h he true (fun e => by rw [hauto] at e; cases e)
      · show 0 < s.avail + c.extra
        have := hp.extra; omega
    · rename_i h0
      exact Ok.pure ⟨Room.refl h, by omega⟩
  · split
    · rename_i h0
      have he : s.next = s.poolEnd := by omega
      refine Ok.bind (forceGc_spec h) ?_
      rintro ⟨⟩ s1 ⟨r1, hn1, hp1, hd1, -⟩
      refine Ok.bindGet ?_
      have hthr : 0 < s.gcRatio.1 * s.nodeCount / s.gcRatio.2 := by
        have hne : s.nodeCount = s.poolEnd := by omega
        rw [hne]
        exact Nat.div_pos hp.thr hp.den
      split
      · have he1 : s1.next = s1.poolEnd := by rw [hn1, hp1, he]
        unfold poolGrow
        refine Ok.modify ⟨r1.trans ?_, ?_⟩
        · exact Room.grown r1.inv he1 s1.deferred (fun _ => rfl)
        · show 0 < s1.avail + c.extra
          have := hp.extra; omega
      · rename_i hlt
        exact Ok.pure ⟨r1, by omega⟩
    · exact Ok.pure ⟨Room.refl h, by omega⟩

theorem onLinks_run {f : Links → Except Err Links} {L : Links} (e : f s.link = .ok L) :
    onLinks f s = .ok ((), { s with link := L }) := by
  unfold onLinks
  rw [bind_ok (get_run _), e]
  rfl

theorem adjustTables_run (h : Inv c ext tmp s) :
    ∃ L, adjustTables c s = .ok ((), { s with
      tables := fun i =>
        if i < c.n then (s.tables i).adjustCapacity (fun p => c.hash (s.sonsOf p)) else s.tables i
      heap := (List.range c.n).foldl (fun h i => if (s.tables i).grows then h.rehashTable i else h) s.heap
      link := L }) ∧
      LinkOK c.n (fun i => if i < c.n then (s.tables i).adjustCapacity (fun p => c.hash (s.sonsOf p)) else s.tables i)
        s.free tmp L := by
  obtain ⟨L, e, hL⟩ := Links.adjustAll_spec (hash := fun p => c.hash (s.sonsOf p)) (fuel := s.next + 1)
    (List.range c.n) (fun i hi => List.mem_range.1 hi) List.nodup_range (fun _ _ => rfl) h.link h.apart
    (fun i hi => Nat.lt_succ_of_le (h.nodesLen (List.mem_range.1 hi)))
  refine ⟨L, ?_, by simpa only [List.mem_range] using hL⟩
  unfold adjustTables
  rw [bind_ok (get_run _), bind_ok (onLinks_run e)]
  rfl

theorem adjustAll_spec (h : Inv c ext tmp s) :
    Ok (adjustAll c) s (fun _ s' => Room c ext tmp s s' ∧ s'.avail = s.avail) := by
  unfold adjustAll
  refine Ok.bindGet ?_
  split
  · unfold adjustCaches
    obtain ⟨Lk, elk, hLk⟩ := adjustTables_run h
    refine Ok.bindEq elk (Ok.bindMod (Ok.modify ⟨?_, rfl⟩))
    refine ⟨?_, rfl, rfl, rfl, rfl, rfl, rfl, rfl, fun _ => rfl, Nat.le_refl _, fun _ h => h,
          fun p hp => hp.same rfl rfl, rfl, ?_⟩
    · have hm : ∀ i, i < c.n → ∀ p, p ∈ ((s.tables i).adjustCapacity (s.hashOf c)).nodes ↔
          p ∈ (s.tables i).nodes := by
        intro i hi p
        exact (Table.adjustCapacity_spec (h.tabWF i hi).toWFb).2.1.mem_iff
      refine { h with tabWF := ?_, tabKind := ?_, tmpDisj := ?_, placed := ?_
                      pool := ⟨h.pool.freeNodup, h.pool.freeUnused, h.pool.allFree, h.pool.usedLt,
                        h.pool.avail_eq, h.pool.le, h.pool.count⟩
                      order := ⟨h.order.i2l_lt, h.order.l2i_lt, h.order.l2i2l, h.order.i2l2i⟩
                      heap := (h.heap.rehashAll (fun i => (s.tables i).grows) _).rehashCacheIf _
                      link := hLk }
      · intro i hi
        show Table.WF (if i < c.n then _ else _) _
        rw [if_pos hi]
        exact (h.tabWF i hi).adjustCapacity
      · intro i hi p
        show p ∈ (if i < c.n then _ else _ : Table).nodes → _
        rw [if_pos hi]
        intro hp
        exact h.tabKind i hi p ((hm i hi p).1 hp)
      · intro p hp i hi
        show p ∉ (if i < c.n then _ else _ : Table).nodes
        rw [if_pos hi]
        intro hp'
        exact h.tmpDisj p hp i hi ((hm i hi p).1 hp')
      · intro p
        refine (h.placed p).trans ?_
        have : (∃ i, i < c.n ∧ p ∈ (s.tables i).nodes) ↔ (∃ i, i < c.n ∧
            p ∈ (if i < c.n then (s.tables i).adjustCapacity (fun p => c.hash (s.sonsOf p))
              else s.tables i).nodes) := by
          constructor
          · rintro ⟨i, hi, hp⟩
            exact ⟨i, hi, by rw [if_pos hi]; exact (hm i hi p).2 hp⟩
          · rintro ⟨i, hi, hp⟩
            rw [if_pos hi] at hp
            exact ⟨i, hi, (hm i hi p).1 hp⟩
        unfold Mgr.Placed
        rw [this]
    · intro Γ hΓ
      have := Cache.All.growCapacity hΓ c.chash (s.cacheRatio.1 * s.nodeCount / s.cacheRatio.2)
      intro i e he
      have ok := this i e he
      exact ok.same rfl rfl ⟨ok.lhs, ok.rhs, ok.res⟩
  · exact Ok.pure ⟨Room.refl h, rfl⟩

/-- State right after `make_new_node`: the node is not registered anywhere yet. -/
def Mgr.raw (s : Mgr) (p : Ptr) (k : Kind) (fr : List Ptr) (nx : Nat) : Mgr :=
  { s with
    kind := upd s.kind p k
    refs := upd s.refs p 0
    mark := upd s.mark p false
    used := upd s.used p true
    data := upd s.data p none
    nodeCount := s.nodeCount + 1
    free := fr
    next := nx
    avail := s.avail - 1
    mem := s.mem.create s.kind s.free p k
    link := s.link.setNext p none }

/-- The pointers after a node has been handed out. -/
theorem PoolStep.link (h : Inv c ext tmp s) {p fr nx} (hp : PoolStep s p fr nx) :
    LinkOK c.n s.tables fr tmp (s.link.setNext p none) ∧ (∀ i, i < c.n → p ∉ (s.tables i).nodes) ∧ p ∉ fr ∧ p ∉ tmp := by
  have hun := hp.unused h
  have hne : ¬ s.used p = true := by rw [hun]; simp
  have h1 : ∀ i, i < c.n → p ∉ (s.tables i).nodes := fun i hi hm => hne (h.tabUsed hi hm)
  have h2 : p ∉ tmp := fun hm => hne (h.tmpUsed hm)
  rcases hp with ⟨hf, _⟩ | ⟨hf, hfr, _, _, _⟩
  · have hnd := h.pool.freeNodup
    rw [hf, List.nodup_cons] at hnd
    exact ⟨h.link.taken h1 (Or.inl ⟨hf, hnd.1⟩) h2, h1, hnd.1, h2⟩
  · exact ⟨h.link.taken h1 (Or.inr ⟨hf, hfr⟩) h2, h1, by rw [hfr]; simp, h2⟩

theorem makeNew_spec (h : Inv c ext tmp s) (hp : PoolOK c s) (k : Kind) :
    Ok (makeNew c k) s (fun p s' => ∃ s1 fr nx, Room c ext tmp s s1 ∧ PoolStep s1 p fr nx ∧
      s' = s1.raw p k fr nx) := by
  unfold makeNew
  refine Ok.bind (makeRoom_spec h hp) ?_
  rintro ⟨⟩ s1 ⟨r1, hav1⟩
  refine Ok.bind (adjustAll_spec r1.inv) ?_
  rintro ⟨⟩ s2 ⟨r2, hav2⟩
  have hav : 0 < s2.avail := by omega
  refine Ok.bindMod ?_
  have r := r1.trans r2
  unfold poolCreate
  refine Ok.bindGet ?_
  have hne : ¬ ({ s2 with nodeCount := s2.nodeCount + 1 } : Mgr).avail = 0 := by
    show ¬ s2.avail = 0
    omega
  rw [if_neg hne]
  refine Ok.bindEq (pure_run _ _) ?_
  cases hf : s2.free with
  | cons p fr =>
      dsimp only
      have hm := r2.inv.mem
      have hlt := (r2.inv.pool.freeUnused p (by rw [hf]; simp)).1
      have hlk := r2.inv.link
      rw [hf] at hlk
      rw [if_pos hlk.tail.1]
      refine Ok.bindEq (set_run _ _) ?_
      refine Ok.bindEq (nodeDtor_run ((hm.built p).2 hlt) fun i ss hk => hm.arr_mem hlt hk) ?_
      refine Ok.bindEq (nodeCtor_run p k) (Ok.pure ⟨s2, fr, s2.next, r, Or.inl ⟨hf, rfl⟩, ?_⟩)
      simp [Mgr.raw, Mem.create, hf]
  | nil =>
      have hlt : s2.next < s2.poolEnd := by
        have := r2.inv.pool.avail_eq
        rw [hf, List.length_nil] at this
        omega
      dsimp only
      rw [if_pos hlt]
      refine Ok.bindEq (set_run _ _) (Ok.bindEq (nodeCtor_run s2.next k)
        (Ok.pure ⟨s2, [], s2.next + 1, r, Or.inr ⟨hf, rfl, rfl, rfl, hlt⟩, ?_⟩))
      simp [Mgr.raw, Mem.create, hf]

/-- Effect of a node-making primitive with sons `sons` (all protected) and result `r`. -/
structure Made (c : Cfg) (ext : Ptr → Nat) (tmp : List Ptr) (s : Mgr) (sons : List Ptr) (r : Ptr)
    (s' : Mgr) : Prop where
  inv : Inv c ext tmp s'
  keeps : Keeps ext tmp s s'
  prot : Prot ext tmp s' r
  mark : ∀ p, s'.mark p = true → p = r ∨ (s.mark p = true ∧ p ∉ sons)
  mid : ∃ U : Ptr → Prop, (∀ p, U p → s.used p = true) ∧
    (∀ p, U p → s'.used p = true ∧ s'.kind p = s.kind p) ∧
    (∀ p, s'.used p = true → U p ∨ p = r) ∧
    (∀ p i ss, U p → s.kind p = .inner i ss → ∀ q ∈ ss, U q)
  cache : ∀ Γ, CacheOK c Γ s → CacheOK c Γ s'

/-- An entry stays correct when its nodes and everything below them are kept. -/
theorem EntryOK.grow {s s' : Mgr} {Γ : Nat → BinOp} {e : CacheEntry} (h : Inv c ext tmp s)
    (he : EntryOK c Γ s e)
    (hk : ∀ p, s.used p = true → s'.used p = true ∧ s'.kind p = s.kind p)
    (hl : s'.idx2lvl = s.idx2lvl) : EntryOK c Γ s' e := by
  have tr : ∀ {x p v}, s.used p = true → (Ev s'.kind x p v ↔ Ev s.kind x p v) := by
    intro x p v hp
    exact Ev.transfer_iff (fun p => s.used p = true) (fun p hp => (hk p hp).2)
      (fun p i ss hp hk q hq => (h.sons p i ss hp hk).2.2 q hq) hp
  have lv : ∀ p, s.used p = true → s'.levelOf c p = s.levelOf c p := by
    intro p hp
    simp [Mgr.levelOf, (hk p hp).2, hl]
  refine ⟨(hk _ he.lhs).1, (hk _ he.rhs).1, (hk _ he.res).1, ?_, ?_⟩
  · rw [lv _ he.lhs, lv _ he.rhs, lv _ he.res]; exact he.level
  · intro x hx a b ha hb
    obtain ⟨v, h1, h2⟩ := he.sem x hx a b ((tr he.lhs).1 ha) ((tr he.rhs).1 hb)
    exact ⟨v, h1, (tr he.res).2 h2⟩

theorem Made.created {s1 : Mgr} {p : Ptr} {k : Kind} {fr : List Ptr} {nx : Nat} {T : Nat → Table}
    {Te : List (Option Ptr)} {Sp : Option Ptr} {Lk : Links}
    (rm : Room c ext tmp s s1) (hp : PoolStep s1 p fr nx)
    (hinv : Inv c ext tmp (s1.created p k fr nx T Te Sp Lk)) :
    Made c ext tmp s k.sons p (s1.created p k fr nx T Te Sp Lk) := by
  have hun := hp.unused rm.inv
  have ne_of_used : ∀ q, s1.used q = true → q ≠ p := by
    rintro q hq rfl
    rw [hun] at hq; cases hq
  have kind' : ∀ q, q ≠ p → (s1.created p k fr nx T Te Sp Lk).kind q = s1.kind q := by
    intro q hq; simp [Mgr.created, upd_other _ _ hq]
  have kindp : (s1.created p k fr nx T Te Sp Lk).kind p = k := by simp [Mgr.created]
  have used' : ∀ q, (s1.created p k fr nx T Te Sp Lk).used q = true ↔ s1.used q = true ∨ q = p := by
    intro q
    simp only [Mgr.created, upd_apply]
    by_cases e : q = p <;> simp [e]
  have markp : (s1.created p k fr nx T Te Sp Lk).mark p = true := by simp [Mgr.created]
  have protp : Prot ext tmp (s1.created p k fr nx T Te Sp Lk) p := .root (Or.inl markp)
  have prot' : ∀ q, Prot ext tmp s1 q → Prot ext tmp (s1.created p k fr nx T Te Sp Lk) q := by
    intro q hq
    induction hq with
    | @root q hr =>
        rcases hr with hr | hr | hr
        · have hne := ne_of_used q (rm.inv.markUsed q hr)
          by_cases hm : q ∈ k.sons
          · cases hk : k with
            | leaf v => rw [hk] at hm; cases hm
            | inner i ss =>
                have : (s1.created p k fr nx T Te Sp Lk).kind p = .inner i ss := by rw [kindp, hk]
                rw [hk] at hm this protp
                exact .son protp this hm
          · refine .root (Or.inl ?_)
            simp [Mgr.created, hne, hm, hr]
        · exact .root (Or.inr (Or.inl hr))
        · exact .root (Or.inr (Or.inr hr))
    | @son q r i ss hq hk hm ih =>
        have hk' : (s1.created p k fr nx T Te Sp Lk).kind q = .inner i ss := by
          rw [kind' q (ne_of_used q (hq.used rm.inv))]
          exact hk
        exact .son ih hk' hm
  refine ⟨hinv, ⟨?_, ?_, rm.i2l, rm.l2i, rm.gcRatio, rm.auto, rm.deferred, rm.poolEnd⟩, protp,
    ?_, ?_, ?_⟩
  · intro q hq
    exact prot' q (rm.prot q hq)
  · intro q hq
    rw [kind' q (ne_of_used q ((rm.prot q hq).used rm.inv)), rm.kind]
  · intro q hq
    simp only [Mgr.created] at hq
    split at hq
    · left; assumption
    · split at hq
      · cases hq
      · rename_i h2
        right
        rw [rm.mark] at hq
        exact ⟨hq, h2⟩
  · refine ⟨fun q => s1.used q = true, rm.usedSub, ?_, fun q hq => (used' q).1 hq, ?_⟩
    · intro q hq
      exact ⟨(used' q).2 (Or.inl hq), by rw [kind' q (ne_of_used q hq), rm.kind]⟩
    · intro q i ss hq hk
      exact (rm.inv.sons q i ss hq (by rw [rm.kind]; exact hk)).2.2
  · intro Γ hΓ i e he
    refine (rm.cache Γ hΓ i e he).grow rm.inv ?_ rfl
    intro q hq
    exact ⟨(used' q).2 (Or.inl hq), kind' q (ne_of_used q hq)⟩

/-- Marking a used node. -/
theorem Made.marked (h : Inv c ext tmp s) {p : Ptr} (hp : s.used p = true) :
    Made c ext tmp s [] p { s with mark := upd s.mark p true } := by
  have hprot : ∀ q, Prot ext tmp s q → Prot ext tmp { s with mark := upd s.mark p true } q := by
    intro q hq
    induction hq with
    | root hr =>
        rcases hr with hr | hr
        · refine .root (Or.inl ?_)
          simp only [upd_apply]
          split
          · rfl
          · exact hr
        · exact .root (Or.inr hr)
    | son _ hk hm ih => exact .son ih hk hm
  refine ⟨?_, ⟨hprot, fun _ _ => rfl, rfl, rfl, rfl, rfl, fun _ => rfl, Nat.le_refl _⟩,
    .root (Or.inl (by simp)), ?_,
    ⟨fun q => s.used q = true, fun _ h => h, fun q hq => ⟨hq, rfl⟩, fun q hq => Or.inl hq,
      fun q i ss hq hk => (h.sons q i ss hq hk).2.2⟩, ?_⟩
  · refine { tabWF := h.tabWF, tabKind := h.tabKind, termKind := h.termKind, specKind := h.specKind
             tmpInner := h.tmpInner, tmpDisj := h.tmpDisj, placed := h.placed, sons := h.sons
             refs := h.refs, extUsed := h.extUsed, markUsed := ?_
             pool := ⟨h.pool.freeNodup, h.pool.freeUnused, h.pool.allFree, h.pool.usedLt,
                        h.pool.avail_eq, h.pool.le, h.pool.count⟩
             order := ⟨h.order.i2l_lt, h.order.l2i_lt, h.order.l2i2l, h.order.i2l2i⟩
             mem := h.mem, heap := h.heap, link := h.link }
    intro q hq
    simp only [upd_apply] at hq
    split at hq
    · rename_i e; rw [e]; exact hp
    · exact h.markUsed q hq
  · intro q hq
    simp only [upd_apply] at hq
    split at hq
    · left; assumption
    · right; exact ⟨hq, by simp⟩
  · intro Γ hΓ i e he
    exact (hΓ i e he).same rfl rfl ⟨(hΓ i e he).lhs, (hΓ i e he).rhs, (hΓ i e he).res⟩

theorem Room.termBack {s1 : Mgr} (h : Inv c ext tmp s) (r : Room c ext tmp s s1) {v : Nat}
    {q : Ptr} (hq : s1.terminals[v]? = some (some q)) : s.terminals[v]? = some (some q) := by
  obtain ⟨hk, hv⟩ := r.inv.termKind v q hq
  rw [r.kind] at hk
  have hu := r.usedSub q (r.inv.termUsed hq)
  rcases (h.placed q).1 hu with ⟨i, hi, h1⟩ | h1 | h1 | h1
  · obtain ⟨ss, hk'⟩ := h.tabKind i hi q h1
    rw [hk] at hk'; cases hk'
  · obtain ⟨i, ss, hk'⟩ := h.tmpInner q h1
    rw [hk] at hk'; cases hk'
  · obtain ⟨w, hw⟩ := List.mem_iff_getElem?.1 h1
    have := (h.termKind w q hw).1
    rw [hk] at this
    simp only [Kind.leaf.injEq] at this
    have e : v = w := by omega
    rw [e]; exact hw
  · have := h.specKind q h1
    rw [hk] at this
    simp only [Kind.leaf.injEq] at this
    exact absurd this hv

theorem Room.specBack {s1 : Mgr} (h : Inv c ext tmp s) (r : Room c ext tmp s s1) 
    {q : Ptr} (hq : s1.special = some q) : s.special = some q := by
  have hk := r.inv.specKind q hq
  rw [r.kind] at hk
  have hu := r.usedSub q (r.inv.specUsed hq)
  rcases (h.placed q).1 hu with ⟨i, hi, h1⟩ | h1 | h1 | h1
  · obtain ⟨ss, hk'⟩ := h.tabKind i hi q h1
    rw [hk] at hk'; cases hk'
  · obtain ⟨i, ss, hk'⟩ := h.tmpInner q h1
    rw [hk] at hk'; cases hk'
  · obtain ⟨w, hw⟩ := List.mem_iff_getElem?.1 h1
    have := h.termKind w q hw
    rw [hk] at this
    simp only [Kind.leaf.injEq] at this
    exact absurd this.1.symm this.2
  · exact h1

theorem Room.tabBack {s1 : Mgr} (h : Inv c ext tmp s) (r : Room c ext tmp s s1) {i : Nat}
    (hi : i < c.n) {q : Ptr} (hq : q ∈ (s1.tables i).nodes) : q ∈ (s.tables i).nodes := by
  obtain ⟨ss, hk⟩ := r.inv.tabKind i hi q hq
  rw [r.kind] at hk
  have hu := r.usedSub q (r.inv.tabUsed hi hq)
  rcases (h.placed q).1 hu with ⟨j, hj, h1⟩ | h1 | h1 | h1
  · obtain ⟨ss', hk'⟩ := h.tabKind j hj q h1
    rw [hk] at hk'; cases hk'
    exact h1
  · exact absurd hq (r.inv.tmpDisj q h1 i hi)
  · obtain ⟨w, hw⟩ := List.mem_iff_getElem?.1 h1
    have := (h.termKind w q hw).1
    rw [hk] at this; cases this
  · have := h.specKind q h1
    rw [hk] at this; cases this

theorem assertTerminal_ok {v : Int} (hv : TermOK c v) : assertTerminal c v s = .ok ((), s) := by
  unfold assertTerminal
  cases hm : c.fixedDom with
  | some m =>
    by_cases ha : c.asserts = true
    · have := hv.2 ha m hm
      simp [ha, this]
    · simp [ha]
  | none => rfl

theorem Mgr.raw_leaf {s1 : Mgr} {p : Ptr} {v : Int} {fr nx T Te Sp} :
    { (s1.raw p (.leaf v) fr nx) with
        tables := T, terminals := Te, special := Sp,
        mark := upd (upd s1.mark p false) p true } =
      s1.created p (.leaf v) fr nx T Te Sp (s1.link.setNext p none) := by
  have : (upd (upd s1.mark p false) p true) =
      fun q => if q = p then true else if q ∈ (Kind.leaf v).sons then false else s1.mark q := by
    funext q
    simp only [upd_apply, Kind.sons]
    by_cases e : q = p <;> simp [e]
  rw [this]
  simp [Mgr.raw, Mgr.created, Kind.sons]

theorem makeTerminal_spec (h : Inv c ext tmp s) (hp : PoolOK c s) {v : Int} (hv : TermOK c v) :
    Ok (makeTerminal c v) s (fun r s' => Made c ext tmp s [] r s' ∧ s'.kind r = .leaf v ∧
      s'.mark r = true) := by
  unfold makeTerminal
  refine Ok.bindEq (assertTerminal_ok hv) ?_
  by_cases hs : isSpecial v = true
  · rw [if_pos hs]
    have hvU : v = Undefined := by simpa [isSpecial] using hs
    subst hvU
    unfold makeSpecial
    refine Ok.bindGet ?_
    split
    · rename_i p hsp
      have hu := h.specUsed hsp
      refine Ok.bindEq (setMarked_ok hu) (Ok.pure ⟨Made.marked h hu, h.specKind p hsp, by simp⟩)
    · rename_i hsp
      refine Ok.bind (makeNew_spec h hp _) ?_
      rintro p s' ⟨s1, fr, nx, rm, hps, rfl⟩
      refine Ok.bindMod ?_
      refine Ok.bindEq (setMarked_ok (by simp [Mgr.raw])) ?_
      have e := Mgr.raw_leaf (s1 := s1) (p := p) (v := Undefined) (fr := fr) (nx := nx)
        (T := s1.tables) (Te := s1.terminals) (Sp := some p)
      have hun := hps.unused rm.inv
      refine Ok.of_eq (s' := s1.created p (.leaf Undefined) fr nx s1.tables s1.terminals (some p)
          (s1.link.setNext p none))
        (by rw [← e]; rfl) ⟨?_, by simp [Mgr.created], by simp [Mgr.created]⟩
      refine Made.created (k := .leaf Undefined) rm hps ?_
      refine rm.inv.created hps (by intro i ss h; cases h) (by simp [Kind.sons]) ?_ ?_ ?_
        (Or.inr ⟨2147483647, rfl⟩) (hps.link rm.inv).1
      · intro i hi
        refine ⟨(rm.inv.tabWF i hi).congr ?_, ?_⟩
        · intro q hq
          have : q ≠ p := by
            rintro rfl
            have := rm.inv.tabUsed hi hq
            rw [hun] at this; cases this
          simp [this, Mgr.hashOf]
        · intro q; simp
      · intro w q
        constructor
        · exact Or.inl
        · rintro (h1 | ⟨_, h2, h3⟩)
          · exact h1
          · simp only [Kind.leaf.injEq] at h2
            exact absurd h2.symm h3
      · intro q
        constructor
        · intro hq; cases hq; exact Or.inr ⟨rfl, rfl⟩
        · rintro (h1 | ⟨h1, _⟩)
          · have := rm.specBack h h1
            rw [hsp] at this; cases this
          · rw [h1]
  · rw [if_neg hs]
    have hvU : v ≠ Undefined := by simpa [isSpecial] using hs
    have hneg : ¬ v < 0 := by have := hv.1; omega
    rw [if_neg hneg]
    obtain ⟨k, rfl⟩ := Int.eq_ofNat_of_zero_le hv.1
    simp only [Int.toNat_natCast]
    refine Ok.bindMod (Ok.bindGet ?_)
    -- the state with the resized terminal array
    have hget : ∀ (w : Nat) q, (resizeTerminals k s.terminals)[w]? = some (some q) ↔
        s.terminals[w]? = some (some q) := by
      intro w q
      unfold resizeTerminals
      rw [List.getElem?_append]
      split
      · rfl
      · rename_i hlt
        rw [List.getElem?_eq_none (l := s.terminals) (by omega)]
        rw [List.getElem?_replicate]
        split <;> simp
    have hlen : k < (resizeTerminals k s.terminals).length := by
      simp [resizeTerminals]; omega
    have hmem : ∀ q, some q ∈ resizeTerminals k s.terminals ↔ some q ∈ s.terminals := by
      intro q
      rw [List.mem_iff_getElem?, List.mem_iff_getElem?]
      simp only [hget]
    have h0 : Inv c ext tmp { s with terminals := resizeTerminals k s.terminals } :=
      { tabWF := h.tabWF, tabKind := h.tabKind, specKind := h.specKind
        tmpInner := h.tmpInner, tmpDisj := h.tmpDisj, sons := h.sons
        refs := h.refs, extUsed := h.extUsed, markUsed := h.markUsed
        termKind := fun w q hq => h.termKind w q ((hget w q).1 hq)
        placed := fun q => by
          rw [h.placed q]
          simp only [Mgr.Placed, hmem]
        pool := ⟨h.pool.freeNodup, h.pool.freeUnused, h.pool.allFree, h.pool.usedLt,
                        h.pool.avail_eq, h.pool.le, h.pool.count⟩
        order := ⟨h.order.i2l_lt, h.order.l2i_lt, h.order.l2i2l, h.order.i2l2i⟩
        mem := h.mem, heap := h.heap, link := h.link }
    have r0 : Room c ext tmp s { s with terminals := resizeTerminals k s.terminals } ∨ True :=
      Or.inr trivial
    have hp0 : PoolOK c { s with terminals := resizeTerminals k s.terminals } :=
      ⟨hp.extra, hp.den, hp.thr⟩
    have lift : ∀ {r s'}, Made c ext tmp { s with terminals := resizeTerminals k s.terminals } [] r s' →
        Made c ext tmp s [] r s' := by
      intro r s' m
      refine ⟨m.inv, ⟨fun q hq => m.keeps.prot q (hq.same rfl rfl),
        fun q hq => m.keeps.kind q (hq.same rfl rfl), m.keeps.i2l,
        m.keeps.l2i, m.keeps.gcRatio, m.keeps.auto, m.keeps.deferred, m.keeps.poolEnd⟩,
        m.prot, m.mark, m.mid, ?_⟩
      intro Γ hΓ
      refine m.cache Γ ?_
      intro i e he
      exact (hΓ i e he).same rfl rfl ⟨(hΓ i e he).lhs, (hΓ i e he).rhs, (hΓ i e he).res⟩
    clear r0
    generalize hs0 : ({ s with terminals := resizeTerminals k s.terminals } : Mgr) = s0 at *
    have hte0 : s0.terminals = resizeTerminals k s.terminals := by rw [← hs0]
    split
    · rename_i p hpk
      have hu := h0.termUsed hpk
      refine Ok.bindEq (setMarked_ok hu)
        (Ok.pure ⟨lift (Made.marked h0 hu), (h0.termKind k p hpk).1, by simp⟩)
    · rename_i hno
      refine Ok.bind (makeNew_spec h0 hp0 _) ?_
      rintro p s' ⟨s1, fr, nx, rm, hps, rfl⟩
      refine Ok.bindMod ?_
      refine Ok.bindEq (setMarked_ok (by simp [Mgr.raw])) ?_
      have e := Mgr.raw_leaf (s1 := s1) (p := p) (v := (k : Int)) (fr := fr) (nx := nx)
        (T := s1.tables) (Te := s1.terminals.set k (some p)) (Sp := s1.special)
      have hun := hps.unused rm.inv
      refine Ok.of_eq (s' := s1.created p (.leaf k) fr nx s1.tables
          (s1.terminals.set k (some p)) s1.special (s1.link.setNext p none))
        (by rw [← e]; rfl) ⟨lift ?_, by simp [Mgr.created], by simp [Mgr.created]⟩
      have hlen1 : k < s1.terminals.length := by rw [rm.termLen, hte0]; exact hlen
      refine Made.created (k := .leaf k) rm hps ?_
      refine rm.inv.created hps (by intro i ss h; cases h) (by simp [Kind.sons]) ?_ ?_ ?_
        (Or.inr ⟨k, rfl⟩) (hps.link rm.inv).1
      · intro i hi
        refine ⟨(rm.inv.tabWF i hi).congr ?_, ?_⟩
        · intro q hq
          have : q ≠ p := by
            rintro rfl
            have := rm.inv.tabUsed hi hq
            rw [hun] at this; cases this
          simp [this, Mgr.hashOf]
        · intro q; simp
      · intro w q
        rw [List.getElem?_set]
        by_cases e : k = w
        · subst e
          rw [if_pos rfl, if_pos hlen1]
          constructor
          · intro hq
            simp at hq
            exact Or.inr ⟨hq.symm, rfl, hvU⟩
          · rintro (h1 | ⟨h1, _⟩)
            · exact absurd (rm.termBack h0 h1) (hno q)
            · rw [h1]
        · rw [if_neg e]
          constructor
          · exact Or.inl
          · rintro (h1 | ⟨_, h2, _⟩)
            · exact h1
            · simp only [Kind.leaf.injEq] at h2
              omega
      · intro q
        constructor
        · exact Or.inl
        · rintro (h1 | ⟨_, h2⟩)
          · exact h1
          · simp only [Kind.leaf.injEq] at h2
            exact absurd h2 hvU

/-- Unmarking the sons of a used node and marking the node itself. -/
theorem Made.found (h : Inv c ext tmp s) {p : Ptr} {i : Nat} {ss : List Ptr}
    (hp : s.used p = true) (hk : s.kind p = .inner i ss) {m : Ptr → Bool}
    (hm : m = upd (fun q => if q ∈ ss then false else s.mark q) p true) :
    Made c ext tmp s ss p { s with mark := m } := by
  subst hm
  have protp : Prot ext tmp
      { s with mark := upd (fun q => if q ∈ ss then false else s.mark q) p true } p :=
    .root (Or.inl (by simp))
  have hprot : ∀ q, Prot ext tmp s q → Prot ext tmp
      { s with mark := upd (fun q => if q ∈ ss then false else s.mark q) p true } q := by
    intro q hq
    induction hq with
    | @root q hr =>
        by_cases hqp : q = p
        · rw [hqp]; exact protp
        · by_cases hqs : q ∈ ss
          · exact .son protp hk hqs
          · rcases hr with hr | hr
            · refine .root (Or.inl ?_)
              simp [upd_apply, hqp, hqs, hr]
            · exact .root (Or.inr hr)
    | son _ hk hm ih => exact .son ih hk hm
  refine ⟨?_, ⟨hprot, fun _ _ => rfl, rfl, rfl, rfl, rfl, fun _ => rfl, Nat.le_refl _⟩,
    protp, ?_,
    ⟨fun q => s.used q = true, fun _ h => h, fun q hq => ⟨hq, rfl⟩, fun q hq => Or.inl hq,
      fun q i ss hq hk => (h.sons q i ss hq hk).2.2⟩, ?_⟩
  · refine { tabWF := h.tabWF, tabKind := h.tabKind, termKind := h.termKind, specKind := h.specKind
             tmpInner := h.tmpInner, tmpDisj := h.tmpDisj, placed := h.placed, sons := h.sons
             refs := h.refs, extUsed := h.extUsed, markUsed := ?_
             pool := ⟨h.pool.freeNodup, h.pool.freeUnused, h.pool.allFree, h.pool.usedLt,
                        h.pool.avail_eq, h.pool.le, h.pool.count⟩
             order := ⟨h.order.i2l_lt, h.order.l2i_lt, h.order.l2i2l, h.order.i2l2i⟩
             mem := h.mem, heap := h.heap, link := h.link }
    intro q hq
    simp only [upd_apply] at hq
    split at hq
    · rename_i e; rw [e]; exact hp
    · split at hq
      · cases hq
      · exact h.markUsed q hq
  · intro q hq
    simp only [upd_apply] at hq
    split at hq
    · left; assumption
    · split at hq
      · cases hq
      · right; constructor <;> assumption
  · intro Γ hΓ i e he
    exact (hΓ i e he).same rfl rfl ⟨(hΓ i e he).lhs, (hΓ i e he).rhs, (hΓ i e he).res⟩

theorem Made.ordered {s' : Mgr} {sons : List Ptr} {r : Ptr} (m : Made c ext tmp s sons r s')
    (ho : Ordered c s) (hr : ∀ i ss, s'.kind r = .inner i ss → ∀ q ∈ ss, s'.levelOf c r < s'.levelOf c q) :
    Ordered c s' := by
  obtain ⟨U, hU, hk, hu, hcl⟩ := m.mid
  intro p i ss q hp hkp hq
  rcases hu p hp with h1 | rfl
  · rw [(hk p h1).2] at hkp
    have h2 := hcl p i ss h1 hkp q hq
    have := ho p i ss q (hU p h1) hkp hq
    simpa [Mgr.levelOf, (hk p h1).2, (hk q h2).2, m.keeps.i2l] using this
  · exact hr i ss hkp q hq

/-- Result of `makeInternal`: the son itself when all sons are equal, otherwise a node with
exactly these sons. -/
def InternalRes (s : Mgr) (i : Nat) (sons : List Ptr) (r : Ptr) (s' : Mgr) : Prop :=
  (isRedundant sons = true ∧ s' = s ∧ r ∈ sons ∧ ∀ q ∈ sons, q = r) ∨
    (isRedundant sons = false ∧ s'.kind r = .inner i sons ∧ s'.mark r = true)

theorem tableFind_run (h : Inv c ext tmp s) {i : Nat} {sons : List Ptr} (hi : i < c.n) :
    tableFind c i sons s = .ok ((s.tables i).find s.sonsOf (c.hash sons) sons, s) := by
  have hb : c.hash sons % (s.tables i).cap < (s.tables i).cap := Nat.mod_lt _ (h.tabWF i hi).cap_pos
  unfold tableFind
  rw [bind_ok (get_run _), Links.findWalk_spec _ (h.link.tab i hi _ hb) (Nat.lt_succ_of_le (h.bucketLen hi hb))]
  rfl

theorem makeInternal_spec (h : Inv c ext tmp s) (hp : PoolOK c s) {i : Nat} {sons : List Ptr}
    (hi : i < c.n) (hlen : sons.length = c.dom i) (hpos : 0 < c.dom i)
    (hs : ∀ q ∈ sons, Prot ext tmp s q) :
    Ok (makeInternal c i sons) s (fun r s' => Made c ext tmp s sons r s' ∧
      InternalRes s i sons r s' ∧ (isRedundant sons = false → r ∈ (s'.tables i).nodes) ∧
      (tmp = [] → Canon s → Canon s')) := by
  unfold makeInternal
  by_cases hred : isRedundant sons = true
  · rw [if_pos hred]
    cases sons with
    | nil => simp at hlen; omega
    | cons a l =>
        have hall := isRedundant_iff.1 hred
        refine Ok.tempSons ?_
        refine Ok.pure ⟨⟨h, Keeps.refl s, hs a (by simp), ?_, ?_, fun _ h => h⟩,
          Or.inl ⟨hred, rfl, by simp, ?_⟩, (fun e => absurd (hred.symm.trans e) (by decide)), fun _ h => h⟩
        · intro q hq
          by_cases e : q = a
          · exact Or.inl e
          · refine Or.inr ⟨hq, ?_⟩
            rw [List.mem_cons, not_or]
            exact ⟨e, fun hm => e (hall q hm)⟩
        · exact ⟨fun q => s.used q = true, fun _ h => h, fun q hq => ⟨hq, rfl⟩, fun q hq => Or.inl hq,
            fun q i ss hq hk => (h.sons q i ss hq hk).2.2⟩
        · intro q hq
          rcases List.mem_cons.1 hq with e | hq
          · exact e
          · exact hall q hq
  · rw [if_neg hred]
    have hred' : isRedundant sons = false := by simpa using hred
    refine Ok.bindGet ?_
    refine Ok.bindEq (tableFind_run h hi) ?_
    split
    · rename_i e he
      obtain ⟨hmem, hsons⟩ := Table.find_some (h.tabWF i hi).cap_pos he
      obtain ⟨ss, hk⟩ := h.tabKind i hi e hmem
      have hu := h.tabUsed hi hmem
      have hss : ss = sons := by rw [← hsons, sonsOf_inner hk]
      subst hss
      rw [sonsOf_inner hk]
      refine Ok.tempSons ?_
      refine Ok.bindEq (setNotMarked_all (h.sons e i ss hu hk).2.2) ?_
      refine Ok.bindEq (setMarked_ok hu) (Ok.pure ?_)
      refine ⟨Made.found h hu hk rfl, Or.inr ⟨hred', hk, by simp⟩, fun _ => hmem, ?_⟩
      intro _ hc
      exact ⟨hc.nonred, hc.nodup⟩
    · rename_i he
      have hnone := Table.find_none (f := c.hash) (h.tabWF i hi).toWFb he
      refine Ok.bind (makeNew_spec h hp _) ?_
      rintro p s' ⟨s1, fr, nx, rm, hps, rfl⟩
      have hun := hps.unused rm.inv
      have hsu : ∀ q ∈ sons, s1.used q = true := fun q hq => (rm.prot q (hs q hq)).used rm.inv
      have ne_of_used : ∀ q, s1.used q = true → q ≠ p := by
        rintro q hq rfl
        rw [hun] at hq; cases hq
      have hru : ∀ q ∈ sons, (s1.raw p (.inner i sons) fr nx).used q = true := by
        intro q hq
        simp [Mgr.raw, upd_other _ _ (ne_of_used q (hsu q hq)), hsu q hq]
      refine Ok.bindMod ?_
      refine Ok.bindEq (incRef_all hru) ?_
      refine Ok.bindEq (setNotMarked_all hru) ?_
      refine Ok.bindEq (setMarked_ok (by simp [Mgr.raw])) ?_
      have hinv : Inv c ext tmp (s1.created p (.inner i sons) fr nx
          (upd s1.tables i ((s1.tables i).insert p (c.hash sons))) s1.terminals s1.special
          ((s1.link.setNext p none).insert i (c.hash sons % (s1.tables i).cap) p)) := by
        obtain ⟨l1, l2, l3, l4⟩ := hps.link rm.inv
        refine rm.inv.created hps ?_ hsu ?_ ?_ ?_ (Or.inl ⟨i, sons, rfl⟩)
          (l1.inserted hi (by simp [Links.setNext]) l2 l3 l4)
        · intro j ss e; cases e; exact ⟨hi, hlen⟩
        · intro j hj
          have hcong : ((s1.tables j)).WF
              (fun q => c.hash (if q = p then (Kind.inner i sons).sons else s1.sonsOf q)) := by
            refine (rm.inv.tabWF j hj).congr ?_
            intro q hq
            simp [ne_of_used q (rm.inv.tabUsed hj hq), Mgr.hashOf]
          have hpn : p ∉ (s1.tables j).nodes := fun hq => ne_of_used p (rm.inv.tabUsed hj hq) rfl
          by_cases e : j = i
          · subst e
            rw [upd_same]
            refine ⟨?_, ?_⟩
            · have := hcong.insert hpn
              simpa [Kind.sons] using this
            · intro q
              rw [Table.mem_insert hcong.cap_pos]
              constructor
              · rintro (h1 | h1)
                · exact Or.inr ⟨h1, sons, rfl⟩
                · exact Or.inl h1
              · rintro (h1 | ⟨h1, _⟩)
                · exact Or.inr h1
                · exact Or.inl h1
          · rw [upd_other _ _ e]
            refine ⟨hcong, fun q => ⟨Or.inl, ?_⟩⟩
            rintro (h1 | ⟨_, ss, h2⟩)
            · exact h1
            · cases h2; exact absurd rfl e
        · intro w q
          refine ⟨Or.inl, ?_⟩
          rintro (h1 | ⟨_, h2, _⟩)
          · exact h1
          · cases h2
        · intro q
          refine ⟨Or.inl, ?_⟩
          rintro (h1 | ⟨_, h2⟩)
          · exact h1
          · cases h2
      have hmade := Made.created (k := .inner i sons) rm hps hinv
      refine Ok.of_eq (s' := s1.created p (.inner i sons) fr nx
          (upd s1.tables i ((s1.tables i).insert p (c.hash sons))) s1.terminals s1.special
          ((s1.link.setNext p none).insert i (c.hash sons % (s1.tables i).cap) p))
        ?_ ⟨hmade, Or.inr ⟨hred', by simp [Mgr.created], by simp [Mgr.created]⟩, ?_, ?_⟩
      · have e : (upd (fun q => if q ∈ sons then false else upd s1.mark p false q) p true) =
            fun q => if q = p then true else if q ∈ sons then false else s1.mark q := by
          funext q
          simp only [upd_apply]
          by_cases e : q = p <;> simp [e]
        simp only [pure_run, Mgr.raw, Mgr.created, Kind.sons, e]
        rfl
      · intro _
        simp only [Mgr.created, upd_same]
        exact (Table.mem_insert (rm.inv.tabWF i hi).cap_pos _ _ _).2 (Or.inl rfl)
      · intro htmp hc
        subst htmp
        have fresh : ∀ q, s1.used q = true → s1.kind q ≠ .inner i sons := by
          intro q hq hk
          have hkq : s.kind q = .inner i sons := by rw [← rm.kind]; exact hk
          have : q ∈ (s1.tables i).nodes := by
            rcases (rm.inv.placed q).1 hq with ⟨j, hj, h1⟩ | h1 | h1 | h1
            · obtain ⟨ss', hk'⟩ := rm.inv.tabKind j hj q h1
              rw [hk] at hk'; cases hk'
              exact h1
            · cases h1
            · obtain ⟨w, hw⟩ := List.mem_iff_getElem?.1 h1
              have := (rm.inv.termKind w q hw).1
              rw [hk] at this; cases this
            · have := rm.inv.specKind q h1
              rw [hk] at this; cases this
          exact hnone q (rm.tabBack h hi this) (sonsOf_inner hkq)
        have kind' : ∀ q, q ≠ p → (upd s1.kind p (.inner i sons)) q = s.kind q := by
          intro q hq; rw [upd_other _ _ hq, rm.kind]
        have used' : ∀ q, q ≠ p → upd s1.used p true q = true → s1.used q = true := by
          intro q hq h1; rwa [upd_other _ _ hq] at h1
        constructor
        · intro q j ss hq hk
          by_cases e : q = p
          · subst e
            simp only [Mgr.created, upd_same] at hk
            cases hk
            exact hred'
          · exact hc.nonred q j ss (rm.usedSub q (used' q e hq)) (by rw [← kind' q e]; exact hk)
        · intro q q' j ss hq hq' hk hk'
          by_cases e : q = p <;> by_cases e' : q' = p
          · rw [e, e']
          · subst e
            simp only [Mgr.created, upd_same] at hk
            cases hk
            refine absurd ?_ (fresh q' (used' q' e' hq'))
            rw [rm.kind, ← kind' q' e']; exact hk'
          · subst e'
            simp only [Mgr.created, upd_same] at hk'
            cases hk'
            refine absurd ?_ (fresh q (used' q e hq))
            rw [rm.kind, ← kind' q e]; exact hk
          · exact hc.nodup q q' j ss (rm.usedSub q (used' q e hq)) (rm.usedSub q' (used' q' e' hq'))
              (by rw [← kind' q e]; exact hk) (by rw [← kind' q' e']; exact hk')

theorem Made.canon_leaf {s' : Mgr} {r : Ptr} {v : Int} {sons : List Ptr}
    (m : Made c ext tmp s sons r s')
    (hk : s'.kind r = .leaf v) (hc : Canon s) : Canon s' := by
  obtain ⟨U, hU, hk1, hu, hcl⟩ := m.mid
  have key : ∀ p i ss, s'.used p = true → s'.kind p = .inner i ss → U p := by
    intro p i ss hp hkp
    rcases hu p hp with h1 | rfl
    · exact h1
    · rw [hk] at hkp; cases hkp
  constructor
  · intro p i ss hp hkp
    have h1 := key p i ss hp hkp
    exact hc.nonred p i ss (hU p h1) (by rw [← (hk1 p h1).2]; exact hkp)
  · intro p q i ss hp hq hkp hkq
    have h1 := key p i ss hp hkp
    have h2 := key q i ss hq hkq
    exact hc.nodup p q i ss (hU p h1) (hU q h2) (by rw [← (hk1 p h1).2]; exact hkp)
      (by rw [← (hk1 q h2).2]; exact hkq)

end

end Teddy
