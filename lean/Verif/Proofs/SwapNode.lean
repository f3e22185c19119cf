import Verif.Proofs.SwapDec

/-! `swap_node_with_next` keeps the invariant and the functions of all nodes. -/

namespace Teddy

open SM

/-- Position of a node while the variables on levels `L` and `L + 1` (indices `i` and `j`) are
being swapped; `T` are the nodes that are moved. -/
def rankOf (c : Cfg) (T : List Ptr) (i j L : Nat) (s : Mgr) (p : Ptr) : Nat :=
  if p ∈ T then L
  else match s.kind p with
    | .leaf _ => c.n
    | .inner k _ => if k = i ∨ k = j then L + 1 else s.idx2lvl k

/-- Ranks strictly increase from a node to its sons. -/
def RankOrd (c : Cfg) (T : List Ptr) (i j L : Nat) (s : Mgr) : Prop :=
  ∀ p k ss q, s.used p = true → s.kind p = .inner k ss → q ∈ ss →
    rankOf c T i j L s p < rankOf c T i j L s q

/-- State of the manager while two variables are being swapped: the nodes of `todo` have not been
rewritten yet, the other nodes of `T` have. -/
structure Mid (c : Cfg) (ext : Ptr → Nat) (T : List Ptr) (i j L : Nat) (todo : List Ptr)
    (s : Mgr) : Prop where
  inv : Inv c ext T s
  pool : PoolOK c s
  hi : i < c.n
  hj : j < c.n
  lvi : s.idx2lvl i = L
  lvj : s.idx2lvl j = L + 1
  rank : RankOrd c T i j L s
  old : ∀ p ∈ T, p ∈ todo → ∃ ss, s.kind p = .inner i ss ∧ ∀ q ∈ ss, ∀ ts, s.kind q ≠ .inner i ts
  fin : ∀ p ∈ T, p ∉ todo → ∃ ss, s.kind p = .inner j ss ∧ ∀ q ∈ ss, ∀ ts, s.kind q ≠ .inner j ts

/-- What a swap preserves. -/
structure Swapped (c : Cfg) (root : Ptr → Prop) (s s' : Mgr) : Prop where
  ev : ∀ p, root p → ∀ x, Valid c x → ∀ v, Ev s.kind x p v → Ev s'.kind x p v
  mark : ∀ p, s'.mark p = true → s.mark p = true
  gcRatio : s'.gcRatio = s.gcRatio
  auto : s'.autoReorder = s.autoReorder
  deferred : s.autoReorder = false → s'.deferred = s.deferred
  poolEnd : s.poolEnd ≤ s'.poolEnd

theorem Swapped.refl {c : Cfg} {root : Ptr → Prop} (s : Mgr) : Swapped c root s s :=
  ⟨fun _ _ _ _ _ h => h, fun _ h => h, rfl, rfl, fun _ => rfl, Nat.le_refl _⟩

theorem Swapped.trans {c : Cfg} {root : Ptr → Prop} {s1 s2 s3 : Mgr} (a : Swapped c root s1 s2)
    (b : Swapped c root s2 s3) : Swapped c root s1 s3 where
  ev p hp x hx v h := b.ev p hp x hx v (a.ev p hp x hx v h)
  mark p h := a.mark p (b.mark p h)
  gcRatio := b.gcRatio.trans a.gcRatio
  auto := b.auto.trans a.auto
  deferred h := (b.deferred (a.auto.trans h)).trans (a.deferred h)
  poolEnd := a.poolEnd.trans b.poolEnd

theorem Swapped.weaken {c : Cfg} {root root' : Ptr → Prop} {s1 s2 : Mgr}
    (a : Swapped c root s1 s2) (h : ∀ p, root' p → root p) : Swapped c root' s1 s2 :=
  { a with ev := fun p hp => a.ev p (h p hp) }

/-- Entry `[son][k]` of the cofactor matrix. -/
def entryOf (s : Mgr) (j : Nat) (son : Ptr) (k : Nat) : Ptr :=
  match s.kind son with
  | .inner i ss => if i = j then ss.getD k son else son
  | .leaf _ => son

section
variable {c : Cfg} {ext : Ptr → Nat} {T : List Ptr} {i j L : Nat} {s : Mgr}

theorem rankOf_T {p : Ptr} (h : p ∈ T) : rankOf c T i j L s p = L := by simp [rankOf, h]

theorem not_T_of_rank {p : Ptr} (h : L < rankOf c T i j L s p) : p ∉ T := by
  intro hp; rw [rankOf_T hp] at h; omega

theorem rankOf_same {s' : Mgr} {p : Ptr} (hk : p ∉ T → s'.kind p = s.kind p)
    (hl : s'.idx2lvl = s.idx2lvl) : rankOf c T i j L s' p = rankOf c T i j L s p := by
  unfold rankOf
  by_cases h : p ∈ T
  · simp [h]
  · simp [h, hk h, hl]

theorem mapL_run {α β : Type} {f : α → M β} {g : α → β} {l : List α} {s : Mgr}
    (h : ∀ a ∈ l, f a s = .ok (g a, s)) : mapL f l s = .ok (l.map g, s) := by
  induction l with
  | nil => rfl
  | cons a l ih =>
      simp only [mapL]
      rw [bind_ok (h a (by simp)), bind_ok (ih (fun b hb => h b (by simp [hb])))]
      rfl

theorem cofactorEntry_run {son k : Nat} (hu : s.used son = true)
    (hk : ∀ ss, s.kind son = .inner j ss → k < ss.length) :
    cofactorEntry j son k s = .ok (entryOf s j son k, s) := by
  unfold cofactorEntry entryOf
  rw [bind_ok (getKind_ok hu)]
  cases e : s.kind son with
  | leaf v => rfl
  | inner i' ss =>
      by_cases h : i' = j
      · subst h
        have := hk ss e
        simp [this]
      · simp [h]

theorem entryOf_inner {son k : Nat} {ss : List Ptr} (hk : s.kind son = .inner j ss) :
    entryOf s j son k = ss.getD k son := by simp [entryOf, hk]

theorem entryOf_other {son k : Nat} (hk : ∀ ss, s.kind son ≠ .inner j ss) :
    entryOf s j son k = son := by
  unfold entryOf
  split
  · rename_i i' ss e
    rw [if_neg]
    rintro rfl
    exact hk ss e
  · rfl

/-- Entries of the cofactor matrix of a node that was not rewritten yet. -/
theorem Mid.entry {todo : List Ptr} (m : Mid c ext T i j L todo s) (hL : L + 1 < c.n) {p : Ptr}
    {old : List Ptr} (hp : p ∈ T) (hk : s.kind p = .inner i old)
    (hni : ∀ q ∈ old, ∀ ts, s.kind q ≠ .inner i ts) {a : Ptr} (ha : a ∈ old) {k : Nat}
    (hkd : k < c.dom j) :
    Prot ext T s (entryOf s j a k) ∧ L + 1 < rankOf c T i j L s (entryOf s j a k) := by
  have hu := m.inv.tmpUsed hp
  have hPp : Prot ext T s p := .root (Or.inr (Or.inr hp))
  have hPa : Prot ext T s a := .son hPp hk ha
  have hua := hPa.used m.inv
  have hr := m.rank p i old a hu hk ha
  rw [rankOf_T hp] at hr
  have haT := not_T_of_rank hr
  by_cases hkj : ∃ ss, s.kind a = .inner j ss
  · obtain ⟨ss, hkj⟩ := hkj
    have hlen := (m.inv.sons a j ss hua hkj).2.1
    rw [entryOf_inner hkj]
    have hlt : k < ss.length := by omega
    have hmem : ss.getD k a ∈ ss := by
      simp [hlt]
    refine ⟨.son hPa hkj hmem, ?_⟩
    have := m.rank a j ss _ hua hkj hmem
    have e : rankOf c T i j L s a = L + 1 := by simp [rankOf, haT, hkj]
    omega
  · rw [entryOf_other (fun ss h => hkj ⟨ss, h⟩)]
    refine ⟨hPa, ?_⟩
    have hka := hni a ha
    unfold rankOf at hr ⊢
    rw [if_neg haT] at hr ⊢
    cases e : s.kind a with
    | leaf v => simp only; exact hL
    | inner k' ts =>
        have h1 : k' ≠ i := by rintro rfl; exact hka ts e
        have h2 : k' ≠ j := by rintro rfl; exact hkj ⟨ts, e⟩
        simp only [e, h1, h2, or_self, if_false] at hr ⊢
        have hk' := (m.inv.sons a k' ts hua e).1
        have : s.idx2lvl k' ≠ L + 1 := by
          intro h3
          have e1 := m.inv.order.i2l2i k' hk'
          have e2 := m.inv.order.i2l2i j m.hj
          rw [h3, ← m.lvj] at e1
          exact h2 (e1.symm.trans e2)
        omega

/-- Loop invariant of the loop creating the new sons. -/
structure Outer (c : Cfg) (ext : Ptr → Nat) (T : List Ptr) (i j L : Nat) (s : Mgr)
    (old : List Ptr) (bs : List Ptr) (l : List Nat) (s1 : Mgr) : Prop where
  inv : Inv c ext T s1
  keeps : Keeps ext T s s1
  rank : RankOrd c T i j L s1
  todo : l = (List.range (c.dom j)).drop bs.length
  len : bs.length ≤ c.dom j
  res : ∀ k r, bs[k]? = some r → Prot ext T s1 r ∧ L < rankOf c T i j L s1 r ∧
    (∀ ts, s1.kind r ≠ .inner j ts) ∧
    ((∀ a ∈ old, entryOf s j a k = r) ∨ s1.kind r = .inner i (old.map (fun a => entryOf s j a k)))
  mark : ∀ p, s1.mark p = true → s.mark p = true ∨ p ∈ bs

theorem RankOrd.made {s' : Mgr} {sons : List Ptr} {r : Ptr} (m : Made c ext T s sons r s')
    (ho : RankOrd c T i j L s)
    (hr : ∀ k ss, s'.kind r = .inner k ss → ∀ q ∈ ss,
      rankOf c T i j L s' r < rankOf c T i j L s' q) : RankOrd c T i j L s' := by
  obtain ⟨U, hU, hk, hu, hcl⟩ := m.mid
  intro p k ss q hp hkp hq
  rcases hu p hp with h1 | rfl
  · rw [(hk p h1).2] at hkp
    have h2 := hcl p k ss h1 hkp q hq
    have := ho p k ss q (hU p h1) hkp hq
    rw [rankOf_same (fun _ => (hk p h1).2) m.keeps.i2l, rankOf_same (fun _ => (hk q h2).2) m.keeps.i2l]
    exact this
  · exact hr k ss hkp q hq

theorem PoolOK.keeps' {s' : Mgr} (h : PoolOK c s) (k : Keeps ext T s s') : PoolOK c s' where
  extra := h.extra
  den := by rw [k.gcRatio]; exact h.den
  thr := by
    rw [k.gcRatio]
    exact h.thr.trans (Nat.mul_le_mul_left _ k.poolEnd)

theorem outer_step {todo : List Ptr} (m : Mid c ext T i j L todo s) (hL : L + 1 < c.n) {p : Ptr}
    {old : List Ptr} (hij : i ≠ j) (hdi : 0 < c.dom i) (hp : p ∈ T) (hk : s.kind p = .inner i old)
    (hni : ∀ q ∈ old, ∀ ts, s.kind q ≠ .inner i ts) (bs : List Ptr) (k : Nat) (l : List Nat)
    (s1 : Mgr) (h : Outer c ext T i j L s old bs (k :: l) s1) :
    Ok (makeInternal c i (old.map (fun a => entryOf s j a k))) s1
      (fun r s2 => Outer c ext T i j L s old (bs ++ [r]) l s2) := by
  have hlt : bs.length < c.dom j := by
    by_contra hc
    have := h.todo
    rw [List.drop_eq_nil_of_le (by simp; omega)] at this
    cases this
  have htodo := h.todo
  rw [List.drop_eq_getElem_cons (by simpa using hlt)] at htodo
  simp only [List.getElem_range, List.cons.injEq] at htodo
  obtain ⟨rfl, hl⟩ := htodo
  have hlen : old.length = c.dom i := (m.inv.sons p i old (m.inv.tmpUsed hp) hk).2.1
  have hent : ∀ e ∈ old.map (fun a => entryOf s j a bs.length),
      Prot ext T s e ∧ L + 1 < rankOf c T i j L s e := by
    intro e he
    obtain ⟨a, ha, rfl⟩ := List.mem_map.1 he
    exact m.entry hL hp hk hni ha hlt
  have hent1 : ∀ e ∈ old.map (fun a => entryOf s j a bs.length),
      L + 1 < rankOf c T i j L s1 e := by
    intro e he
    obtain ⟨h1, h2⟩ := hent e he
    rw [rankOf_same (fun _ => h.keeps.kind e h1) h.keeps.i2l]
    exact h2
  refine (makeInternal_spec h.inv (m.pool.keeps' h.keeps) m.hi (by simpa using hlen) hdi
    (fun q hq => h.keeps.prot q (hent q hq).1)).mono ?_
  rintro r s2 ⟨md, hres, htab, _⟩
  have hrT : isRedundant (old.map (fun a => entryOf s j a bs.length)) = false → r ∉ T :=
    fun e hT => md.inv.tmpDisj r hT i m.hi (htab e)
  have hres' : L < rankOf c T i j L s2 r ∧ (∀ ts, s2.kind r ≠ .inner j ts) ∧
      ((∀ a ∈ old, entryOf s j a bs.length = r) ∨
        s2.kind r = .inner i (old.map (fun a => entryOf s j a bs.length))) := by
    rcases hres with ⟨_, rfl, hr, hall⟩ | ⟨hred, hkr, _⟩
    · have hrk := hent1 r hr
      refine ⟨by omega, ?_, Or.inl (fun a ha => hall _ (List.mem_map.2 ⟨a, ha, rfl⟩))⟩
      intro ts e
      have : rankOf c T i j L s2 r = L + 1 := by
        simp [rankOf, not_T_of_rank (Nat.lt_of_succ_lt hrk), e]
      omega
    · refine ⟨?_, ?_, Or.inr hkr⟩
      · simp [rankOf, hrT hred, hkr]
      · intro ts e
        rw [hkr] at e
        cases e
        exact hij rfl
  have hmem2 : ∀ e ∈ old.map (fun a => entryOf s j a bs.length),
      rankOf c T i j L s2 e = rankOf c T i j L s1 e := by
    intro e he
    exact rankOf_same (fun _ => md.keeps.kind e (h.keeps.prot e (hent e he).1)) md.keeps.i2l
  refine
    { inv := md.inv, keeps := h.keeps.trans md.keeps, rank := ?_, todo := ?_
      len := by simp; omega, res := ?_, mark := ?_ }
  · refine h.rank.made md ?_
    intro k ss hkr q hq
    rcases hres with ⟨_, rfl, hr, hall⟩ | ⟨hred, hkr', _⟩
    · exact h.rank r k ss q ((h.keeps.prot r (hent r hr).1).used h.inv) hkr hq
    · rw [hkr'] at hkr
      cases hkr
      have e1 : rankOf c T i j L s2 r = L + 1 := by simp [rankOf, hrT hred, hkr']
      rw [e1, hmem2 q hq]
      exact hent1 q hq
  · rw [hl]; simp
  · intro k' r' hk'
    by_cases e : k' < bs.length
    · rw [List.getElem?_append_left e] at hk'
      obtain ⟨a1, a2, a3, a4⟩ := h.res k' r' hk'
      have ek := md.keeps.kind r' a1
      refine ⟨md.keeps.prot r' a1, ?_, ?_, ?_⟩
      · rw [rankOf_same (fun _ => ek) md.keeps.i2l]; exact a2
      · rw [ek]; exact a3
      · rw [ek]; exact a4
    · rw [List.getElem?_append_right (by omega)] at hk'
      have e0 : k' - bs.length = 0 := by
        by_contra h0
        rw [List.getElem?_eq_none (by simp; omega)] at hk'
        cases hk'
      rw [e0] at hk'
      simp only [List.getElem?_cons_zero, Option.some.injEq] at hk'
      subst hk'
      have : k' = bs.length := by omega
      subst this
      exact ⟨md.prot, hres'⟩
  · intro q hq
    rcases md.mark q hq with rfl | ⟨h1, _⟩
    · right; simp
    · rcases h.mark q h1 with h2 | h2
      · exact Or.inl h2
      · right; simp [h2]

/-- State after node `p` was rewritten to test `j` with the sons `outer`. -/
def Mgr.rewired (s : Mgr) (p j : Ptr) (outer : List Ptr) : Mgr :=
  { s with
    kind := upd s.kind p (.inner j outer)
    refs := fun q => s.refs q + outer.count q
    mark := fun q => if q ∈ outer then false else s.mark q
    mem := s.mem.reseat p }

theorem wire_run {l : List Ptr} (hu : ∀ q ∈ l, s.used q = true) :
    forL (fun q => do incRef q; setNotMarked q) l s
      = .ok ((), { s with
          refs := fun q => s.refs q + l.count q
          mark := fun q => if q ∈ l then false else s.mark q }) := by
  induction l generalizing s with
  | nil => simp [forL]
  | cons a l ih =>
      simp only [forL]
      rw [bind_assoc, bind_ok (incRef_ok (hu a (by simp))),
        bind_ok (setNotMarked_ok (s := { s with refs := upd s.refs a (s.refs a + 1) })
          (hu a (by simp)))]
      rw [ih (by intro q hq; exact hu q (by simp [hq]))]
      congr 3
      · funext q
        simp only [upd_apply]
        split
        · rename_i e; subst e; rw [List.count_cons_self]; omega
        · rename_i e; rw [List.count_cons_of_ne (Ne.symm e)]
      · funext q
        simp only [upd_apply, List.mem_cons]
        by_cases h1 : q ∈ l <;> by_cases h2 : q = a <;> simp [h1, h2]

theorem Inv.rewired (h : Inv c ext T s) {p : Ptr} {old outer : List Ptr} (hp : p ∈ T)
    (hk : s.kind p = .inner i old) (hj : j < c.n) (hlen : outer.length = c.dom j)
    (ho : ∀ q ∈ outer, s.used q = true) :
    Inv c (fun q => ext q + old.count q) T (s.rewired p j outer) := by
  have hu := h.tmpUsed hp
  have hko : ∀ q, q ≠ p → (s.rewired p j outer).kind q = s.kind q := by
    intro q hq; simp [Mgr.rewired, upd_other _ _ hq]
  have hkp : (s.rewired p j outer).kind p = .inner j outer := by simp [Mgr.rewired]
  have hso : ∀ q, q ≠ p → (s.rewired p j outer).sonsOf q = s.sonsOf q := by
    intro q hq; simp [Mgr.sonsOf, hko q hq]
  have hdeg : ∀ q, (s.rewired p j outer).inDeg q + old.count q = s.inDeg q + outer.count q := by
    intro q
    have := sum_two (S := Finset.range s.next) (p := p)
      (f := fun r => if s.used r then ((s.rewired p j outer).sonsOf r).count q else 0)
      (g := fun r => if s.used r then (s.sonsOf r).count q else 0)
      (Finset.mem_range.2 (h.pool.usedLt p hu)) (by
        intro x hx
        simp only [hso x hx])
    simp only [hu, if_true, sonsOf_inner hk, sonsOf_inner hkp] at this
    exact this
  have notab : ∀ k, k < c.n → ∀ q ∈ (s.tables k).nodes, q ≠ p := by
    rintro k hk' q hq rfl
    exact h.tmpDisj q hp k hk' hq
  refine
    { tabWF := ?_, tabKind := ?_, termKind := ?_, specKind := ?_, tmpInner := ?_
      tmpDisj := h.tmpDisj, placed := h.placed, sons := ?_, refs := ?_, extUsed := ?_
      markUsed := ?_, pool := ?_
      order := ⟨h.order.i2l_lt, h.order.l2i_lt, h.order.l2i2l, h.order.i2l2i⟩
      mem := h.mem.reseat ⟨h.pool.usedLt p hu, i, old, hk⟩, heap := h.heap, link := h.link }
  · intro k hk'
    refine (h.tabWF k hk').congr ?_
    intro q hq
    simp [Mgr.hashOf, hso q (notab k hk' q hq)]
  · intro k hk' q hq
    rw [hko q (notab k hk' q hq)]
    exact h.tabKind k hk' q hq
  · intro v q hq
    have := h.termKind v q hq
    rw [hko]
    · exact this
    · rintro rfl
      rw [hk] at this; cases this.1
  · intro q hq
    have := h.specKind q hq
    rw [hko]
    · exact this
    · rintro rfl
      rw [hk] at this; cases this
  · intro q hq
    by_cases e : q = p
    · subst e; exact ⟨j, outer, hkp⟩
    · rw [hko q e]; exact h.tmpInner q hq
  · intro q k ss hq hkq
    by_cases e : q = p
    · subst e
      rw [hkp] at hkq
      cases hkq
      exact ⟨hj, hlen, ho⟩
    · rw [hko q e] at hkq
      exact h.sons q k ss hq hkq
  · intro q hq
    have e1 := h.refs q hq
    have e2 := hdeg q
    show s.refs q + outer.count q = ext q + old.count q + (s.rewired p j outer).inDeg q
    omega
  · intro q hq
    by_cases e : 0 < ext q
    · exact h.extUsed q e
    · have : 0 < old.count q := by omega
      exact (h.sons p i old hu hk).2.2 q (List.count_pos_iff.1 this)
  · intro q hq
    simp only [Mgr.rewired] at hq
    split at hq
    · cases hq
    · exact h.markUsed q hq
  · have P := h.pool
    exact ⟨P.freeNodup, P.freeUnused, P.allFree, P.usedLt, P.avail_eq, P.le, P.count⟩

theorem RankOrd.of_gc {s' : Mgr} (h : RankOrd c T i j L s) (g : GcRel ext T s s') :
    RankOrd c T i j L s' := by
  intro p k ss q hp hk hq
  rw [rankOf_same (fun _ => by rw [g.kind]) g.i2l, rankOf_same (fun _ => by rw [g.kind]) g.i2l]
  exact h p k ss q (g.usedSub p hp) (by rw [← g.kind]; exact hk) hq

/-- One node of a swap. -/
theorem swapNode_spec {p : Ptr} {todo : List Ptr} (m : Mid c ext T i j L (p :: todo) s)
    (hL : L + 1 < c.n) (hdom : ∀ k, k < c.n → 0 < c.dom k) (hp : p ∈ T) (hpt : p ∉ todo) :
    Ok (swapNodeWithNext c p) s (fun _ s' => Mid c ext T i j L todo s' ∧
      Swapped c (fun q => 0 < ext q ∨ q ∈ T) s s' ∧ s'.idx2lvl = s.idx2lvl ∧
      s'.lvl2idx = s.lvl2idx) := by
  have hu := m.inv.tmpUsed hp
  obtain ⟨old, hk, hni⟩ := m.old p hp (by simp)
  have hPp : Prot ext T s p := .root (Or.inr (Or.inr hp))
  obtain ⟨_, hlen, hous⟩ := m.inv.sons p i old hu hk
  have hij : i ≠ j := by
    rintro rfl
    have h1 := m.lvi
    have h2 := m.lvj
    omega
  have hPo : ∀ a ∈ old, Prot ext T s a := fun a ha => .son hPp hk ha
  have hrk : ∀ a ∈ old, L < rankOf c T i j L s a := by
    intro a ha
    have := m.rank p i old a hu hk ha
    rwa [rankOf_T hp] at this
  have hjl : s.lvl2idx (1 + s.idx2lvl i) = j := by
    have := m.inv.order.i2l2i j m.hj
    rw [m.lvj] at this
    rw [m.lvi, Nat.add_comm]; exact this
  unfold swapNodeWithNext
  refine Ok.bindEq (getKind_ok hu) ?_
  rw [hk]
  refine Ok.bindGet ?_
  refine Ok.bindEq (getIndex_ok (by rw [m.lvi]; omega)) ?_
  rw [hjl]
  have hmat : mapL (fun son => mapL (cofactorEntry j son) (List.range (c.dom j))) old s
      = .ok (old.map (fun a => (List.range (c.dom j)).map (entryOf s j a)), s) := by
    refine mapL_run (fun a ha => mapL_run (fun k hk' => ?_))
    refine cofactorEntry_run (hous a ha) (fun ss hs => ?_)
    rw [(m.inv.sons a j ss (hous a ha) hs).2.1]
    exact List.mem_range.1 hk'
  refine Ok.bindEq hmat ?_
  have hcol : ∀ k (s1 : Mgr), k < c.dom j → mapL (fun row : List Ptr =>
      (match row[k]? with
      | some q => pure q
      | none => throw .outOfRange : M Ptr))
        (old.map (fun a => (List.range (c.dom j)).map (entryOf s j a))) s1
      = .ok (old.map (fun a => entryOf s j a k), s1) := by
    intro k s1 hk'
    have := mapL_run (s := s1) (f := fun row : List Ptr =>
      (match row[k]? with
      | some q => pure q
      | none => throw .outOfRange : M Ptr)) (g := fun row => row.getD k 0)
      (l := old.map (fun a => (List.range (c.dom j)).map (entryOf s j a))) (by
        intro row hrow
        obtain ⟨a, _, rfl⟩ := List.mem_map.1 hrow
        simp [hk'])
    rw [this]
    congr 2
    rw [List.map_map]
    refine List.map_congr_left (fun a _ => ?_)
    simp [hk']
  have hloop := mapL_rule (f := fun k => (do
        let inner ← mapL (fun row : List Ptr =>
          match row[k]? with
          | some q => pure q
          | none => throw .outOfRange)
            (old.map (fun a => (List.range (c.dom j)).map (entryOf s j a)))
        makeInternal c i inner : M Ptr))
    (Outer c ext T i j L s old) (by
      intro bs k l s1 h
      have hk' : k < c.dom j := by
        have : k ∈ (List.range (c.dom j)).drop bs.length := by rw [← h.todo]; simp
        exact List.mem_range.1 (List.mem_of_mem_drop this)
      exact Ok.bindEq (hcol k s1 hk')
        (outer_step m hL hij (hdom i m.hi) hp hk hni bs k l s1 h))
    (List.range (c.dom j)) [] s
    { inv := m.inv, keeps := Keeps.refl s, rank := m.rank, todo := by simp
      len := by simp, res := by intro k r h; simp at h
      mark := fun p h => Or.inl h }
  refine Ok.bind hloop ?_
  intro outer s1 h
  rw [List.nil_append] at h
  have holen : outer.length = c.dom j := by
    have h1 := h.len
    have h2 := List.drop_eq_nil_iff.1 h.todo.symm
    simp at h2
    omega
  have hou : ∀ q ∈ outer, s1.used q = true := by
    intro q hq
    obtain ⟨k, hk'⟩ := List.mem_iff_getElem?.1 hq
    exact (h.res k q hk').1.used h.inv
  have hk1 : s1.kind p = .inner i old := by rw [h.keeps.kind p hPp]; exact hk
  have hu1 := h.inv.tmpUsed hp
  refine Ok.bindEq (setSons_run hu1 hk1 (h.inv.mem.arr_mem (h.inv.pool.usedLt p hu1) hk1)) ?_
  refine Ok.bindEq (wire_run (s := { s1 with
    kind := upd s1.kind p (.inner j outer), mem := s1.mem.reseat p }) hou) ?_
  show Ok _ (s1.rewired p j outer) _
  have hinv2 := h.inv.rewired hp hk1 m.hj holen hou
  have hkp2 : (s1.rewired p j outer).kind p = .inner j outer := by simp [Mgr.rewired]
  have hko2 : ∀ q, q ≠ p → (s1.rewired p j outer).kind q = s1.kind q := by
    intro q hq; simp [Mgr.rewired, upd_other _ _ hq]
  have hko : ∀ q, Prot ext T s q → q ≠ p → (s1.rewired p j outer).kind q = s.kind q := by
    intro q hq hne; rw [hko2 q hne]; exact h.keeps.kind q hq
  have neT : ∀ {q}, q ∉ T → q ≠ p := by
    rintro q hq rfl; exact hq hp
  have hPp2 : Prot ext T (s1.rewired p j outer) p := .root (Or.inr (Or.inr hp))
  have hget : ∀ k, k < c.dom j → ∃ r, outer[k]? = some r := by
    intro k hk'
    exact ⟨outer[k], List.getElem?_eq_getElem (by omega)⟩
  -- all matrix entries are protected after the rewriting
  have hentP : ∀ a ∈ old, ∀ k, k < c.dom j → Prot ext T (s1.rewired p j outer) (entryOf s j a k) := by
    intro a ha k hk'
    obtain ⟨r, hr⟩ := hget k hk'
    obtain ⟨a1, a2, a3, a4⟩ := h.res k r hr
    have hr2 : Prot ext T (s1.rewired p j outer) r := .son hPp2 hkp2 (List.mem_of_getElem? hr)
    rcases a4 with a4 | a4
    · rw [a4 a ha]; exact hr2
    · refine .son hr2 (i := i) (ss := old.map (fun a => entryOf s j a k)) ?_
        (List.mem_map.2 ⟨a, ha, rfl⟩)
      rw [hko2 r (neT (not_T_of_rank a2))]
      exact a4
  have hdecs := decSons_spec (ext := ext) (tmp := T) (f := c.n - 1) m.hj old (s1.rewired p j outer)
    hinv2 (by
      intro a ha
      have haT := not_T_of_rank (hrk a ha)
      refine ⟨haT, ?_⟩
      by_cases hkj : ∃ ss, s.kind a = .inner j ss
      · obtain ⟨ss, hkj⟩ := hkj
        refine Or.inr ⟨ss, by rw [hko a (hPo a ha) (neT haT)]; exact hkj, ?_⟩
        intro y hy
        obtain ⟨k, hk', rfl⟩ := List.mem_iff_getElem.1 hy
        have hl2 := (m.inv.sons a j ss (hous a ha) hkj).2.1
        have e : entryOf s j a k = ss[k] := by
          rw [entryOf_inner hkj]; simp [hk']
        rw [← e]
        refine ⟨?_, hentP a ha k (by omega)⟩
        have := (m.entry hL hp hk hni ha (k := k) (by omega)).2
        exact not_T_of_rank (Nat.lt_of_succ_lt this)
      · left
        have := hentP a ha 0 (hdom j m.hj)
        rwa [entryOf_other (fun ss h => hkj ⟨ss, h⟩)] at this)
  have hfuel : c.n - 1 + 2 = c.n + 1 := by omega
  rw [hfuel] at hdecs
  refine Ok.thenTempSons (hdecs.mono ?_)
  rintro _ s3 ⟨hinv3, g3⟩
  have hrank2 : ∀ q, rankOf c T i j L (s1.rewired p j outer) q = rankOf c T i j L s1 q :=
    fun q => rankOf_same (fun hq => hko2 q (neT hq)) rfl
  have hord2 : RankOrd c T i j L (s1.rewired p j outer) := by
    intro q k ss y hq hkq hy
    rw [hrank2, hrank2]
    by_cases e : q = p
    · subst e
      rw [hkp2] at hkq
      cases hkq
      rw [rankOf_T hp]
      obtain ⟨k', hk'⟩ := List.mem_iff_getElem?.1 hy
      exact (h.res k' y hk').2.1
    · rw [hko2 q e] at hkq
      exact h.rank q k ss y hq hkq hy
  have hi2l : s3.idx2lvl = s.idx2lvl := g3.i2l.trans h.keeps.i2l
  refine ⟨?_, ?_, hi2l, g3.l2i.trans h.keeps.l2i⟩
  · refine
      { inv := hinv3, pool := ?_, hi := m.hi, hj := m.hj, lvi := by rw [hi2l]; exact m.lvi
        lvj := by rw [hi2l]; exact m.lvj, rank := hord2.of_gc g3, old := ?_, fin := ?_ }
    · have := m.pool.keeps' h.keeps
      exact ⟨this.extra, by rw [g3.gcRatio]; exact this.den,
        by rw [g3.gcRatio, g3.poolEnd]; exact this.thr⟩
    · intro q hq hqt
      obtain ⟨ss, a1, a2⟩ := m.old q hq (by simp [hqt])
      have hne : q ≠ p := by rintro rfl; exact hpt hqt
      have hPq : Prot ext T s q := .root (Or.inr (Or.inr hq))
      refine ⟨ss, by rw [g3.kind, hko q hPq hne]; exact a1, ?_⟩
      intro y hy ts
      have hyr := m.rank q i ss y (m.inv.tmpUsed hq) a1 hy
      rw [rankOf_T hq] at hyr
      rw [g3.kind, hko y (.son hPq a1 hy) (neT (not_T_of_rank hyr))]
      exact a2 y hy ts
    · intro q hq hqt
      by_cases hne : q = p
      · subst hne
        refine ⟨outer, by rw [g3.kind]; exact hkp2, ?_⟩
        intro y hy ts
        obtain ⟨k', hk'⟩ := List.mem_iff_getElem?.1 hy
        obtain ⟨_, b2, b3, _⟩ := h.res k' y hk'
        rw [g3.kind, hko2 y (neT (not_T_of_rank b2))]
        exact b3 ts
      · obtain ⟨ss, a1, a2⟩ := m.fin q hq (by simp [hqt, hne])
        have hPq : Prot ext T s q := .root (Or.inr (Or.inr hq))
        refine ⟨ss, by rw [g3.kind, hko q hPq hne]; exact a1, ?_⟩
        intro y hy ts
        have hyr := m.rank q j ss y (m.inv.tmpUsed hq) a1 hy
        rw [rankOf_T hq] at hyr
        rw [g3.kind, hko y (.son hPq a1 hy) (neT (not_T_of_rank hyr))]
        exact a2 y hy ts
  · have key : ∀ x, Valid c x → ∀ y v, Ev s.kind x y v → Prot ext T s y → Ev s3.kind x y v := by
      intro x hx y v hy
      induction hy with
      | leaf hky =>
          rename_i y v
          intro hP
          have hne : y ≠ p := by rintro rfl; rw [hk] at hky; cases hky
          exact .leaf (by rw [g3.kind, hko y hP hne]; exact hky)
      | inner hky hq hev ih =>
          rename_i y z k ss v
          intro hP
          have hz : z ∈ ss := List.mem_of_getElem? hq
          have hz3 := ih (.son hP hky hz)
          by_cases hne : y = p
          · subst hne
            rw [hk] at hky
            cases hky
            have hxj : x j < c.dom j := hx j m.hj
            obtain ⟨r, hr⟩ := hget (x j) hxj
            obtain ⟨b1, b2, b3, b4⟩ := h.res (x j) r hr
            -- the matrix entry has the right value
            have hent : Ev s3.kind x (entryOf s j z (x j)) v := by
              by_cases hkj : ∃ ts, s.kind z = .inner j ts
              · obtain ⟨ts, hkj⟩ := hkj
                have hkz : s3.kind z = .inner j ts := by
                  rw [g3.kind, hko z (hPo z hz) (neT (not_T_of_rank (hrk z hz)))]
                  exact hkj
                rw [entryOf_inner hkj]
                cases hz3 with
                | leaf e => rw [hkz] at e; cases e
                | inner e e2 e3 =>
                    rw [hkz] at e; cases e
                    simpa [List.getD, e2] using e3
              · rw [entryOf_other (fun ts e => hkj ⟨ts, e⟩)]
                exact hz3
            refine .inner (by rw [g3.kind]; exact hkp2) hr ?_
            rcases b4 with b4 | b4
            · rw [← b4 z hz]; exact hent
            · refine .inner (i := i) (ss := old.map (fun a => entryOf s j a (x j)))
                (by rw [g3.kind, hko2 r (neT (not_T_of_rank b2))]; exact b4) ?_ hent
              rw [List.getElem?_map, hq]
              rfl
          · exact .inner (by rw [g3.kind, hko y hP hne]; exact hky) hq hz3
    refine
      { ev := ?_, mark := ?_, gcRatio := g3.gcRatio.trans h.keeps.gcRatio
        auto := g3.auto.trans h.keeps.auto
        deferred := fun e => g3.deferred.trans (h.keeps.deferred e)
        poolEnd := by rw [g3.poolEnd]; exact h.keeps.poolEnd }
    · intro q hq x hx v hv
      exact key x hx q v hv (.root (Or.inr hq))
    · intro q hq
      rw [g3.mark] at hq
      simp only [Mgr.rewired] at hq
      split at hq
      · cases hq
      · rename_i hqo
        rcases h.mark q hq with h1 | h1
        · exact h1
        · exact absurd h1 hqo

end

end Teddy
