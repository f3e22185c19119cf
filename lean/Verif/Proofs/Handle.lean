import Verif.Proofs.Apply

/-! Creating, copying and dropping diagram handles. -/

namespace Teddy

open SM

/-- One more handle of `r`. -/
def addExt (ext : Ptr → Nat) (r : Ptr) : Ptr → Nat := upd ext r (ext r + 1)

/-- One handle of `r` less. -/
def subExt (ext : Ptr → Nat) (r : Ptr) : Ptr → Nat := upd ext r (ext r - 1)

/-- Nodes kept across a change of the handles. -/
structure KeepsX (ext : Ptr → Nat) (s : Mgr) (ext' : Ptr → Nat) (s' : Mgr) : Prop where
  prot : ∀ p, Prot ext [] s p → Prot ext' [] s' p
  kind : ∀ p, Prot ext [] s p → s'.kind p = s.kind p
  i2l : s'.idx2lvl = s.idx2lvl
  l2i : s'.lvl2idx = s.lvl2idx

section
variable {E : Env} {ext : Ptr → Nat} {s : Mgr}

theorem Keeps.toX {s' : Mgr} (k : Keeps ext [] s s') : KeepsX ext s ext s' :=
  ⟨k.prot, k.kind, k.i2l, k.l2i⟩

theorem KeepsX.trans {e1 e2 e3 : Ptr → Nat} {s1 s2 s3 : Mgr} (a : KeepsX e1 s1 e2 s2)
    (b : KeepsX e2 s2 e3 s3) : KeepsX e1 s1 e3 s3 where
  prot p h := b.prot p (a.prot p h)
  kind p h := (b.kind p (a.prot p h)).trans (a.kind p h)
  i2l := b.i2l.trans a.i2l
  l2i := b.l2i.trans a.l2i

theorem KeepsX.ev_iff {ext' : Ptr → Nat} {s' : Mgr} (k : KeepsX ext s ext' s') {x : Asg} {p : Ptr}
    {v : Int} (hp : Prot ext [] s p) : Ev s'.kind x p v ↔ Ev s.kind x p v :=
  Ev.transfer_iff (Prot ext [] s) k.kind (fun _ _ _ hp hk _ hq => .son hp hk hq) hp

theorem KeepsX.levelOf {c : Cfg} {ext' : Ptr → Nat} {s' : Mgr} (k : KeepsX ext s ext' s') {p : Ptr}
    (hp : Prot ext [] s p) : s'.levelOf c p = s.levelOf c p := by
  simp [Mgr.levelOf, k.kind p hp, k.i2l]

theorem KeepsX.rep {c : Cfg} {ext' : Ptr → Nat} {s' : Mgr} {L : Nat} {r : Ptr}
    {φ : Asg → Int → Prop} (k : KeepsX ext s ext' s') (h : Rep c s L r φ)
    (hp : Prot ext [] s r) : Rep c s' L r φ := by
  refine ⟨by rw [k.levelOf hp]; exact h.1, fun x hx => ?_⟩
  obtain ⟨v, h1, h2⟩ := h.2 x hx
  exact ⟨v, h1, (k.ev_iff hp).2 h2⟩

theorem KeepsX.den {c : Cfg} {ext' : Ptr → Nat} {s' : Mgr} (k : KeepsX ext s ext' s') {p : Ptr}
    {f : Asg → Int} (hp : Prot ext [] s p) (h : Den c s p f) : Den c s' p f :=
  fun x hx => (k.ev_iff hp).2 (h x hx)

/-- Changing reference counts together with handles, and marks. -/
theorem Inv.refsMark {c : Cfg} {ext' : Ptr → Nat} (h : Inv c ext [] s) {R : Ptr → Nat}
    {m : Ptr → Bool} (hR : ∀ p, s.used p = true → R p = ext' p + s.inDeg p)
    (hx : ∀ p, 0 < ext' p → s.used p = true) (hm : ∀ p, m p = true → s.used p = true) :
    Inv c ext' [] { s with refs := R, mark := m } where
  tabWF := h.tabWF
  tabKind := h.tabKind
  termKind := h.termKind
  specKind := h.specKind
  tmpInner := h.tmpInner
  tmpDisj := h.tmpDisj
  placed := h.placed
  sons := h.sons
  refs := hR
  extUsed := hx
  markUsed := hm
  pool := ⟨h.pool.freeNodup, h.pool.freeUnused, h.pool.allFree, h.pool.usedLt, h.pool.avail_eq,
    h.pool.le, h.pool.count⟩
  order := ⟨h.order.i2l_lt, h.order.l2i_lt, h.order.l2i2l, h.order.i2l2i⟩
  mem := h.mem
  heap := h.heap
  link := h.link

theorem Good.refsMark {ext' : Ptr → Nat} (g : Good E ext s) {R : Ptr → Nat}
    {m : Ptr → Bool} (hR : ∀ p, s.used p = true → R p = ext' p + s.inDeg p)
    (hx : ∀ p, 0 < ext' p → s.used p = true) (hm : ∀ p, m p = true → s.used p = true) :
    Good E ext' { s with refs := R, mark := m } where
  cfg := g.cfg
  inv := g.inv.refsMark hR hx hm
  ord := g.ord
  pool := ⟨g.pool.extra, g.pool.den, g.pool.thr⟩
  auto := g.auto
  defer := g.defer
  pool0 := g.pool0
  canon h := ⟨(g.canon h).nonred, (g.canon h).nodup⟩
  cache h := fun i e he =>
    have ok := g.cache h i e he
    ok.same rfl rfl ⟨ok.lhs, ok.rhs, ok.res⟩

theorem Prot.mono {ext' : Ptr → Nat} {s' : Mgr} (hk : ∀ p, Prot ext [] s p → s'.kind p = s.kind p)
    (hr : ∀ p, s.mark p = true ∨ 0 < ext p → Prot ext' [] s' p) {p : Ptr}
    (h : Prot ext [] s p) : Prot ext' [] s' p := by
  induction h with
  | root h =>
      rcases h with h | h | h
      · exact hr _ (Or.inl h)
      · exact hr _ (Or.inr h)
      · simp at h
  | son hp hkp hq ih => exact .son ih (by rw [hk _ hp]; exact hkp) hq

/-- A new handle. -/
structure NewHandle (E : Env) (ext : Ptr → Nat) (s : Mgr) (r : Ptr) (s' : Mgr) : Prop where
  good : Good E (addExt ext r) s'
  keeps : KeepsX ext s (addExt ext r) s'

theorem NewHandle.prot {r : Ptr} {s' : Mgr} (_ : NewHandle E ext s r s') :
    Prot (addExt ext r) [] s' r :=
  .root (Or.inr (Or.inl (by simp [addExt])))

theorem mkDiagram_good (g : Good E ext s) {r : Ptr} (hp : Prot ext [] s r) :
    Ok (mkDiagram r) s (fun p s' => p = r ∧ NewHandle E ext s r s' ∧
      s'.mark = upd s.mark r false ∧ s'.kind = s.kind) := by
  have hu := hp.used g.inv
  unfold mkDiagram
  refine Ok.bindEq (incRef_ok hu) ?_
  refine Ok.bindEq (setNotMarked_ok hu) (Ok.pure ⟨rfl, ⟨?_, ?_⟩, rfl, rfl⟩)
  · refine g.refsMark ?_ ?_ ?_
    · intro p hp
      have := g.inv.refs p hp
      simp only [upd_apply, addExt]
      split
      · rename_i e; subst e; omega
      · exact this
    · intro p hp
      simp only [upd_apply, addExt] at hp
      split at hp
      · rename_i e; subst e; exact hu
      · exact g.inv.extUsed p hp
    · intro p hp
      simp only [upd_apply] at hp
      split at hp
      · cases hp
      · exact g.inv.markUsed p hp
  · refine ⟨fun p hp => hp.mono (by intros; rfl) ?_, fun _ _ => rfl, rfl, rfl⟩
    intro p hp
    by_cases e : p = r
    · subst e
      exact .root (Or.inr (Or.inl (by simp [addExt])))
    · rcases hp with h | h
      · exact .root (Or.inl (by simpa [upd_apply, e] using h))
      · exact .root (Or.inr (Or.inl (by simpa [addExt, upd_apply, e] using h)))

theorem copyHandle_good (g : Good E ext s) {r : Ptr} (hp : Prot ext [] s r) :
    Ok (copyHandle r) s (fun p s' => p = r ∧ NewHandle E ext s r s' ∧
      s'.mark = s.mark ∧ s'.kind = s.kind) := by
  have hu := hp.used g.inv
  unfold copyHandle
  refine Ok.bindEq (incRef_ok hu) (Ok.pure ⟨rfl, ⟨?_, ?_⟩, rfl, rfl⟩)
  · refine g.refsMark (m := s.mark) ?_ ?_ g.inv.markUsed
    · intro p hp
      have := g.inv.refs p hp
      simp only [upd_apply, addExt]
      split
      · rename_i e; subst e; omega
      · exact this
    · intro p hp
      simp only [upd_apply, addExt] at hp
      split at hp
      · rename_i e; subst e; exact hu
      · exact g.inv.extUsed p hp
  · refine ⟨fun p hp => hp.mono (by intros; rfl) ?_, fun _ _ => rfl, rfl, rfl⟩
    intro p hp
    rcases hp with h | h
    · exact .root (Or.inl h)
    · refine .root (Or.inr (Or.inl ?_))
      simp only [addExt, upd_apply]
      split
      · omega
      · exact h

theorem dropHandle_good (g : Good E ext s) {r : Ptr} (hr : 0 < ext r) :
    Ok (dropHandle r) s (fun _ s' => Good E (subExt ext r) s' ∧ s'.mark = s.mark ∧
      s'.kind = s.kind ∧ s'.idx2lvl = s.idx2lvl ∧ s'.lvl2idx = s.lvl2idx ∧ s'.used = s.used) := by
  have hu := g.inv.extUsed r hr
  have e := g.inv.refs r hu
  unfold dropHandle
  refine Ok.of_eq (decRef_ok hu (by omega)) ⟨?_, rfl, rfl, rfl, rfl, rfl⟩
  refine g.refsMark (m := s.mark) ?_ ?_ g.inv.markUsed
  · intro p hp
    have := g.inv.refs p hp
    simp only [upd_apply, subExt]
    split
    · rename_i e; subst e; omega
    · exact this
  · intro p hp
    simp only [upd_apply, subExt] at hp
    split at hp
    · rename_i e; subst e; exact hu
    · exact g.inv.extUsed p hp

/-- After dropping, what is protected by other handles is kept. -/
theorem subExt_prot {r : Ptr} {s' : Mgr} (hk : s'.kind = s.kind) (hm : s'.mark = s.mark)
    {p : Ptr} (h : Prot (subExt ext r) [] s p) : Prot (subExt ext r) [] s' p := h.same hk hm

theorem runDeferred_ok (h : s.deferred = false) (c : Cfg) : runDeferred c s = .ok ((), s) := by
  simp [runDeferred, bind_run, h]

/-! ### Values of reachable terminals are values of the function -/

theorem Ev.agree {c : Cfg} {tmp : List Ptr} (h : Inv c ext tmp s) (ho : Ordered c s) {x y : Asg}
    {p : Ptr} {v : Int} (hu : s.used p = true)
    (hxy : ∀ i, s.levelOf c p ≤ s.idx2lvl i → x i = y i) (he : Ev s.kind x p v) :
    Ev s.kind y p v := by
  induction he with
  | leaf hk => exact .leaf hk
  | inner hk hq _ ih =>
      rename_i p q i ss v _
      have hmem := List.mem_of_getElem? hq
      have hlt := ho p i ss q hu hk hmem
      refine .inner hk ?_ (ih ((h.sons p i ss hu hk).2.2 q hmem) ?_)
      · rw [← hxy i (by simp [Mgr.levelOf, hk])]; exact hq
      · intro j hj
        exact hxy j (by omega)

theorem LeafVal.attained {c : Cfg} {tmp : List Ptr} (h : Inv c ext tmp s) (ho : Ordered c s)
    (hc : CfgOK c) {p : Ptr} (hu : s.used p = true) {v : Int} (hv : LeafVal s.kind p v) :
    ∃ x, Valid c x ∧ Ev s.kind x p v := by
  obtain ⟨q, hr, hq⟩ := hv
  induction hr with
  | refl =>
      exact ⟨fun _ => 0, fun i hi => hc.dom_pos i hi, .leaf hq⟩
  | step hk hmem _ ih =>
      rename_i p q r i ss _
      obtain ⟨hi, hlen, hus⟩ := h.sons p i ss hu hk
      obtain ⟨x, hx, he⟩ := ih (hus _ hmem) hq
      obtain ⟨k, hget⟩ := List.mem_iff_getElem?.1 hmem
      have hkl : k < ss.length := by
        by_contra hcon
        rw [List.getElem?_eq_none (by omega)] at hget; cases hget
      have hlt := ho p i ss q hu hk hmem
      refine ⟨upd x i k, ?_, .inner hk (by simpa using hget) (he.agree h ho (hus _ hmem) ?_)⟩
      · intro j hj
        simp only [upd_apply]
        split
        · rename_i e; subst e; omega
        · exact hx j hj
      · intro j hj
        have : j ≠ i := by
          rintro rfl
          simp only [Mgr.levelOf, hk] at hlt
          unfold Mgr.levelOf at hj
          omega
        rw [upd_other _ _ this]

theorem leafVal_iff (g : Good E ext s) {p : Ptr} (hu : s.used p = true) {f : Asg → Int}
    (hf : Den E.c s p f) {v : Int} : LeafVal s.kind p v ↔ ∃ x, Valid E.c x ∧ f x = v := by
  constructor
  · intro h
    obtain ⟨x, hx, he⟩ := h.attained g.inv g.ord g.cfg hu
    exact ⟨x, hx, (hf x hx).det he⟩
  · rintro ⟨x, hx, rfl⟩
    exact (hf x hx).leafVal

/-! ### `apply` -/

/-- Result of an operation that returns a new diagram of the function `f`. -/
structure NewDiagram (E : Env) (ext : Ptr → Nat) (s : Mgr) (f : Asg → Int) (r : Ptr) (s' : Mgr) :
    Prop where
  handle : NewHandle E ext s r s'
  den : Den E.c s' r f
  mark : ∀ p, s'.mark p = true → s.mark p = true

/-- Wrapping the node a computation returned. -/
theorem Step.diagram {s1 : Mgr} {r : Ptr} {L : Nat} {f : Asg → Int} (st : Step E ext s r s1)
    (rep : Rep E.c s1 L r (fun x v => v = f x)) :
    Ok (mkDiagram r) s1 (fun p s' => NewDiagram E ext s f p s') := by
  refine (mkDiagram_good st.good st.prot).mono ?_
  rintro p s2 ⟨rfl, hh, hm, hk⟩
  refine ⟨⟨hh.good, st.keeps.toX.trans hh.keeps⟩, ?_, ?_⟩
  · intro x hx
    obtain ⟨v, rfl, he⟩ := rep.2 x hx
    rw [hk]; exact he
  · intro q hq
    rw [hm] at hq
    simp only [upd_apply] at hq
    split at hq
    · cases hq
    · rename_i hne
      rcases st.mark q hq with h | h
      · exact absurd h hne
      · exact h

theorem BinOp.val_of {op : BinOp} {a b v : Int} (h : op.fn a b = .ok v) : op.val a b = v := by
  simp [BinOp.val, h]

theorem apply_good {op : BinOp} (hau : E.auto = false) (hca : E.cache = true) (hΓ : E.Γ (opType E.c op).id = opType E.c op)
    (g : Good E ext s) {lhs rhs : Ptr} (hl : Prot ext [] s lhs) (hr : Prot ext [] s rhs)
    {f h : Asg → Int} (hf : Den E.c s lhs f) (hh : Den E.c s rhs h)
    (hop : OpOK E.c (opType E.c op) (Range E.c f) (Range E.c h)) :
    Ok (apply E.c op lhs rhs) s
      (fun r s' => NewDiagram E ext s (fun x => (opType E.c op).val (f x) (h x)) r s') := by
  unfold apply
  have hA := fun v => (leafVal_iff g (hl.used g.inv) hf (v := v)).1
  have hB := fun v => (leafVal_iff g (hr.used g.inv) hh (v := v)).1
  refine Ok.bind (applyImpl_spec hΓ hca (E.c.n + 1) s lhs rhs g hl hr (hop.mono hA hB)
    (by omega)) ?_
  rintro r s1 ⟨st, rep⟩
  refine Ok.bindEq (runDeferred_ok (st.good.defer hau) _) ?_
  refine st.diagram (rep.mono (Nat.le_refl _) ?_)
  rintro x v hx ⟨a, b, ha, hb, hv⟩
  have e1 := (hf x hx).det ha
  have e2 := (hh x hx).det hb
  rw [e1, e2, BinOp.val_of hv]

end

end Teddy
