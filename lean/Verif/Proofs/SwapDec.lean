import Verif.Proofs.Make

/-! Reference counting inside a swap of two variables: `dec_ref_try_gc`. -/

namespace Teddy

open SM

section
variable {c : Cfg} {ext : Ptr → Nat} {tmp : List Ptr} {s : Mgr}

/-- State after one reference to `p` was given up. -/
def Mgr.decd (s : Mgr) (p : Ptr) : Mgr := { s with refs := upd s.refs p (s.refs p - 1) }

theorem decRefTryGc_keep {f : Nat} {p : Ptr} (hu : s.used p = true) (hr : 0 < s.refs p)
    (hc : (s.decd p).canBeGced p = false) :
    decRefTryGc c (f + 1) p s = .ok ((), s.decd p) := by
  simp only [decRefTryGc, bind_run, decRef_ok hu hr, get_run]
  have : ({ s with refs := upd s.refs p (s.refs p - 1) } : Mgr) = s.decd p := rfl
  rw [this, hc]
  rfl

/-- Giving up references to nodes that stay referenced is plain counting. -/
theorem decRefTryGc_all {f : Nat} {l : List Ptr} (hu : ∀ p ∈ l, s.used p = true)
    (hr : ∀ p, l.count p ≤ s.refs p)
    (hk : ∀ p ∈ l, ¬ (s.refs p - l.count p = 0 ∧ s.mark p = false)) :
    forL (decRefTryGc c (f + 1)) l s = forL decRef l s := by
  induction l generalizing s with
  | nil => rfl
  | cons a l ih =>
      have h1 := hr a
      simp only [List.count_cons_self] at h1
      have h2 := hk a (by simp)
      simp only [List.count_cons_self] at h2
      simp only [forL]
      rw [bind_ok (decRef_ok (hu a (by simp)) (by omega)),
        bind_ok (decRefTryGc_keep (hu a (by simp)) (by omega) (by
          by_contra hc
          obtain ⟨e1, e2⟩ := canBeGced_iff.1 (by simpa using hc)
          simp only [Mgr.decd, upd_same] at e1 e2
          exact h2 ⟨by omega, e2⟩))]
      refine ih (s := s.decd a) (fun p hp => hu p (by simp [hp])) ?_ ?_
      · intro p
        have := hr p
        simp only [Mgr.decd, upd_apply]
        split
        · rename_i e; subst e; rw [List.count_cons_self] at this; omega
        · rename_i e; rw [List.count_cons_of_ne (Ne.symm e)] at this; omega
      · intro p hp
        have := hk p (by simp [hp])
        simp only [Mgr.decd, upd_apply]
        split
        · rename_i e; subst e; rw [List.count_cons_self] at this
          intro hh; exact this ⟨by omega, hh.2⟩
        · rename_i e; rw [List.count_cons_of_ne (Ne.symm e)] at this; exact this

/-- Freeing an internal node whose sons stay is what the sweep does. -/
theorem decRefTryGc_free {f : Nat} {p i : Ptr} {ss : List Ptr} (h : Inv c ext tmp (s.decd p))
    (hu : s.used p = true) (hr : 0 < s.refs p) (hk : s.kind p = .inner i ss)
    (hc : (s.decd p).canBeGced p = true)
    (hs : ∀ q ∈ ss, ¬ ((s.decd p).refs q - ss.count q = 0 ∧ s.mark q = false)) :
    decRefTryGc c (f + 2) p s
      = collectNode i (c.hash ss % (s.tables i).cap) p (s.decd p) := by
  have hu1 : (s.decd p).used p = true := hu
  have hk1 : (s.decd p).kind p = .inner i ss := hk
  have hcount : ∀ q, ss.count q ≤ (s.decd p).refs q := by
    intro q
    by_cases hq : q ∈ ss
    · have h1 := h.refs q ((h.sons p i ss hu1 hk1).2.2 q hq)
      have h2 := count_le_inDeg (p := q) hu1 (h.pool.usedLt p hu1)
      rw [sonsOf_inner hk1] at h2
      omega
    · rw [List.count_eq_zero.2 hq]; omega
  have hd := decRefTryGc_all (c := c) (f := f) (l := ss) (s := s.decd p)
    (h.sons p i ss hu1 hk1).2.2 hcount hs
  have hd2 := decRef_all (l := ss) (s := s.decd p) (h.sons p i ss hu1 hk1).2.2 hcount
  rw [decRefTryGc]
  rw [bind_ok (decRef_ok hu hr)]
  show (_ : M Unit) (s.decd p) = _
  simp only [collectNode, bind_run, get_run, hc, if_true, hk1, chkUsed_ok hu1, hd,
    sonsOf_inner hk1, hd2]
  rfl

theorem Inv.decd {e : Ptr → Nat} {p : Ptr} (h : Inv c (fun q => e q + if q = p then 1 else 0) tmp s) :
    Inv c e tmp (s.decd p) := by
  have hd : (s.decd p).inDeg = s.inDeg := rfl
  refine
    { tabWF := h.tabWF, tabKind := h.tabKind, termKind := h.termKind, specKind := h.specKind
      tmpInner := h.tmpInner, tmpDisj := h.tmpDisj, placed := h.placed, sons := h.sons
      refs := ?_, extUsed := fun q hq => h.extUsed q (by omega), markUsed := h.markUsed
      pool := ?_, order := ⟨h.order.i2l_lt, h.order.l2i_lt, h.order.l2i2l, h.order.i2l2i⟩
      mem := h.mem, heap := h.heap, link := h.link }
  · intro q hq
    have := h.refs q hq
    rw [hd]
    simp only [Mgr.decd, upd_apply]
    by_cases e : q = p
    · subst e; simp at this ⊢; omega
    · simpa [e] using this
  · have P := h.pool
    exact ⟨P.freeNodup, P.freeUnused, P.allFree, P.usedLt, P.avail_eq, P.le, P.count⟩

theorem GcRel.decd {p : Ptr} : GcRel ext tmp s (s.decd p) := by
  refine { kind := rfl, mark := rfl, data := rfl, i2l := rfl, l2i := rfl, cache := rfl
           gcRatio := rfl, cacheRatio := rfl, adj := rfl, auto := rfl, deferred := rfl, next := rfl
           poolEnd := rfl, cap := fun _ => rfl, termLen := rfl, usedSub := fun _ h => h, prot := ?_ }
  intro q hq
  exact Prot.of_same (s := s) (s' := s.decd p) rfl rfl hq

theorem Prot.ext_mono {e e' : Ptr → Nat} (he : ∀ p, e p ≤ e' p) {p : Ptr} (h : Prot e tmp s p) :
    Prot e' tmp s p := by
  induction h with
  | root hr =>
      refine .root ?_
      rcases hr with h1 | h1 | h1
      · exact Or.inl h1
      · exact Or.inr (Or.inl (Nat.lt_of_lt_of_le h1 (he _)))
      · exact Or.inr (Or.inr h1)
  | son _ hk hq ih => exact .son ih hk hq

theorem GcRel.weaken {e e' : Ptr → Nat} {s' : Mgr} (g : GcRel e' tmp s s') : GcRel e tmp s s' :=
  { g with prot := fun _ h => Prot.of_same g.kind g.mark h }

/-- Giving up the old sons of a rewritten node: each of them is protected, or is a node of the
variable below all of whose sons are protected. -/
theorem decSons_spec {j f : Nat} (hj : j < c.n) :
    ∀ (l : List Ptr) (s : Mgr), Inv c (fun q => ext q + l.count q) tmp s →
      (∀ q ∈ l, q ∉ tmp ∧ (Prot ext tmp s q ∨
        ∃ ss, s.kind q = .inner j ss ∧ ∀ y ∈ ss, y ∉ tmp ∧ Prot ext tmp s y)) →
      Ok (forL (decRefTryGc c (f + 2)) l) s
        (fun _ s' => Inv c ext tmp s' ∧ GcRel ext tmp s s') := by
  intro l
  induction l with
  | nil => intro s h _; exact Ok.pure ⟨by simpa using h, GcRel.refl s⟩
  | cons a l ih =>
      intro s h hl
      have hu : s.used a = true := h.extUsed a (by simp)
      have hr : 0 < s.refs a := by
        have := h.refs a hu
        simp only [List.count_cons_self] at this
        omega
      have h1 : Inv c (fun q => ext q + l.count q) tmp (s.decd a) := by
        refine Inv.decd ?_
        have e : (fun q => ext q + l.count q + if q = a then 1 else 0) =
            fun q => ext q + (a :: l).count q := by
          funext q
          by_cases e : q = a
          · subst e; rw [List.count_cons_self]; simp; omega
          · rw [List.count_cons_of_ne (Ne.symm e)]; simp [e]
        rw [e]; exact h
      have mono : ∀ q, ext q ≤ ext q + l.count q := fun q => Nat.le_add_right _ _
      have step : Ok (decRefTryGc c (f + 2) a) s (fun _ s' =>
          Inv c (fun q => ext q + l.count q) tmp s' ∧ GcRel ext tmp s s') := by
        by_cases hc : (s.decd a).canBeGced a = true
        · obtain ⟨hr0, hm0⟩ := canBeGced_iff.1 hc
          obtain ⟨hat, hP | ⟨ss, hk, hss⟩⟩ := hl a (by simp)
          · exact absurd ((Prot.of_same (s := s) (s' := s.decd a) rfl rfl hP).ext_mono mono)
              (not_prot h1 hu hr0 hm0 hat)
          · have hb : a ∈ (s.tables j).nodes := by
              have hpl := (h.placed a).1 hu
              rcases hpl with ⟨j', hj', hm⟩ | hm | hm | hm
              · obtain ⟨ss', hk'⟩ := h.tabKind j' hj' a hm
                rw [hk] at hk'; cases hk'
                exact hm
              · exact absurd hm hat
              · obtain ⟨w, hw⟩ := List.mem_iff_getElem?.1 hm
                have := (h.termKind w a hw).1
                rw [hk] at this; cases this
              · have := h.specKind a hm
                rw [hk] at this; cases this
            have hb2 : a ∈ (s.tables j).buckets (c.hash ss % (s.tables j).cap) := by
              have := (h.tabWF j hj).mem_nodes.1 hb
              simpa [Mgr.hashOf, sonsOf_inner hk] using this
            have hlt : c.hash ss % (s.tables j).cap < (s.tables j).cap :=
              Nat.mod_lt _ (h.tabWF j hj).cap_pos
            have hspec := collectNode_spec h1 (b := c.hash ss % (s.tables j).cap) hj hlt hb2
            -- the sons of `a` survive: they are protected in the state after the removal
            obtain ⟨_, he, _⟩ := h1.link.erased h1.apart hj hlt hb2 (Nat.le_succ_of_le (h1.bucketLen hj hlt))
            have hrun := collectNode_del h1 (i := j) (b := c.hash ss % (s.tables j).cap) hu hc he
            obtain ⟨hinv2, hgc2, _⟩ := hspec.elim hrun
            have hfree := decRefTryGc_free (f := f) h1 hu hr hk hc (by
              rintro y hy ⟨e1, e2⟩
              obtain ⟨hyt, hyP⟩ := hss y hy
              have hyP2 := hgc2.prot y ((Prot.of_same (s := s) (s' := s.decd a) rfl rfl hyP).ext_mono mono)
              refine not_prot hinv2 (hyP2.used hinv2) ?_ e2 hyt hyP2
              show (s.decd a).refs y - ((s.decd a).sonsOf a).count y = 0
              rw [sonsOf_inner (s := s.decd a) hk]
              exact e1)
            refine Ok.of_eq (hfree.trans hrun) ⟨hinv2, ?_⟩
            exact GcRel.decd.trans hgc2.weaken
        · exact Ok.of_eq (decRefTryGc_keep hu hr (by simpa using hc)) ⟨h1, GcRel.decd⟩
      refine Ok.bind step ?_
      rintro _ s1 ⟨hi1, g1⟩
      refine (ih s1 hi1 ?_).mono ?_
      · intro q hq
        obtain ⟨a1, a2⟩ := hl q (by simp [hq])
        refine ⟨a1, ?_⟩
        rcases a2 with a2 | ⟨ss, hk, a2⟩
        · exact Or.inl (g1.prot q a2)
        · exact Or.inr ⟨ss, by rw [g1.kind]; exact hk, fun y hy => ⟨(a2 y hy).1, g1.prot y (a2 y hy).2⟩⟩
      · rintro _ s2 ⟨hi2, g2⟩
        exact ⟨hi2, g1.trans g2⟩

end

end Teddy
