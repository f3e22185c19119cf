import Verif.Proofs.Handle

/-! Constants, variables, transformations and cofactors. -/

namespace Teddy

open SM

section
variable {E : Env} {ext : Ptr → Nat} {s : Mgr}

theorem constant_good (g : Good E ext s) {v : Int} (hv : TermOK E.c v) :
    Ok (constant E.c v) s (fun r s' => NewDiagram E ext s (fun _ => v) r s') := by
  unfold constant
  refine Ok.bind (makeTerminal_good g hv) ?_
  rintro r s1 ⟨st, hk, _⟩
  exact st.diagram (L := 0) ⟨Nat.zero_le _, fun x _ => ⟨v, rfl, .leaf hk⟩⟩

theorem termOK_dom (hc : CfgOK E.c) {i k : Nat} (hi : i < E.c.n) (hk : k < E.c.dom i) :
    TermOK E.c (k : Int) := by
  refine ⟨by omega, fun _ m hm => ?_⟩
  have := hc.fixed m hm i hi
  omega

theorem variableImpl_good (g : Good E ext s) {i : Nat} (hi : i < E.c.n) :
    Ok (variableImpl E.c i) s (fun r s' => Step E ext s r s' ∧
      Rep E.c s' (s.idx2lvl i) r (fun x v => v = (x i : Int)) ∧
      ∀ t, Reach s'.kind r t → s'.mark t = true → t = r) := by
  unfold variableImpl
  refine Ok.bindEq (s' := s) (a := E.c.dom i) (by simp [getDomain, hi]) ?_
  refine Ok.bind (mapL_good (E := E) (ext := ext) (L := fun _ => E.c.n)
    (φ := fun (k : Nat) _ v => v = (k : Int)) (List.range (E.c.dom i)) s ?_ s g (Keeps.refl s)) ?_
  · intro k hk s1 g1 _
    refine (makeTerminal_good g1 (termOK_dom g.cfg hi (List.mem_range.1 hk))).mono ?_
    rintro r s2 ⟨st, hk, _⟩
    exact ⟨st, by simp [Mgr.levelOf, hk], fun x _ => ⟨_, rfl, .leaf hk⟩⟩
  · rintro sons s1 ⟨g1, k1, hlen, hprot, hrep, hmark⟩
    refine (makeInternal_good (φ := fun k _ v => v = (k : Int)) g1 hi
      (by simpa using hlen) hprot ?_).mono ?_
    · intro k q hq
      have hk : k < E.c.dom i := by
        have : k < sons.length := by
          by_contra hc
          rw [List.getElem?_eq_none (by omega)] at hq; cases hq
        simpa [hlen] using this
      have hle := g1.inv.order.i2l_lt i hi
      exact (hrep k k q (by rw [List.getElem?_range hk]) hq).mono (by omega) (fun _ _ _ h => h)
    · rintro r s2 ⟨g2, k2, hp2, hm2, rep2, hres⟩
      refine ⟨⟨g2, k1.trans k2, hp2, ?_⟩, by rw [← k1.i2l]; exact rep2, ?_⟩
      · intro p hp
        rcases hm2 p hp with h1 | ⟨h1, h2⟩
        · exact Or.inl h1
        · rcases hmark p h1 with h3 | h3
          · exact absurd h3 h2
          · exact Or.inr h3
      · have leaf : ∀ q ∈ sons, ∀ t, Reach s2.kind q t → t = q := by
          intro q hq t ht
          obtain ⟨k, hk⟩ := List.mem_iff_getElem?.1 hq
          have hkd : k < E.c.dom i := by
            have : k < sons.length := by
              by_contra hc
              rw [List.getElem?_eq_none (by omega)] at hk; cases hk
            simpa [hlen] using this
          have hlev := (hrep k k q (by rw [List.getElem?_range hkd]) hk).1
          cases ht with
          | refl => rfl
          | step h1 _ _ =>
              rw [k2.kind q (hprot q hq)] at h1
              have := g1.inv.order.i2l_lt _ (g1.inv.sons q _ _ ((hprot q hq).used g1.inv) h1).1
              simp only [Mgr.levelOf, h1] at hlev
              omega
        intro t ht hmt
        rcases hm2 t hmt with h1 | ⟨_, h2⟩
        · exact h1
        · rcases hres with ⟨_, _, h3, _⟩ | ⟨_, h3, _⟩
          · exact leaf r h3 t ht
          · cases ht with
            | refl => rfl
            | step h4 h5 h6 =>
                rw [h3] at h4
                cases h4
                rw [leaf _ h5 _ h6] at h2
                exact absurd h5 h2

theorem variableD_good (g : Good E ext s) {i : Nat} (hi : i < E.c.n) :
    Ok (variableD E.c i) s (fun r s' => NewDiagram E ext s (fun x => (x i : Int)) r s') := by
  unfold variableD
  refine Ok.bind (variableImpl_good g hi) ?_
  rintro r s1 ⟨st, rep, _⟩
  exact st.diagram rep

theorem variableNot_good (g : Good E ext s) {i : Nat} (hi : i < E.c.n)
    (hb : E.c.fixedDom = some 2) :
    Ok (variableNot E.c i) s
      (fun r s' => NewDiagram E ext s (fun x => 1 - (x i : Int)) r s') := by
  have hd : E.c.dom i = 2 := g.cfg.fixed 2 hb i hi
  have t1 : TermOK E.c 1 := by simpa using termOK_dom (k := 1) g.cfg hi (by omega)
  have t0 : TermOK E.c 0 := by simpa using termOK_dom (k := 0) g.cfg hi (by omega)
  unfold variableNot
  refine Ok.bind (makeTerminal_good g t1) ?_
  rintro a s1 ⟨st1, hk1, _⟩
  refine Ok.bind (makeTerminal_good st1.good t0) ?_
  rintro b s2 ⟨st2, hk2, _⟩
  rw [if_pos hi]
  have hka : s2.kind a = .leaf 1 := by rw [st2.keeps.kind a st1.prot]; exact hk1
  have hle := st2.good.inv.order.i2l_lt i hi
  refine Ok.bind (makeInternal_good (φ := fun k _ v => v = 1 - (k : Int)) st2.good hi
    (by simp [hd]) ?_ ?_) ?_
  · intro q hq
    simp at hq
    rcases hq with rfl | rfl
    · exact st2.keeps.prot _ st1.prot
    · exact st2.prot
  · intro k q hq
    match k, hq with
    | 0, hq =>
        simp at hq; subst hq
        exact ⟨by simp [Mgr.levelOf, hka]; omega, fun x _ => ⟨1, by simp, .leaf hka⟩⟩
    | 1, hq =>
        simp at hq; subst hq
        exact ⟨by simp [Mgr.levelOf, hk2]; omega, fun x _ => ⟨0, by simp, .leaf hk2⟩⟩
    | k + 2, hq => simp at hq
  · rintro r s3 ⟨g3, k3, hp3, hm3, rep3, _⟩
    have st3 : Step E ext s r s3 := by
      refine ⟨g3, (st1.keeps.trans st2.keeps).trans k3, hp3, ?_⟩
      intro p hp
      rcases hm3 p hp with h1 | ⟨h1, h2⟩
      · exact Or.inl h1
      · simp at h2
        rcases st2.mark p h1 with h | h
        · exact absurd h h2.2
        · rcases st1.mark p h with h | h
          · exact absurd h h2.1
          · exact Or.inr h
    exact st3.diagram rep3

/-! ### Memoised recursion -/

/-- Every memoised result is protected and represents what it should. -/
def MemoOK (E : Env) (ext : Ptr → Nat) (L : Ptr → Nat) (φ : Ptr → Asg → Int → Prop) (m : Memo)
    (s : Mgr) : Prop :=
  ∀ p r, m p = some r → Prot ext [] s r ∧ Rep E.c s (L p) r (φ p)

theorem MemoOK.keeps {L : Ptr → Nat} {φ : Ptr → Asg → Int → Prop} {m : Memo} {s' : Mgr}
    (h : MemoOK E ext L φ m s) (k : Keeps ext [] s s') : MemoOK E ext L φ m s' :=
  fun p r hr => ⟨k.prot _ (h p r hr).1, (h p r hr).2.keeps k (h p r hr).1⟩

theorem MemoOK.put {L : Ptr → Nat} {φ : Ptr → Asg → Int → Prop} {m : Memo}
    (h : MemoOK E ext L φ m s) {p r : Ptr} (hp : Prot ext [] s r)
    (hr : Rep E.c s (L p) r (φ p)) : MemoOK E ext L φ (upd m p (some r)) s := by
  intro q t hq
  simp only [upd_apply] at hq
  split at hq
  · rename_i e; subst e; cases hq; exact ⟨hp, hr⟩
  · exact h q t hq

theorem MemoOK.empty {L : Ptr → Nat} {φ : Ptr → Asg → Int → Prop} :
    MemoOK E ext L φ (fun _ => none) s := by
  intro p r h; cases h

/-- Rebuilding a node from the results of a memoised recursion on its sons. -/
theorem rebuild_good {s0 : Mgr} {φ : Ptr → Asg → Int → Prop} {F : Ptr → Memo → M (Ptr × Memo)}
    {p : Ptr} {i : Nat} {ss : List Ptr} (g0 : Good E ext s0) (hp : Prot ext [] s0 p)
    (hk : s0.kind p = .inner i ss)
    (hφ : ∀ x, Valid E.c x → ∀ q v, ss[x i]? = some q → φ q x v → φ p x v)
    (hF : ∀ q ∈ ss, ∀ m s, Good E ext s → Keeps ext [] s0 s →
      MemoOK E ext (s0.levelOf E.c) φ m s →
      Ok (F q m) s (fun r s' => Step E ext s r.1 s' ∧ Rep E.c s' (s0.levelOf E.c q) r.1 (φ q) ∧
        MemoOK E ext (s0.levelOf E.c) φ r.2 s'))
    {m : Memo} {s : Mgr} (g : Good E ext s) (k : Keeps ext [] s0 s)
    (hm : MemoOK E ext (s0.levelOf E.c) φ m s) :
    Ok (do
      let (sons', m) ← mapAccL F ss m
      let r ← makeInternal E.c i sons'
      pure (r, upd m p (some r))) s (fun r s' => Step E ext s r.1 s' ∧
        Rep E.c s' (s0.levelOf E.c p) r.1 (φ p) ∧ MemoOK E ext (s0.levelOf E.c) φ r.2 s') := by
  obtain ⟨hi, hlen, hu⟩ := g0.inv.sons p i ss (hp.used g0.inv) hk
  refine Ok.bind (mapAccL_good (E := E) (ext := ext) (L := s0.levelOf E.c) (φ := φ)
    (T := MemoOK E ext (s0.levelOf E.c) φ) ss s0 (fun q hq m s => hF q hq m s) m s g k hm) ?_
  rintro ⟨sons', m1⟩ s1 ⟨g1, k1, hl1, hp1, hr1, hm1, hmo1⟩
  have hlv : s1.idx2lvl i = s0.levelOf E.c p := by
    rw [k1.i2l, k.i2l]; simp [Mgr.levelOf, hk]
  refine Ok.bind (makeInternal_good (φ := fun k x v => ∃ q, ss[k]? = some q ∧ φ q x v) g1 hi
    (by rw [← hlen]; exact hl1) hp1 ?_) ?_
  · intro k q hq
    have hkl : k < ss.length := by
      have : k < sons'.length := by
        by_contra hc
        rw [List.getElem?_eq_none (by omega)] at hq; cases hq
      rw [← hl1]; exact this
    have hget : ss[k]? = some ss[k] := List.getElem?_eq_getElem hkl
    have hlt := g0.ord p i ss _ (hp.used g0.inv) hk (List.getElem_mem hkl)
    refine (hr1 k ss[k] q hget hq).mono (by rw [hlv]; omega) ?_
    intro x v _ h
    exact ⟨ss[k], hget, h⟩
  · rintro r s2 ⟨g2, k2, hp2, hm2, rep2, _⟩
    rw [hlv] at rep2
    have rep : Rep E.c s2 (s0.levelOf E.c p) r (φ p) := by
      refine rep2.mono (Nat.le_refl _) ?_
      rintro x v hx ⟨q, hq, h⟩
      exact hφ x hx q v hq h
    refine Ok.pure ⟨⟨g2, k1.trans k2, hp2, ?_⟩, rep, (hmo1.keeps k2).put hp2 rep⟩
    intro t ht
    rcases hm2 t ht with h1 | ⟨h1, h2⟩
    · exact Or.inl h1
    · rcases hm1 t h1 with h3 | h3
      · exact absurd h3 h2
      · exact Or.inr h3

theorem LeafVal.son {kind : Ptr → Kind} {p q : Ptr} {i : Nat} {ss : List Ptr}
    (hk : kind p = .inner i ss) (hq : q ∈ ss) {v : Int} (h : LeafVal kind q v) :
    LeafVal kind p v := by
  obtain ⟨t, h1, h2⟩ := h
  exact ⟨t, .step hk hq h1, h2⟩

theorem transformImpl_good {s0 : Mgr} (g0 : Good E ext s0) {t : Int → Int} :
    ∀ (f : Nat) (p : Ptr) (m : Memo) (s : Mgr), Good E ext s → Keeps ext [] s0 s →
      Prot ext [] s0 p → (∀ a, LeafVal s0.kind p a → TermOK E.c (t a)) →
      MemoOK E ext (s0.levelOf E.c) (fun p x v => ∃ a, Ev s0.kind x p a ∧ v = t a) m s →
      E.c.n - s0.levelOf E.c p < f →
      Ok (transformImpl E.c t f p m) s (fun r s' => Step E ext s r.1 s' ∧
        Rep E.c s' (s0.levelOf E.c p) r.1 (fun x v => ∃ a, Ev s0.kind x p a ∧ v = t a) ∧
        MemoOK E ext (s0.levelOf E.c) (fun p x v => ∃ a, Ev s0.kind x p a ∧ v = t a) r.2 s') := by
  intro f
  induction f with
  | zero => intro p m s _ _ _ _ _ hf; omega
  | succ f ih =>
      intro p m s g k hp hT hm hf
      simp only [transformImpl]
      cases hmp : m p with
      | some r =>
          have := hm p r hmp
          exact Ok.pure ⟨Step.refl g this.1, this.2, hm⟩
      | none =>
          have hps := k.prot _ hp
          refine Ok.bindEq (getKind_ok (hps.used g.inv)) ?_
          rw [k.kind p hp]
          cases hk : s0.kind p with
          | leaf v =>
              refine Ok.bind (makeTerminal_good g (hT v ⟨p, .refl, hk⟩)) ?_
              rintro r s1 ⟨st, hkr, _⟩
              refine Ok.pure ⟨st, ⟨by simp [Mgr.levelOf, hk, hkr], fun x _ => ?_⟩,
                hm.keeps st.keeps⟩
              exact ⟨t v, ⟨v, .leaf hk, rfl⟩, .leaf hkr⟩
          | inner i ss =>
              refine rebuild_good g0 hp hk ?_ ?_ g k hm
              · rintro x _ q v hq ⟨a, ha, rfl⟩
                exact ⟨a, .inner hk hq ha, rfl⟩
              · intro q hq m s g k hm
                have hlt := g0.ord p i ss q (hp.used g0.inv) hk hq
                have hle := levelOf_le g0.inv ((Prot.son hp hk hq).used g0.inv)
                exact ih q m s g k (.son hp hk hq) (fun a ha => hT a (ha.son hk hq)) hm (by omega)

theorem transform_good (hau : E.auto = false) (g : Good E ext s) {p : Ptr} (hp : Prot ext [] s p) {f : Asg → Int}
    (hf : Den E.c s p f) {t : Int → Int} (ht : ∀ a, Range E.c f a → TermOK E.c (t a)) :
    Ok (transform E.c t p) s (fun r s' => NewDiagram E ext s (fun x => t (f x)) r s') := by
  unfold transform
  refine Ok.bind (transformImpl_good g (E.c.n + 1) p _ s g (Keeps.refl s) hp
    (fun a ha => ht a ((leafVal_iff g (hp.used g.inv) hf).1 ha)) MemoOK.empty (by omega)) ?_
  rintro ⟨r, m⟩ s1 ⟨st, rep, _⟩
  refine Ok.bindEq (runDeferred_ok (st.good.defer hau) _) ?_
  refine st.diagram (rep.mono (Nat.le_refl _) ?_)
  rintro x v hx ⟨a, ha, rfl⟩
  rw [(hf x hx).det ha]

/-! ### Cofactors -/

theorem cofactorImpl_good {s0 : Mgr} (g0 : Good E ext s0) {var val : Nat}
    (hval : var < E.c.n → val < E.c.dom var) :
    ∀ (f : Nat) (p : Ptr) (m : Memo) (s : Mgr), Good E ext s → Keeps ext [] s0 s →
      Prot ext [] s0 p →
      MemoOK E ext (s0.levelOf E.c) (fun p x v => Ev s0.kind (upd x var val) p v) m s →
      E.c.n - s0.levelOf E.c p < f →
      Ok (cofactorImpl E.c var val f p m) s (fun r s' => Step E ext s r.1 s' ∧
        Rep E.c s' (s0.levelOf E.c p) r.1 (fun x v => Ev s0.kind (upd x var val) p v) ∧
        MemoOK E ext (s0.levelOf E.c) (fun p x v => Ev s0.kind (upd x var val) p v) r.2 s') := by
  intro f
  induction f with
  | zero => intro p m s _ _ _ _ hf; omega
  | succ f ih =>
      intro p m s g k hp hm hf
      simp only [cofactorImpl]
      cases hmp : m p with
      | some r =>
          have := hm p r hmp
          exact Ok.pure ⟨Step.refl g this.1, this.2, hm⟩
      | none =>
          have hps := k.prot _ hp
          refine Ok.bindEq (getKind_ok (hps.used g.inv)) ?_
          rw [k.kind p hp]
          cases hk : s0.kind p with
          | leaf v =>
              refine Ok.pure ⟨Step.refl g hps, ⟨by rw [k.levelOf hp], fun x _ => ?_⟩, hm⟩
              exact ⟨v, .leaf hk, (k.ev_iff hp).2 (.leaf hk)⟩
          | inner i ss =>
              obtain ⟨hi, hlen, hu⟩ := g0.inv.sons p i ss (hp.used g0.inv) hk
              dsimp only
              by_cases hiv : i = var
              · subst hiv
                rw [if_pos rfl]
                have hkl : val < ss.length := by rw [hlen]; exact hval hi
                have hget : ss[val]? = some ss[val] := List.getElem?_eq_getElem hkl
                have hmem : ss[val] ∈ ss := List.getElem_mem hkl
                have hlt := g0.ord p i ss _ (hp.used g0.inv) hk hmem
                have hq : Prot ext [] s0 ss[val] := .son hp hk hmem
                refine Ok.bindEq (getSon_ok (hps.used g.inv)
                  (by rw [k.kind p hp]; exact hk) hget) ?_
                refine Ok.pure ⟨Step.refl g (k.prot _ hq), ⟨?_, fun x hx => ?_⟩, hm⟩
                · rw [k.levelOf hq]; omega
                · obtain ⟨v, hv⟩ := Ev.total g0.inv g0.ord hx _ (hq.used g0.inv)
                  refine ⟨v, .inner hk (by rw [upd_same]; exact hget) ?_, (k.ev_iff hq).2 hv⟩
                  refine hv.agree g0.inv g0.ord (hq.used g0.inv) ?_
                  intro j hj
                  have : j ≠ i := by
                    rintro rfl
                    simp only [Mgr.levelOf, hk] at hlt
                    unfold Mgr.levelOf at hj
                    omega
                  rw [upd_other _ _ this]
              · rw [if_neg hiv]
                refine rebuild_good g0 hp hk ?_ ?_ g k hm
                · intro x _ q v hq h
                  exact .inner hk (by rw [upd_other _ _ hiv]; exact hq) h
                · intro q hq m s g k hm
                  have hlt := g0.ord p i ss q (hp.used g0.inv) hk hq
                  have hle := levelOf_le g0.inv ((Prot.son hp hk hq).used g0.inv)
                  exact ih q m s g k (.son hp hk hq) hm (by omega)

theorem valid_upd {c : Cfg} {x : Asg} (hx : Valid c x) {i k : Nat} (h : i < c.n → k < c.dom i) :
    Valid c (upd x i k) := by
  intro j hj
  simp only [upd_apply]
  split
  · rename_i e; subst e; exact h hj
  · exact hx j hj

/-- A copy of an existing diagram. -/
theorem copy_diagram (g : Good E ext s) {p : Ptr} (hp : Prot ext [] s p) {f : Asg → Int}
    (hf : Den E.c s p f) :
    Ok (copyHandle p) s (fun r s' => NewDiagram E ext s f r s') := by
  refine (copyHandle_good g hp).mono ?_
  rintro r s1 ⟨rfl, hh, hm, hk⟩
  refine ⟨hh, ?_, fun p h => by rw [hm] at h; exact h⟩
  intro x hx
  rw [hk]
  exact hf x hx

/-- `Q` holds of the cofactor if it holds of every diagram of the cofactor, also after the reordering that may be due. -/
theorem getCofactor_post (g : Good E ext s) {p : Ptr} (hp : Prot ext [] s p) {f : Asg → Int}
    (hf : Den E.c s p f) {var val : Nat} (hval : var < E.c.n → val < E.c.dom var) {Q : Ptr → Mgr → Prop}
    (hQ : ∀ r s1, NewDiagram E ext s (fun x => f (upd x var val)) r s1 → Q r s1)
    (hD : ∀ r s1, NewDiagram E ext s (fun x => f (upd x var val)) r s1 →
      Ok (runDeferred E.c) s1 (fun _ s' => Q r s')) :
    Ok (getCofactor E.c p var val) s Q := by
  unfold getCofactor
  have hu := hp.used g.inv
  refine Ok.bindEq (getKind_ok hu) ?_
  have main : Ok (do
      let (r, _) ← cofactorImpl E.c var val (E.c.n + 1) p (fun _ => none)
      let d ← mkDiagram r
      runDeferred E.c
      pure d) s Q := by
    refine Ok.bind (cofactorImpl_good g hval (E.c.n + 1) p _ s g (Keeps.refl s) hp
      MemoOK.empty (by omega)) ?_
    rintro ⟨r, m⟩ s1 ⟨st, rep, _⟩
    refine Ok.bind (st.diagram (f := fun x => f (upd x var val)) (rep.mono (Nat.le_refl _) ?_)) ?_
    · intro x v hx h
      exact h.det (hf _ (valid_upd hx hval))
    · intro d s2 nd
      exact Ok.bind (hD d s2 nd) fun _ _ h => Ok.pure h
  cases hk : s.kind p with
  | leaf v =>
      refine (copy_diagram g hp ?_).mono hQ
      intro x hx
      have h1 := hf _ (valid_upd hx hval)
      cases h1 with
      | leaf h => exact .leaf h
      | inner h _ _ => rw [hk] at h; cases h
  | inner i ss =>
      dsimp only
      by_cases hiv : i = var
      · rw [if_pos hiv]
        subst hiv
        obtain ⟨hi, hlen, hus⟩ := g.inv.sons p i ss hu hk
        have hkl : val < ss.length := by rw [hlen]; exact hval hi
        have hget : ss[val]? = some ss[val] := List.getElem?_eq_getElem hkl
        have hmem : ss[val] ∈ ss := List.getElem_mem hkl
        have hlt := g.ord p i ss _ hu hk hmem
        refine Ok.bindEq (getSon_ok hu hk hget) ?_
        have hq : Prot ext [] s ss[val] := .son hp hk hmem
        refine ((Step.refl g hq).diagram (L := 0) ⟨Nat.zero_le _, fun x hx => ?_⟩).mono hQ
        obtain ⟨v, hv⟩ := Ev.total g.inv g.ord hx _ (hus _ hmem)
        refine ⟨v, ?_, hv⟩
        have : Ev s.kind (upd x i val) p v := by
          refine .inner hk (by simpa using hget) (hv.agree g.inv g.ord (hus _ hmem) ?_)
          intro j hj
          have : j ≠ i := by
            rintro rfl
            simp only [Mgr.levelOf, hk] at hlt
            unfold Mgr.levelOf at hj
            omega
          rw [upd_other _ _ this]
        exact this.det (hf _ (valid_upd hx hval))
      · rw [if_neg hiv]
        exact main

theorem findVar_mem {vars : List (Nat × Nat)} {i k : Nat} (h : findVar vars i = some k) :
    (i, k) ∈ vars := by
  unfold findVar at h
  split at h
  · rename_i v hv
    cases h
    have h1 := List.find?_some hv
    have h2 := List.mem_of_find?_eq_some hv
    simp at h1
    rw [← h1]; exact h2
  · cases h

theorem findVar_none {vars : List (Nat × Nat)} {i : Nat} (h : ∀ v ∈ vars, v.1 ≠ i) :
    findVar vars i = none := by
  unfold findVar
  rw [List.find?_eq_none.2 (by intro v hv; simpa using h v hv)]

theorem valid_updAll {c : Cfg} {x : Asg} (hx : Valid c x) {vars : List (Nat × Nat)}
    (h : ∀ v ∈ vars, v.1 < c.n → v.2 < c.dom v.1) : Valid c (updAll x vars) := by
  intro i hi
  unfold updAll
  cases hf : findVar vars i with
  | none => exact hx i hi
  | some k => exact h _ (findVar_mem hf) hi

/-- Number of given variables at level `L` or below. -/
def remaining (s : Mgr) (vars : List (Nat × Nat)) (L : Nat) : Nat :=
  vars.countP (fun v => decide (L ≤ s.idx2lvl v.1))

theorem remaining_mono {vars : List (Nat × Nat)} {L L' : Nat} (h : L ≤ L') :
    remaining s vars L' ≤ remaining s vars L := by
  refine List.countP_mono_left ?_
  intro v _ hv
  simp at *
  omega

theorem remaining_drop {vars : List (Nat × Nat)} {i k : Nat} (h : (i, k) ∈ vars) {L : Nat}
    (hL : s.idx2lvl i < L) : remaining s vars L + 1 ≤ remaining s vars (s.idx2lvl i) := by
  induction vars with
  | nil => cases h
  | cons v vars ih =>
      unfold remaining at *
      simp only [List.countP_cons]
      rcases List.mem_cons.1 h with rfl | h
      · have := remaining_mono (s := s) (vars := vars) (Nat.le_of_lt hL)
        unfold remaining at this
        simp
        rw [if_neg (by omega)]
        omega
      · have := ih h
        by_cases h1 : L ≤ s.idx2lvl v.1
        · have h2 : s.idx2lvl i ≤ s.idx2lvl v.1 := by omega
          simp [h1, h2]; omega
        · simp [h1]
          omega

theorem cofactorsImpl_good {s0 : Mgr} (g0 : Good E ext s0) {vars : List (Nat × Nat)}
    (hval : ∀ v ∈ vars, v.1 < E.c.n → v.2 < E.c.dom v.1) :
    ∀ (f todo : Nat) (p : Ptr) (m : Memo) (s : Mgr), Good E ext s → Keeps ext [] s0 s →
      Prot ext [] s0 p → remaining s0 vars (s0.levelOf E.c p) ≤ todo →
      MemoOK E ext (s0.levelOf E.c) (fun p x v => Ev s0.kind (updAll x vars) p v) m s →
      E.c.n - s0.levelOf E.c p < f →
      Ok (cofactorsImpl E.c vars f todo p m) s (fun r s' => Step E ext s r.1 s' ∧
        Rep E.c s' (s0.levelOf E.c p) r.1 (fun x v => Ev s0.kind (updAll x vars) p v) ∧
        MemoOK E ext (s0.levelOf E.c) (fun p x v => Ev s0.kind (updAll x vars) p v) r.2 s') := by
  intro f
  induction f with
  | zero => intro todo p m s _ _ _ _ _ hf; omega
  | succ f ih =>
      intro todo p m s g k hp hrem hm hf
      have hps := k.prot _ hp
      simp only [cofactorsImpl]
      by_cases ht : todo = 0
      · rw [if_pos ht]
        refine Ok.pure ⟨Step.refl g hps, ⟨by rw [k.levelOf hp], fun x hx => ?_⟩, hm⟩
        obtain ⟨v, hv⟩ := Ev.total g0.inv g0.ord hx _ (hp.used g0.inv)
        refine ⟨v, hv.agree g0.inv g0.ord (hp.used g0.inv) ?_, (k.ev_iff hp).2 hv⟩
        intro j hj
        have : findVar vars j = none := by
          refine findVar_none ?_
          rintro v hvm rfl
          have : 0 < remaining s0 vars (s0.levelOf E.c p) :=
            List.countP_pos_iff.2 ⟨v, hvm, by simpa using hj⟩
          omega
        simp [updAll, this]
      · rw [if_neg ht]
        cases hmp : m p with
        | some r =>
            have := hm p r hmp
            exact Ok.pure ⟨Step.refl g this.1, this.2, hm⟩
        | none =>
            refine Ok.bindEq (getKind_ok (hps.used g.inv)) ?_
            rw [k.kind p hp]
            cases hk : s0.kind p with
            | leaf v =>
                refine Ok.pure ⟨Step.refl g hps, ⟨by rw [k.levelOf hp], fun x _ => ?_⟩, hm⟩
                exact ⟨v, .leaf hk, (k.ev_iff hp).2 (.leaf hk)⟩
            | inner i ss =>
                obtain ⟨hi, hlen, hu⟩ := g0.inv.sons p i ss (hp.used g0.inv) hk
                have hlp : s0.levelOf E.c p = s0.idx2lvl i := by simp [Mgr.levelOf, hk]
                dsimp only
                cases hfv : findVar vars i with
                | some val =>
                    dsimp only
                    have hkl : val < ss.length := by
                      rw [hlen]; exact hval _ (findVar_mem hfv) hi
                    have hget : ss[val]? = some ss[val] := List.getElem?_eq_getElem hkl
                    have hmem : ss[val] ∈ ss := List.getElem_mem hkl
                    have hlt := g0.ord p i ss _ (hp.used g0.inv) hk hmem
                    have hq : Prot ext [] s0 ss[val] := .son hp hk hmem
                    have hle := levelOf_le g0.inv (hq.used g0.inv)
                    have hdrop := remaining_drop (s := s0) (findVar_mem hfv)
                      (L := s0.levelOf E.c ss[val]) (by omega)
                    refine Ok.bindEq (getSon_ok (hps.used g.inv)
                      (by rw [k.kind p hp]; exact hk) hget) ?_
                    rw [hlp] at hrem
                    refine Ok.bind (ih (todo - 1) ss[val] m s g k hq (by omega) hm (by omega)) ?_
                    rintro ⟨r, m1⟩ s1 ⟨st, rep, hm1⟩
                    have rep' : Rep E.c s1 (s0.levelOf E.c p) r
                        (fun x v => Ev s0.kind (updAll x vars) p v) := by
                      refine rep.mono (by omega) ?_
                      intro x v _ h
                      exact .inner hk (by simpa [updAll, hfv] using hget) h
                    exact Ok.pure ⟨st, rep', hm1.put st.prot rep'⟩
                | none =>
                    refine rebuild_good g0 hp hk ?_ ?_ g k hm
                    · intro x _ q v hq h
                      exact .inner hk (by simpa [updAll, hfv] using hq) h
                    · intro q hq m s g k hm
                      have hlt := g0.ord p i ss q (hp.used g0.inv) hk hq
                      have hle := levelOf_le g0.inv ((Prot.son hp hk hq).used g0.inv)
                      have := remaining_mono (s := s0) (vars := vars) (Nat.le_of_lt hlt)
                      exact ih todo q m s g k (.son hp hk hq) (by omega) hm (by omega)

/-- As `getCofactor_post`. -/
theorem getCofactors_post (g : Good E ext s) {p : Ptr} (hp : Prot ext [] s p) {f : Asg → Int}
    (hf : Den E.c s p f) {vars : List (Nat × Nat)}
    (hval : ∀ v ∈ vars, v.1 < E.c.n → v.2 < E.c.dom v.1) {Q : Ptr → Mgr → Prop}
    (hQ : ∀ r s1, NewDiagram E ext s (fun x => f (updAll x vars)) r s1 → Q r s1)
    (hD : ∀ r s1, NewDiagram E ext s (fun x => f (updAll x vars)) r s1 →
      Ok (runDeferred E.c) s1 (fun _ s' => Q r s')) :
    Ok (getCofactors E.c p vars) s Q := by
  unfold getCofactors
  have hu := hp.used g.inv
  refine Ok.bindEq (getKind_ok hu) ?_
  have main : ∀ q todo, Prot ext [] s q → remaining s vars (s.levelOf E.c q) ≤ todo →
      (∀ x v, Valid E.c x → Ev s.kind (updAll x vars) q v → Ev s.kind (updAll x vars) p v) →
      Ok (do
      let (r, _) ← cofactorsImpl E.c vars (E.c.n + 1) todo q (fun _ => none)
      let d ← mkDiagram r
      runDeferred E.c
      pure d) s Q := by
    intro q todo hq hrem hqp
    refine Ok.bind (cofactorsImpl_good g hval (E.c.n + 1) todo q _ s g (Keeps.refl s) hq hrem
      MemoOK.empty (by omega)) ?_
    rintro ⟨r, m⟩ s1 ⟨st, rep, _⟩
    refine Ok.bind (st.diagram (f := fun x => f (updAll x vars))
      (rep.mono (Nat.le_refl _) ?_)) ?_
    · intro x v hx h
      exact (hqp x v hx h).det (hf _ (valid_updAll hx hval))
    · intro d s2 nd
      exact Ok.bind (hD d s2 nd) fun _ _ h => Ok.pure h
  cases hk : s.kind p with
  | leaf v =>
      refine (copy_diagram g hp ?_).mono hQ
      intro x hx
      have h1 := hf _ (valid_updAll hx hval)
      cases h1 with
      | leaf h => exact .leaf h
      | inner h _ _ => rw [hk] at h; cases h
  | inner i ss =>
      dsimp only
      obtain ⟨hi, hlen, hus⟩ := g.inv.sons p i ss hu hk
      cases hfv : findVar vars i with
      | none =>
          refine Ok.bindEq (s' := s) (a := (p, vars.length)) rfl ?_
          exact main p vars.length hp List.countP_le_length (fun _ _ _ h => h)
      | some val =>
          have hkl : val < ss.length := by rw [hlen]; exact hval _ (findVar_mem hfv) hi
          have hget : ss[val]? = some ss[val] := List.getElem?_eq_getElem hkl
          have hmem : ss[val] ∈ ss := List.getElem_mem hkl
          have hlt := g.ord p i ss _ hu hk hmem
          refine Ok.bindEq (s' := s) (a := (ss[val], vars.length - 1)) ?_ ?_
          · dsimp only
            rw [bind_ok (getSon_ok hu hk hget)]; rfl
          · have hdrop := remaining_drop (s := s) (findVar_mem hfv)
              (L := s.levelOf E.c ss[val]) (by simpa [Mgr.levelOf, hk] using hlt)
            have hle : remaining s vars (s.idx2lvl i) ≤ vars.length := List.countP_le_length
            refine main _ _ (.son hp hk hmem) (Nat.le_sub_of_add_le (hdrop.trans hle)) ?_
            intro x v _ h
            exact .inner hk (by simpa [updAll, hfv] using hget) h

theorem getCofactor_good (hau : E.auto = false) (g : Good E ext s) {p : Ptr} (hp : Prot ext [] s p) {f : Asg → Int}
    (hf : Den E.c s p f) {var val : Nat} (hval : var < E.c.n → val < E.c.dom var) :
    Ok (getCofactor E.c p var val) s
      (fun r s' => NewDiagram E ext s (fun x => f (upd x var val)) r s') :=
  getCofactor_post g hp hf hval (fun _ _ nd => nd) fun _ _ nd =>
    Ok.of_eq (runDeferred_ok (nd.handle.good.defer hau) _) nd

theorem getCofactors_good (hau : E.auto = false) (g : Good E ext s) {p : Ptr} (hp : Prot ext [] s p) {f : Asg → Int}
    (hf : Den E.c s p f) {vars : List (Nat × Nat)}
    (hval : ∀ v ∈ vars, v.1 < E.c.n → v.2 < E.c.dom v.1) :
    Ok (getCofactors E.c p vars) s
      (fun r s' => NewDiagram E ext s (fun x => f (updAll x vars)) r s') :=
  getCofactors_post g hp hf hval (fun _ _ nd => nd) fun _ _ nd =>
    Ok.of_eq (runDeferred_ok (nd.handle.good.defer hau) _) nd

end

end Teddy
