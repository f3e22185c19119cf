import Verif.Proofs.Reduce
import Verif.Proofs.Throwing

/-! Reducing all diagrams and collecting garbage restores canonicity; histories refine the specification. -/

namespace Teddy

open SM Spec

section
variable {c : Cfg} {ext : Ptr → Nat} {s s' : Mgr}

/-- A garbage collection only shortens the chains. -/
theorem FirstK.of_room (h : Inv c ext [] s) (r : Room c ext [] s s') (t : TabSub s s') : FirstK c ext s s' := by
  have hso : s'.sonsOf = s.sonsOf := by
    funext p
    simp only [Mgr.sonsOf, r.kind]
  refine ⟨fun i => (t i).1, fun he i hi p hp hf => ?_⟩
  have w := h.tabWF i hi
  have w' := r.inv.tabWF i hi
  obtain ⟨hpn, -⟩ := Table.find_some w.cap_pos hf
  obtain ⟨ss, hk⟩ := h.tabKind i hi p hpn
  have hpn' : p ∈ (s'.tables i).nodes :=
    (r.inv.inTable ((r.prot p hp).used r.inv) ((congrFun r.kind p).trans hk)).resolve_right (by simp)
  have hb := w'.toWFb.mem_nodes.1 hpn'
  have hcp := he i hi
  unfold First Table.find at hf ⊢
  rw [hso, hcp]
  simp only [Mgr.hashOf, hso, hcp] at hb
  have hlt : c.hash (s.sonsOf p) % (s.tables i).cap < (s.tables i).cap := Nat.mod_lt _ w.cap_pos
  exact find?_sublist ((t i).2 hcp _) (w.nodup _ hlt) hf hb (by simp) (fun _ _ h => h)

theorem forceGc_sub (c : Cfg) : Always (forceGc c) TabSub :=
  Always.bind TabSub.trans (collectGarbage_sub c) fun _ => Always.modify fun _ => TabSub.of_eq rfl

theorem Sel.of_same (h : SameTab s s') {p : Ptr} (hp : Sel c s p) : Sel c s' p := by
  have fk : FirstK c (fun _ => 1) s s' := FirstK.of_same h
  induction hp with
  | leaf hk => exact .leaf (by rw [h.2]; exact hk)
  | inner hk hi hf hr _ ih =>
      exact .inner (by rw [h.2]; exact hk) hi
        (fk.first (fun _ _ => by rw [h.1]) _ hi _ (.root (Or.inr (Or.inl Nat.one_pos))) hf) hr ih

theorem Sel.reach {p q : Ptr} (h : Sel c s p) (r : Reach s.kind p q) : Sel c s q := by
  induction r with
  | refl => exact h
  | step hk hq _ ih =>
      cases h with
      | leaf hk' => rw [hk'] at hk; cases hk
      | inner hk' _ _ _ h5 => rw [hk'] at hk; cases hk; exact ih (h5 _ hq)

/-- If every node is selected the heap is canonical. -/
theorem canon_of_sel (h : ∀ p, s.used p = true → Sel c s p) : Canon s := by
  refine ⟨fun p i ss hp hk => ?_, fun p q i ss hp hq hk hk' => ?_⟩
  · cases h p hp with
    | leaf h1 => rw [h1] at hk; cases hk
    | inner h1 _ _ h4 _ => rw [h1] at hk; cases hk; exact h4
  · cases h p hp with
    | leaf h1 => rw [h1] at hk; cases hk
    | inner h1 _ h3 _ _ =>
        rw [h1] at hk; cases hk
        cases h q hq with
        | leaf h1' => rw [h1'] at hk'; cases hk'
        | inner h1' _ h3' _ _ =>
            rw [h1'] at hk'; cases hk'
            unfold First at h3 h3'
            rw [show s.sonsOf p = s.sonsOf q from by simp [Mgr.sonsOf, h1, h1']] at h3
            rw [h3] at h3'
            exact Option.some.inj h3'

end

section
variable {P : Setup} {σ : SState} {w : World}

/-- Without marks, protected nodes hang below handles. -/
theorem rooted (hm : ∀ p, w.mgr.mark p = false) {q : Ptr} (h : Prot (extW w) [] w.mgr q) :
    ∃ (a r : Nat), w.slots[a]? = some (some r) ∧ Reach w.mgr.kind r q := by
  induction h with
  | @root p h =>
      rcases h with h | h | h
      · rw [hm] at h; cases h
      · have : 0 < w.slots.count (some p) := by simpa [extW, extL] using h
        obtain ⟨a, ha, e⟩ := List.getElem_of_mem (List.count_pos_iff.1 this)
        exact ⟨a, p, by rw [List.getElem?_eq_getElem ha, e], .refl⟩
      · simp at h
  | @son p q i ss hpp hk hq ih =>
      obtain ⟨a, r, h1, h2⟩ := ih
      refine ⟨a, r, h1, ?_⟩
      clear h1 hpp
      induction h2 with
      | refl => exact .step hk hq .refl
      | step hk' hq' _ ih' => exact .step hk' hq' (ih' hk)

theorem assignSlot_same (xs : List (Option Ptr)) (i : Nat) (v : Option Ptr) :
    Always (assignSlot xs i v) SameTab := by
  unfold assignSlot
  cases xs[i]? with
  | none => exact Always.throw
  | some o =>
      cases o with
      | none => exact Always.pure SameTab.refl
      | some q => exact Always.bind SameTab.trans (decRef_same _) fun _ => Always.pure SameTab.refl

theorem moveSlot_same (xs : List (Option Ptr)) (i j : Nat) : Always (moveSlot xs i j) SameTab := by
  unfold moveSlot
  cases xs[j]? with
  | none => exact Always.throw
  | some v => exact assignSlot_same _ _ _

/-- The handle `a` is selected. -/
def SelAt (P : Setup) (w : World) (a : Nat) : Prop :=
  ∀ p, w.slots[a]? = some (some p) → Sel P.c w.mgr p

theorem moveSlot_eq {xs ys : List (Option Ptr)} {i j : Nat} {s s' : Mgr}
    (e : moveSlot xs i j s = .ok (ys, s')) : ∃ v, xs[j]? = some v ∧ ys = (xs.set j none).set i v := by
  unfold moveSlot at e
  cases hv : xs[j]? with
  | none => rw [hv] at e; cases e
  | some v =>
      rw [hv] at e
      refine ⟨v, rfl, ?_⟩
      dsimp only at e
      unfold assignSlot at e
      cases ho : (xs.set j none)[i]? with
      | none => rw [ho] at e; cases e
      | some o =>
          rw [ho] at e
          cases o with
          | none => cases e; rfl
          | some old =>
              change (decRef old >>= fun _ => pure _) s = _ at e
              cases hx : decRef old s with
              | error x =>
                  simp only [bind, StateT.bind, hx, Except.bind] at e
                  cases e
              | ok x =>
                  simp only [bind, StateT.bind, hx, Except.bind] at e
                  cases e
                  rfl

/-- What `move` does to the world. -/
theorem move_exec {a b : Nat} {o : Out} {w' : World} (e : exec P.c (.move a b) w = .ok (o, w')) :
    SameTab w.mgr w'.mgr ∧ ∃ v, w.slots[b]? = some v ∧ w'.slots = (w.slots.set b none).set a v := by
  cases h : moveSlot w.slots a b w.mgr with
  | error x =>
      simp only [exec, bind, StateT.bind, get, getThe, MonadStateOf.get, StateT.get, Except.bind, onMgr, h,
        pure, Except.pure] at e
      cases e
  | ok r =>
      obtain ⟨ys, s'⟩ := r
      have hs := moveSlot_same _ _ _ _ _ _ h
      obtain ⟨v, hv, rfl⟩ := moveSlot_eq h
      simp only [exec, bind, StateT.bind, get, getThe, MonadStateOf.get, StateT.get, Except.bind, onMgr, h,
        pure, Except.pure] at e
      cases e
      exact ⟨hs, v, hv, rfl⟩

theorem SState.Has.append {a : Nat} {f : Asg → Int} (h : σ.Has a f) (T : List (Option (Asg → Int))) :
    ({ σ with slots := σ.slots ++ T } : SState).Has a f := by
  have hl := h.lt
  unfold SState.Has at h ⊢
  rw [List.getElem?_append_left hl]
  exact h

/-- Reducing the handles in `as` one after the other and collecting garbage. -/
theorem reduceAll_run {s0 : Mgr} : ∀ (as done : List Nat) (σ : SState) (w : World), Rel P σ w → σ.clean = true → σ.auto = false →
    (∀ a ∈ as, Adm P σ (.reduce a)) → (∀ a f, σ.Has a f → a ∈ done ∨ a ∈ as) →
    (∀ i, (s0.tables i).cap ≤ (w.mgr.tables i).cap) →
    (SameCap P.c s0 w.mgr → ∀ a ∈ done, SelAt P w a) →
    ∃ os w', execAll P.c (reduceAll σ.slots.length as) w = .ok (os, w') ∧
      Rel P { σ with slots := σ.slots ++ List.replicate as.length none } w' ∧
      (∀ i, (s0.tables i).cap ≤ (w'.mgr.tables i).cap) ∧
      (SameCap P.c s0 w'.mgr → Canon w'.mgr) := by
  intro as
  induction as with
  | nil =>
      intro done σ w R hcl _ _ hall hcap hsel
      obtain ⟨_, s', e, rm, _, _, _, hp⟩ := forceGc_spec R.good.inv
      have ex : exec P.c .forceGc w = .ok (.unit, { w with mgr := s' }) := by
        simp only [exec, forceGcD, bind, StateT.bind, onMgr]
        rw [show forceGc P.c w.mgr = _ from e]
        rfl
      obtain ⟨o, w', ex', rfl, R', hs', hp'⟩ := forceGc_sim R
      rw [ex] at ex'
      cases ex'
      have sub := forceGc_sub _ _ _ _ e
      have fk := FirstK.of_room R.good.inv rm sub
      refine ⟨[.unit], _, ?_, by simpa using R', fun i => (hcap i).trans (sub i).1, fun hc => ?_⟩
      · simp only [reduceAll, execAll, bind, StateT.bind, ex, Except.bind, pure, StateT.pure, Except.pure]
      · have h1 : SameCap P.c s0 w.mgr := fun i hi => by
          have h3 : (s'.tables i).cap = (s0.tables i).cap := hc i hi
          have := hcap i; have := (sub i).1; omega
        have h2 : SameCap P.c w.mgr s' := fun i hi => by
          have h3 : (s'.tables i).cap = (s0.tables i).cap := hc i hi
          have := hcap i; have := (sub i).1; omega
        refine canon_of_sel (c := P.c) fun p hu => ?_
        obtain ⟨a, r, ha, hr⟩ := rooted (w := { w with mgr := s' }) (R'.clean hcl) (hp' p hu)
        have hlt : a < σ.slots.length := by rw [← R.len]; exact lt_of_getElem?_some ha
        obtain ⟨o, t, h3, h4, h5⟩ := R.getSlot hlt
        rw [show w.slots[a]? = _ from ha] at h3
        cases h3
        cases t with
        | none => cases h5
        | some f =>
            have hd : a ∈ done := (hall a f h4).resolve_right (by simp)
            exact ((hsel h1 a hd r ha).keeps rm.keeps fk h2 (handle_prot (extL_pos ha))).reach hr
  | cons a as ih =>
      intro done σ w R hcl hau hadm hall hcap hsel
      obtain ⟨f, hf, _⟩ := id (hadm a (by simp))
      obtain ⟨r, w1, e1, sl1, R1, c1, s1⟩ := reduce_call R hau (hadm a (by simp))
      have ha := hf.lt
      obtain ⟨o, w2, e2, rfl, R2⟩ := move_sim R1 (a := a) (b := σ.slots.length) (by simp; omega) (by simp)
      obtain ⟨st, v, hv, sl2⟩ := move_exec e2
      rw [sl1, ← R.len] at hv sl2
      rw [List.getElem?_append_right (Nat.le_refl _)] at hv
      simp only [Nat.sub_self, List.getElem?_cons_zero] at hv
      cases hv
      have hslots : (({ σ with slots := σ.slots ++ [some (σ.fn a)] } : SState).slots.set σ.slots.length none).set a
          ({ σ with slots := σ.slots ++ [some (σ.fn a)] } : SState).slots[σ.slots.length]?.join =
          σ.slots ++ [none] := by
        dsimp only
        rw [List.getElem?_append_right (Nat.le_refl _), List.set_append_right _ _ (Nat.le_refl _),
          Nat.sub_self, List.getElem?_cons_zero, List.set_cons_zero, List.set_append_left _ _ ha, hf.fn]
        congr 1
        apply List.ext_getElem?
        intro k
        rw [List.getElem?_set]
        split
        · rename_i ek
          subst ek
          exact hf.symm
        · rfl
      rw [hslots] at R2
      rw [R.len] at e1
      have hr2 : ∀ k p, w2.slots[k]? = some (some p) → (k = a ∧ p = r) ∨
          k ≠ a ∧ w.slots[k]? = some (some p) := by
        intro k p hk
        rw [sl2] at hk
        by_cases hka : k = a
        · subst hka
          rw [List.getElem?_set] at hk
          simp at hk
          exact Or.inl ⟨rfl, hk.2.symm⟩
        · rw [List.getElem?_set_ne (Ne.symm hka), List.set_append_right _ _ (Nat.le_refl _),
            Nat.sub_self, List.set_cons_zero] at hk
          refine Or.inr ⟨hka, ?_⟩
          by_cases hkl : k < w.slots.length
          · rw [List.getElem?_append_left hkl] at hk
            exact hk
          · rw [List.getElem?_append_right (by omega)] at hk
            cases hx : k - w.slots.length with
            | zero => rw [hx] at hk; cases hk
            | succ m => rw [hx] at hk; simp at hk
      have h1 : ∀ b ∈ as, Adm P { σ with slots := σ.slots ++ [none] } (.reduce b) := by
        intro b hb
        obtain ⟨g, hg, ht⟩ := hadm b (by simp [hb])
        exact ⟨g, hg.append _, ht⟩
      have h2 : ∀ b g, ({ σ with slots := σ.slots ++ [none] } : SState).Has b g → b ∈ a :: done ∨ b ∈ as := by
        intro b g hg
        have hb : b < σ.slots.length := by
          by_contra hcon
          have hl := hg.lt
          simp at hl
          have : b = σ.slots.length := by omega
          subst this
          unfold SState.Has at hg
          simp at hg
        have : σ.Has b g := by
          unfold SState.Has at hg ⊢
          rw [← hg, List.getElem?_append_left hb]
        rcases hall b g this with h | h
        · exact Or.inl (by simp [h])
        · rcases List.mem_cons.1 h with rfl | h
          · exact Or.inl (by simp)
          · exact Or.inr h
      have h3 : ∀ i, (s0.tables i).cap ≤ (w2.mgr.tables i).cap := by
        intro i
        rw [st.1]
        exact (hcap i).trans (c1 i)
      have h4 : SameCap P.c s0 w2.mgr → ∀ b ∈ a :: done, SelAt P w2 b := by
        intro hc b hb
        have hc1 : SameCap P.c w.mgr w1.mgr := fun i hi => by
          have := hc i hi; rw [st.1] at this; have := hcap i; have := c1 i; omega
        have hc0 : SameCap P.c s0 w.mgr := fun i hi => by
          have := hc i hi; rw [st.1] at this; have := hcap i; have := c1 i; omega
        intro p hp
        rcases hr2 b p hp with ⟨rfl, rfl⟩ | ⟨hba, hw⟩
        · exact (s1 hc1).1.of_same st
        · exact ((s1 hc1).2 b p hw (hsel hc0 b (by simpa [hba] using hb) p hw)).of_same st
      obtain ⟨os, w', e, R', hc', hcan⟩ := ih (a :: done) { σ with slots := σ.slots ++ [none] } w2 R2 hcl hau h1 h2 h3 h4
      refine ⟨.slot σ.slots.length :: .unit :: os, w', ?_, ?_, hc', hcan⟩
      · simp only [List.length_append, List.length_cons, List.length_nil, Nat.zero_add] at e
        simp only [reduceAll, execAll, bind, StateT.bind, e1, e2, e, Except.bind, pure, StateT.pure, Except.pure]
      · simpa [List.replicate_succ] using R'

theorem reachable_rel (hP : P.OK) (h : Reachable P w σ) : Rel P σ w := by
  induction h with
  | init e =>
      obtain ⟨m, e', R⟩ := construct_sim hP
      rw [e] at e'
      cases e'
      exact R
  | step _ hk e ha ih =>
      obtain ⟨o', w'', e', _, R⟩ := sim ih hk ha
      rw [e] at e'
      cases e'
      exact R
  | @reduced w w' σ as os _ hcl hau hall hadm e hcap ih =>
      obtain ⟨os', w'', e', R, hc, hcan⟩ := reduceAll_run (s0 := w.mgr) as [] σ w ih hcl hau hadm
        (fun a f h => Or.inr (hall a f h)) (fun _ => Nat.le_refl _) (fun _ a ha => by cases ha)
      rw [e] at e'
      cases e'
      exact ⟨⟨R.good.cfg, R.good.inv, R.good.ord, R.good.pool, R.good.auto, R.good.defer, R.good.pool0,
        fun _ => hcan hcap, R.good.cache⟩, R.len, R.has, R.empty, R.order, R.clean⟩
  | @cofactor w w' w'' σ k o l _ hc hk e el ih =>
      obtain ⟨o', w1, e', _, R⟩ := cofactor_sim ih hc hk
      rw [e] at e'
      cases e'
      have : levelVars P.c w'.mgr = l := by cases el; rfl
      rw [this] at R
      exact R
  | settled _ e ih =>
      obtain ⟨l', w1, e', _, R⟩ := settled_sim ih
      rw [e] at e'
      cases e'
      exact R
  | thrown _ hk e ih => exact thrown_sim ih hk e

end

end Teddy
