import Verif.Proofs.Sim
import Verif.AskSpec

/-!
# `reduce` removes left-over marks

Whatever marks an earlier `from_expression_tree` left, no node of the diagram that `reduce` (or `transform`) returns is
marked: each of them is returned by a recursive call, and is then the son of a node made later, or the root.
-/

namespace Teddy

open SM Spec

section
variable {E : Env} {ext : Ptr → Nat} {s : Mgr}

/-- The marked nodes below memoised results are among `L`. -/
def MemoTidy (L : Ptr → Prop) (m : Memo) (s : Mgr) : Prop :=
  ∀ p r, m p = some r → ∀ t, Reach s.kind r t → s.mark t = true → L t

/-- What memoised results are. -/
abbrev tmemo (E : Env) (ext : Ptr → Nat) (s0 : Mgr) (t : Int → Int) : Memo → Mgr → Prop :=
  MemoOK E ext (s0.levelOf E.c) (fun p x v => ∃ a, Ev s0.kind x p a ∧ v = t a)

theorem MemoTidy.step {L : Ptr → Prop} {m : Memo} {q : Ptr} {s' : Mgr} (h : MemoTidy L m s)
    {K : Ptr → Nat} {φ : Ptr → Asg → Int → Prop} (hm : MemoOK E ext K φ m s)
    (st : Step E ext s q s') : MemoTidy (fun t => t = q ∨ L t) m s' :=
  fun p r hr => TidyBelow.step (h p r hr) (hm p r hr).1 st

/-- One call of the recursion. -/
def TransformStep (E : Env) (ext : Ptr → Nat) (s0 : Mgr) (t : Int → Int) (L : Ptr → Prop) (p : Ptr) (s : Mgr)
    (r : Ptr × Memo) (s' : Mgr) : Prop :=
  Step E ext s r.1 s' ∧ Rep E.c s' (s0.levelOf E.c p) r.1 (fun x v => ∃ a, Ev s0.kind x p a ∧ v = t a) ∧
    tmemo E ext s0 t r.2 s' ∧ TidyBelow (fun q => q = r.1 ∨ L q) r.1 s' ∧ MemoTidy (fun q => q = r.1 ∨ L q) r.2 s'

/-- The calls for the sons of a node. -/
theorem sons_tidy {s0 : Mgr} {t : Int → Int} {F : Ptr → Memo → M (Ptr × Memo)} :
    ∀ (ss : List Ptr), (∀ q ∈ ss, ∀ L m s, Good E ext s → Keeps ext [] s0 s → tmemo E ext s0 t m s → MemoTidy L m s →
        Ok (F q m) s (TransformStep E ext s0 t L q s)) →
      ∀ (L : Ptr → Prop) (m : Memo) (s : Mgr), Good E ext s → Keeps ext [] s0 s → tmemo E ext s0 t m s → MemoTidy L m s →
      Ok (mapAccL F ss m) s (fun r s' => Good E ext s' ∧ Keeps ext [] s s' ∧
        r.1.length = ss.length ∧ (∀ q ∈ r.1, Prot ext [] s' q) ∧
        (∀ (k : Nat) a q, ss[k]? = some a → r.1[k]? = some q →
          Rep E.c s' (s0.levelOf E.c a) q (fun x v => ∃ b, Ev s0.kind x a b ∧ v = t b)) ∧
        (∀ p, s'.mark p = true → p ∈ r.1 ∨ s.mark p = true) ∧ tmemo E ext s0 t r.2 s' ∧
        (∀ q ∈ r.1, TidyBelow (fun p => p ∈ r.1 ∨ L p) q s') ∧ MemoTidy (fun p => p ∈ r.1 ∨ L p) r.2 s') := by
  intro ss hF L m s g k hm hL
  refine (mapAccL_tidy (E := E) (ext := ext)
    (Q := fun a r s => Rep E.c s (s0.levelOf E.c a) r (fun x v => ∃ b, Ev s0.kind x a b ∧ v = t b))
    (fun _ _ _ _ k hp h => h.keeps k hp) (T := tmemo E ext s0 t) (mem := fun m q => ∃ p, m p = some q) s0 ss
    (fun q hq L m s g k hm hL => (hF q hq L m s g k hm fun p r hr => hL r ⟨p, hr⟩).mono
      fun r s' h => ⟨h.1, h.2.1, h.2.2.1, h.2.2.2.1, fun q hq => hq.elim fun p hp => h.2.2.2.2 p q hp⟩)
    L m s g k hm fun q hq => hq.elim fun p hp => hL p q hp).mono ?_
  rintro r s' ⟨h1, h2, h3, h4, h5, h6, h7, h8, h9⟩
  exact ⟨h1, h2, h3, h4, h5, h6, h7, h8, fun p q hp => h9 q ⟨p, hp⟩⟩

theorem transformImpl_tidy {s0 : Mgr} (g0 : Good E ext s0) {t : Int → Int} :
    ∀ (f : Nat) (p : Ptr) (L : Ptr → Prop) (m : Memo) (s : Mgr), Good E ext s → Keeps ext [] s0 s →
      Prot ext [] s0 p → (∀ a, LeafVal s0.kind p a → TermOK E.c (t a)) → tmemo E ext s0 t m s → MemoTidy L m s →
      E.c.n - s0.levelOf E.c p < f →
      Ok (transformImpl E.c t f p m) s (TransformStep E ext s0 t L p s) := by
  intro f
  induction f with
  | zero => intro p L m s _ _ _ _ _ _ hf; omega
  | succ f ih =>
      intro p L m s g k hp hT hm hL hf
      simp only [transformImpl]
      cases hmp : m p with
      | some r =>
          have := hm p r hmp
          exact Ok.pure ⟨Step.refl g this.1, this.2, hm, fun u h1 h2 => .inr (hL p r hmp u h1 h2),
            fun q r hr u h1 h2 => .inr (hL q r hr u h1 h2)⟩
      | none =>
          have hps := k.prot _ hp
          refine Ok.bindEq (getKind_ok (hps.used g.inv)) ?_
          rw [k.kind p hp]
          cases hk : s0.kind p with
          | leaf v =>
              refine Ok.bind (makeTerminal_good g (hT v ⟨p, .refl, hk⟩)) ?_
              rintro r s1 ⟨st, hkr, _⟩
              refine Ok.pure ⟨st, ⟨by simp [Mgr.levelOf, hk, hkr], fun x _ => ?_⟩, hm.keeps st.keeps,
                fun u h1 _ => .inl (reach_leaf hkr h1), hL.step hm st⟩
              exact ⟨t v, ⟨v, .leaf hk, rfl⟩, .leaf hkr⟩
          | inner i ss =>
              obtain ⟨hi, hlen, hu⟩ := g0.inv.sons p i ss (hp.used g0.inv) hk
              refine Ok.bind (sons_tidy ss (fun q hq L m s g k hm hL => ih q L m s g k (.son hp hk hq)
                (fun a ha => hT a (ha.son hk hq)) hm hL ?_) L m s g k hm hL) ?_
              · have hlt := g0.ord p i ss q (hp.used g0.inv) hk hq
                have hle := levelOf_le g0.inv ((Prot.son hp hk hq).used g0.inv)
                omega
              rintro ⟨sons', m1⟩ s1 ⟨g1, k1, hl1, hp1, hr1, hm1, hmo1, tb1, mt1⟩
              dsimp only at hl1 hp1 hr1 hm1 hmo1 tb1 mt1 ⊢
              have hlv : s1.idx2lvl i = s0.levelOf E.c p := by
                rw [k1.i2l, k.i2l]; simp [Mgr.levelOf, hk]
              refine Ok.bind (makeInternal_good (φ := fun k x v => ∃ q, ss[k]? = some q ∧
                ∃ a, Ev s0.kind x q a ∧ v = t a) g1 hi (by rw [← hlen]; exact hl1) hp1 ?_) ?_
              · intro k q hq
                have hkl : k < ss.length := by
                  have : k < sons'.length := by
                    by_contra hc
                    rw [List.getElem?_eq_none (by omega)] at hq; cases hq
                  rw [← hl1]; exact this
                have hget : ss[k]? = some ss[k] := List.getElem?_eq_getElem hkl
                have hlt := g0.ord p i ss _ (hp.used g0.inv) hk (List.getElem_mem hkl)
                refine (hr1 k ss[k] q hget hq).mono (by rw [hlv]; omega) ?_
                intro x v _ h
                exact ⟨ss[k], hget, h⟩
              · rintro r s2 ⟨g2, k2, hp2, hm2, rep2, hres⟩
                rw [hlv] at rep2
                have rep : Rep E.c s2 (s0.levelOf E.c p) r (fun x v => ∃ a, Ev s0.kind x p a ∧ v = t a) := by
                  refine rep2.mono (Nat.le_refl _) ?_
                  rintro x v hx ⟨q, hq, a, ha, rfl⟩
                  exact ⟨a, .inner hk hq ha, rfl⟩
                have below : TidyBelow (fun q => q = r ∨ L q) r s2 := by
                  have son : ∀ q ∈ sons', ∀ u, Reach s2.kind q u → s2.mark u = true → u = r ∨ L u := by
                    intro q hq u h1 h2
                    rcases hm2 u h2 with h3 | ⟨h3, h4⟩
                    · exact .inl h3
                    · rcases tb1 q hq u (h1.keeps k2 (hp1 q hq)) h3 with h5 | h5
                      · exact absurd h5 h4
                      · exact .inr h5
                  rcases hres with ⟨_, _, h1, _⟩ | ⟨_, h1, _⟩
                  · exact son r h1
                  · intro u hu hmu
                    cases hu with
                    | refl => exact .inl rfl
                    | step h2 h3 h4 =>
                        rw [h1] at h2
                        cases h2
                        exact son _ h3 u h4 hmu
                have old : MemoTidy (fun q => q = r ∨ L q) m1 s2 := by
                  intro q v hv u h1 h2
                  rcases hm2 u h2 with h3 | ⟨h3, h4⟩
                  · exact .inl h3
                  · rcases mt1 q v hv u (h1.keeps k2 (hmo1 q v hv).1) h3 with h5 | h5
                    · exact absurd h5 h4
                    · exact .inr h5
                refine Ok.pure ⟨⟨g2, k1.trans k2, hp2, ?_⟩, rep, (hmo1.keeps k2).put hp2 rep, below, ?_⟩
                · intro u hu
                  rcases hm2 u hu with h1 | ⟨h1, h2⟩
                  · exact .inl h1
                  · rcases hm1 u h1 with h3 | h3
                    · exact absurd h3 h2
                    · exact .inr h3
                · intro q v hv
                  simp only [upd_apply] at hv
                  split at hv
                  · cases hv; exact below
                  · exact old q v hv

/-- Whatever is marked: no node of the result of `transform` is. -/
theorem transform_clean (hau : E.auto = false) (g : Good E ext s) {p : Ptr} (hp : Prot ext [] s p) {f : Asg → Int}
    (hf : Den E.c s p f) {t : Int → Int} (ht : ∀ a, Range E.c f a → TermOK E.c (t a)) :
    Ok (transform E.c t p) s (fun r s' => NewDiagram E ext s (fun x => t (f x)) r s' ∧ CleanBelow s' r) := by
  unfold transform
  refine Ok.bind (transformImpl_tidy g (E.c.n + 1) p (fun _ => False) _ s g (Keeps.refl s) hp
    (fun a ha => ht a ((leafVal_iff g (hp.used g.inv) hf).1 ha)) MemoOK.empty (fun _ _ h => by cases h) (by omega)) ?_
  rintro ⟨r, m⟩ s1 ⟨st, rep, _, tb, _⟩
  dsimp only at st rep tb ⊢
  refine Ok.bindEq (runDeferred_ok (st.good.defer hau) _) ?_
  obtain ⟨r', s2, e2, rfl, hh, hm, hk⟩ := mkDiagram_good st.good st.prot
  refine Ok.of_eq e2 ⟨(st.diagram (rep.mono (Nat.le_refl _) ?_)).elim e2, ?_⟩
  · rintro x v hx ⟨a, ha, rfl⟩
    rw [(hf x hx).det ha]
  · intro q hq
    rw [hm, upd_apply]
    split
    · rfl
    · rename_i hne
      rw [hk] at hq
      cases h : s1.mark q with
      | false => rfl
      | true =>
          rcases tb q hq h with h1 | h1
          · exact absurd h1 hne
          · exact h1.elim

end

/-! ### Questions about one diagram -/

section
variable {P : Setup} {w : World} {σ : SState}

/-- The state of the reference semantics in which no marks are left. -/
abbrev SState.tidy (σ : SState) : SState := { σ with clean := true }

/-- Only data members differ. -/
structure SameDiagrams (w w' : World) : Prop where
  slots : w'.slots = w.slots
  data : DSt w.mgr w'.mgr

theorem data_same (R : Rel P σ w) {α : Type} {m : M α} {g : α → Out} {Q : α → Prop}
    (h : Ok m w.mgr (fun r s' => Q r ∧ DSt w.mgr s')) :
    Ok (do let r ← onMgr m; pure (g r)) w (fun o w' => (∃ r, o = g r ∧ Q r) ∧ Rel P σ w' ∧ SameDiagrams w w') := by
  obtain ⟨r, s', e, hq, D⟩ := h
  refine Ok.bindEq (a := r) (s' := { w with mgr := s' }) (by simp only [onMgr]; rw [e]) ?_
  exact Ok.pure ⟨⟨r, rfl, hq⟩, R.silent (D.good R.good) D.mark D.kind D.l2i, rfl, D⟩

/-- A question about a diagram none of whose nodes is marked is answered as if there were no marks at all. -/
theorem asks_ok (R : Rel P σ w) {a : Nat} {p : Ptr} (hp : w.slots[a]? = some (some p)) (hcb : CleanBelow w.mgr p)
    {k : Call} (hask : k.asks = some a) (hk : Adm P σ.tidy k) :
    Ok (exec P.c k) w (fun o w' => OutOK P σ o k ∧ Rel P σ w' ∧ SameDiagrams w w') := by
  have g := R.good
  have hi := g.inv
  have ho := g.ord
  have hcfg := g.cfg
  have same : Rel P σ w ∧ SameDiagrams w w := ⟨R, rfl, DSt.refl _⟩
  have den : ∀ f, σ.tidy.Has a f → Den P.c w.mgr p f := by
    intro f hf
    obtain ⟨p', hp', hd⟩ := R.has a f hf
    rw [hp] at hp'
    cases hp'
    exact hd
  have fnq : ∀ {f}, σ.tidy.Has a f → σ.fn a = f := fun hf => SState.Has.fn (σ := σ) hf
  cases k with
  | satisfyCount v a =>
      obtain ⟨-, hfit, ⟨f, hf⟩, hv⟩ := hk
      cases hask
      have hd := den f hf
      simp only [exec, OutOK, fnq hf]
      refine Ok.bindEq (rootOf_ok hp) (query_ok ?_)
      refine (satisfyCount_ok g (R.used hp) hcb hfit hd hv).mono ?_
      rintro r s' ⟨rfl, h⟩
      exact ⟨h, rfl, same⟩
  | dependencySet a =>
      obtain ⟨-, f, hf⟩ := hk
      cases hask
      have hd := den f hf
      simp only [exec, OutOK, fnq hf]
      refine Ok.bindEq (rootOf_ok hp) (query_ok ?_)
      refine (dependencySet_ok hi ho (R.used hp) hcb).mono ?_
      rintro r s' ⟨h, h2, h3⟩
      refine ⟨h, ⟨r, rfl, h2, ?_, ?_⟩, same⟩
      · intro i _ hdep
        exact (h3 i).2 (depends_tested hd hdep)
      · intro hcan i hir
        have ht := (h3 i).1 hir
        have hil : i < P.c.n := by
          obtain ⟨q, ss, hr, hkq⟩ := ht
          exact (hi.sons q i ss (hr.used hi (R.used hp)) hkq).1
        exact ⟨hil, (tested_iff hi ho hcfg (g.canon hcan) (R.used hp) hd hil).1 ht⟩
  | nodeCountOf a =>
      obtain ⟨-, f, hf⟩ := hk
      cases hask
      have hd := den f hf
      simp only [exec, OutOK, fnq hf]
      refine Ok.bindEq (rootOf_ok hp) (query_ok ?_)
      refine (nodeCountOf_ok hi ho (R.used hp) hcb).mono ?_
      rintro r s' ⟨h, vs, hnd, hvs, rfl⟩
      have h1 : ∀ q ∈ vs, ∃ r f', w.mgr.used r = true ∧ Reach w.mgr.kind r q ∧ Den P.c w.mgr r f' ∧ f' = f :=
        fun q hq => ⟨p, f, R.used hp, (hvs q).1 hq, hd, rfl⟩
      have h2 : ∀ f', f' = f → ∃ r, w.mgr.used r = true ∧ Den P.c w.mgr r f' ∧
          ∀ q, Reach w.mgr.kind r q → q ∈ vs :=
        fun f' hf' => ⟨p, R.used hp, by rw [hf']; exact hd, fun q hq => (hvs q).2 hq⟩
      have e : levelVars (envOf P σ).c w.mgr = σ.order := R.order
      refine ⟨h, ⟨_, rfl, ?_, fun hcan => ?_⟩, same⟩
      · have := count_subs_le (F := fun g => g = f) hi ho hcfg h1 h2
        rw [e] at this
        simp only [exists_eq_left] at this
        exact this
      · have := count_subs (F := fun g => g = f) hi ho hcfg (g.canon hcan) hnd h1 h2
        rw [e] at this
        simp only [exists_eq_left] at this
        exact this
  | calculateProbability v pr a =>
      obtain ⟨-, h0, hs, f, hf, hu⟩ := hk
      cases hask
      have hd := den f hf
      simp only [exec, OutOK, fnq hf]
      refine Ok.bindEq (rootOf_ok hp) ?_
      refine (data_same R (ntpsPost_ok g (R.used hp) hcb hd hs hu
        (selected := [v]) (by simpa using h0))).mono ?_
      rintro o w' ⟨⟨r, rfl, rfl⟩, R'⟩
      exact ⟨by simp only [List.mem_singleton]; rfl, R'⟩
  | calculateProbabilities pr a =>
      obtain ⟨-, hs, f, hf⟩ := hk
      cases hask
      have hd := den f hf
      simp only [exec, OutOK]
      refine Ok.bindEq (rootOf_ok hp) ?_
      refine (data_same R (g := fun _ => .unit) (Q := fun _ => True)
        ((calculateProbabilities_ok g (R.used hp) hcb hd hs).mono
          fun _ _ h => ⟨trivial, h.1⟩)).mono ?_
      rintro o w' ⟨⟨r, rfl, _⟩, R'⟩
      exact ⟨rfl, R'⟩
  | calculateAvailability v pr a =>
      obtain ⟨-, hs, f, hf, hu⟩ := hk
      cases hask
      have hd := den f hf
      simp only [exec, OutOK, fnq hf]
      refine Ok.bindEq (rootOf_ok hp) ?_
      refine (data_same R (ntpsValues_ok g (R.used hp) hcb hd hs hu
        (fun u => decide (u ≥ v)))).mono ?_
      rintro o w' ⟨⟨r, rfl, rfl⟩, R'⟩
      exact ⟨rfl, R'⟩
  | calculateUnavailability v pr a =>
      obtain ⟨-, hs, f, hf, hu⟩ := hk
      cases hask
      have hd := den f hf
      simp only [exec, OutOK, fnq hf]
      refine Ok.bindEq (rootOf_ok hp) ?_
      refine (data_same R (ntpsValues_ok g (R.used hp) hcb hd hs hu
        (fun u => decide (u < v)))).mono ?_
      rintro o w' ⟨⟨r, rfl, rfl⟩, R'⟩
      exact ⟨rfl, R'⟩
  | satisfyCountData v a =>
      obtain ⟨-, hfit, ⟨f, hf⟩, hv⟩ := hk
      cases hask
      have hd := den f hf
      simp only [exec, OutOK, fnq hf]
      refine Ok.bindEq (rootOf_ok hp) ?_
      refine (data_same R (satisfyCountData_ok g (R.used hp) hcb hfit hd hv)).mono ?_
      rintro o w' ⟨⟨r, rfl, rfl⟩, R'⟩
      exact ⟨rfl, R'⟩
  | stateFrequency v a =>
      obtain ⟨-, hfit, ⟨f, hf⟩, hv⟩ := hk
      cases hask
      have hd := den f hf
      simp only [exec, OutOK, fnq hf]
      refine Ok.bindEq (rootOf_ok hp) ?_
      refine (data_same R (stateFrequency_ok g (R.used hp) hcb hfit hd hv)).mono ?_
      rintro o w' ⟨⟨r, rfl, rfl⟩, R'⟩
      exact ⟨rfl, R'⟩
  | structuralImportance a =>
      obtain ⟨-, hfit, ⟨f, hf⟩, hv⟩ := hk
      cases hask
      have hd := den f hf
      simp only [exec, OutOK, fnq hf]
      refine Ok.bindEq (rootOf_ok hp) ?_
      refine (data_same R (stateFrequency_ok g (R.used hp) hcb hfit hd hv)).mono ?_
      rintro o w' ⟨⟨r, rfl, rfl⟩, R'⟩
      exact ⟨rfl, R'⟩
  | birnbaumImportance pr a =>
      obtain ⟨-, hs, f, hf, hu⟩ := hk
      cases hask
      have hd := den f hf
      simp only [exec, OutOK, fnq hf]
      refine Ok.bindEq (rootOf_ok hp) ?_
      refine (data_same R (ntpsPost_ok g (R.used hp) hcb hd hs hu
        (selected := [1]) (by simp))).mono ?_
      rintro o w' ⟨⟨r, rfl, rfl⟩, R'⟩
      exact ⟨by simp only [List.mem_singleton]; rfl, R'⟩
  | _ => cases hask

/-- Any number of questions about such a diagram. -/
theorem asksAll_ok {a : Nat} {p : Ptr} : ∀ (ks : List Call) {w : World}, Rel P σ w → w.slots[a]? = some (some p) →
    CleanBelow w.mgr p → (∀ k ∈ ks, k.asks = some a ∧ Adm P σ.tidy k) →
    Ok (execAll P.c ks) w (fun os _ => List.Forall₂ (OutOK P σ) os ks)
  | [], w, _, _, _, _ => ⟨[], w, rfl, .nil⟩
  | k :: ks, w, R, hp, hcb, hk => by
      simp only [execAll]
      refine Ok.bind (asks_ok R hp hcb (hk k (by simp)).1 (hk k (by simp)).2) ?_
      rintro o w1 ⟨h1, R1, hs⟩
      refine Ok.bind (asksAll_ok ks R1 (by rw [hs.slots]; exact hp) ?_ (fun k h => hk k (by simp [h]))) ?_
      · intro q hq
        rw [hs.data.mark]
        rw [hs.data.kind] at hq
        exact hcb q hq
      · rintro os w2 h2
        exact Ok.pure (.cons h1 h2)

/-- A call that makes a diagram none of whose nodes is marked. -/
theorem making_tidy (R : Rel P σ w) {m : M Ptr} {f : Asg → Int}
    (h : Ok m w.mgr (fun r s' => Res (envOf P σ) (extW w) w.mgr f r s' ∧ CleanBelow s' r)) :
    Ok (making m) w (fun o w' => o = .slot w.slots.length ∧ Rel P { σ with slots := σ.slots ++ [some f] } w' ∧
      ∃ p, w'.slots[w.slots.length]? = some (some p) ∧ CleanBelow w'.mgr p) := by
  obtain ⟨r, s, e, res, hcb⟩ := h
  obtain ⟨o, w', e', rfl, R'⟩ := making_ok R ⟨r, s, e, res⟩
  refine ⟨_, _, e', by rw [R.len], R', r, ?_⟩
  unfold making at e'
  rw [bind_ok (show onMgr m w = .ok (r, { w with mgr := s }) by simp [onMgr, e])] at e'
  obtain ⟨_, rfl⟩ := Prod.mk.inj (Except.ok.inj e')
  exact ⟨by simp, hcb⟩

end

end Teddy
