import Verif.Proofs.Sim

/-! `transform` with a function that throws. -/

namespace Teddy

open SM

section
variable {E : Env} {ext : Ptr → Nat} {s : Mgr}

/-- What a step of the recursion leaves behind: a result, or an exception caused by one of the values `V`. -/
def StepO (E : Env) (ext : Ptr → Nat) (s0 s : Mgr) (L : Nat) (g : Int → Option Int) (p : Ptr)
    (r : Option (Ptr × Memo)) (s' : Mgr) : Prop :=
  match r with
  | some (q, m) => Step E ext s q s' ∧ Rep E.c s' L q (fun x v => ∃ a, Ev s0.kind x p a ∧ g a = some v) ∧
      MemoOK E ext (s0.levelOf E.c) (fun p x v => ∃ a, Ev s0.kind x p a ∧ g a = some v) m s'
  | none => Good E ext s' ∧ Keeps ext [] s s' ∧ ∃ a, LeafVal s0.kind p a ∧ g a = none

theorem mapAccO_good {s0 : Mgr} {g : Int → Option Int} {F : Ptr → Memo → M (Option (Ptr × Memo))} (l : List Ptr)
    (hF : ∀ q ∈ l, ∀ m s, Good E ext s → Keeps ext [] s0 s →
      MemoOK E ext (s0.levelOf E.c) (fun p x v => ∃ a, Ev s0.kind x p a ∧ g a = some v) m s →
      Ok (F q m) s (StepO E ext s0 s (s0.levelOf E.c q) g q)) :
    ∀ m s, Good E ext s → Keeps ext [] s0 s →
      MemoOK E ext (s0.levelOf E.c) (fun p x v => ∃ a, Ev s0.kind x p a ∧ g a = some v) m s →
      Ok (mapAccO F l m) s (fun r s' => match r with
        | some (qs, m') => Good E ext s' ∧ Keeps ext [] s s' ∧ qs.length = l.length ∧ (∀ q ∈ qs, Prot ext [] s' q) ∧
            (∀ (k : Nat) a q, l[k]? = some a → qs[k]? = some q →
              Rep E.c s' (s0.levelOf E.c a) q (fun x v => ∃ b, Ev s0.kind x a b ∧ g b = some v)) ∧
            (∀ p, s'.mark p = true → p ∈ qs ∨ s.mark p = true) ∧
            MemoOK E ext (s0.levelOf E.c) (fun p x v => ∃ a, Ev s0.kind x p a ∧ g a = some v) m' s'
        | none => Good E ext s' ∧ Keeps ext [] s s' ∧ ∃ q ∈ l, ∃ a, LeafVal s0.kind q a ∧ g a = none) := by
  induction l with
  | nil =>
      intro m s gd _ hm
      exact Ok.pure ⟨gd, Keeps.refl s, rfl, by simp, by simp, fun p h => Or.inr h, hm⟩
  | cons a l ih =>
      intro m s gd k0 hm
      simp only [mapAccO]
      refine Ok.bind (hF a (by simp) m s gd k0 hm) ?_
      rintro (_ | ⟨r, m1⟩) s1 h1
      · obtain ⟨g1, k1, v, hv, hg⟩ := h1
        exact Ok.pure ⟨g1, k1, a, by simp, v, hv, hg⟩
      · obtain ⟨st, rep, hm1⟩ := h1
        refine Ok.bind (ih (fun b hb => hF b (by simp [hb])) m1 s1 st.good (k0.trans st.keeps) hm1) ?_
        rintro (_ | ⟨rs, m2⟩) s2 h2
        · obtain ⟨g2, k2, q, hq, v, hv, hg⟩ := h2
          exact Ok.pure ⟨g2, st.keeps.trans k2, q, by simp [hq], v, hv, hg⟩
        · obtain ⟨g2, k2, hl, hp, hr, hmk, hm2⟩ := h2
          refine Ok.pure ⟨g2, st.keeps.trans k2, by simp [hl], ?_, ?_, ?_, hm2⟩
          · intro q hq
            rcases List.mem_cons.1 hq with rfl | hq
            · exact k2.prot _ st.prot
            · exact hp q hq
          · intro k b q hb hq
            cases k with
            | zero =>
                simp at hb hq
                subst hb hq
                exact rep.keeps k2 st.prot
            | succ k =>
                simp at hb hq
                exact hr k b q hb hq
          · intro p hpm
            rcases hmk p hpm with h | h
            · exact Or.inl (by simp [h])
            · rcases st.mark p h with h | h
              · exact Or.inl (by simp [h])
              · exact Or.inr h

theorem transformImplO_good {s0 : Mgr} (g0 : Good E ext s0) {g : Int → Option Int} :
    ∀ (f : Nat) (p : Ptr) (m : Memo) (s : Mgr), Good E ext s → Keeps ext [] s0 s →
      Prot ext [] s0 p → (∀ a, LeafVal s0.kind p a → ∀ u, g a = some u → TermOK E.c u) →
      MemoOK E ext (s0.levelOf E.c) (fun p x v => ∃ a, Ev s0.kind x p a ∧ g a = some v) m s →
      E.c.n - s0.levelOf E.c p < f →
      Ok (transformImplO E.c g f p m) s (StepO E ext s0 s (s0.levelOf E.c p) g p) := by
  intro f
  induction f with
  | zero => intro p m s _ _ _ _ _ hf; omega
  | succ f ih =>
      intro p m s gd k hp hT hm hf
      simp only [transformImplO]
      cases hmp : m p with
      | some r =>
          have := hm p r hmp
          exact Ok.pure ⟨Step.refl gd this.1, this.2, hm⟩
      | none =>
          have hps := k.prot _ hp
          refine Ok.bindEq (getKind_ok (hps.used gd.inv)) ?_
          rw [k.kind p hp]
          cases hk : s0.kind p with
          | leaf v =>
              dsimp only
              cases hg : g v with
              | none => exact Ok.pure ⟨gd, Keeps.refl s, v, ⟨p, .refl, hk⟩, hg⟩
              | some u =>
                  refine Ok.bind (makeTerminal_good gd (hT v ⟨p, .refl, hk⟩ u hg)) ?_
                  rintro r s1 ⟨st, hkr, _⟩
                  refine Ok.pure ⟨st, ⟨by simp [Mgr.levelOf, hk, hkr], fun x _ => ?_⟩,
                    hm.keeps st.keeps⟩
                  exact ⟨u, ⟨v, .leaf hk, hg⟩, .leaf hkr⟩
          | inner i ss =>
              dsimp only
              obtain ⟨hi, hlen, hu⟩ := g0.inv.sons p i ss (hp.used g0.inv) hk
              refine Ok.bind (mapAccO_good (E := E) (ext := ext) ss (fun q hq m s gd k hm => ?_) m s gd k hm) ?_
              · have hlt := g0.ord p i ss q (hp.used g0.inv) hk hq
                have hle := levelOf_le g0.inv ((Prot.son hp hk hq).used g0.inv)
                exact ih q m s gd k (.son hp hk hq) (fun a ha => hT a (ha.son hk hq)) hm (by omega)
              rintro (_ | ⟨sons', m1⟩) s1 h1
              · obtain ⟨g1, k1, q, hq, v, hv, hg⟩ := h1
                exact Ok.pure ⟨g1, k1, v, hv.son hk hq, hg⟩
              obtain ⟨g1, k1, hl1, hp1, hr1, hm1, hmo1⟩ := h1
              have hlv : s1.idx2lvl i = s0.levelOf E.c p := by
                rw [k1.i2l, k.i2l]; simp [Mgr.levelOf, hk]
              refine Ok.bind (makeInternal_good
                (φ := fun k x v => ∃ q, ss[k]? = some q ∧ ∃ a, Ev s0.kind x q a ∧ g a = some v) g1 hi
                (by rw [← hlen]; exact hl1) hp1 ?_) ?_
              · intro k q hq
                have hkl : k < ss.length := by
                  have : k < sons'.length := by
                    by_contra hc
                    rw [List.getElem?_eq_none (by omega)] at hq; cases hq
                  rw [← hl1]; exact this
                have hget : ss[k]? = some ss[k] := List.getElem?_eq_getElem hkl
                have hlt := g0.ord p i ss _ (hp.used g0.inv) hk (List.getElem_mem hkl)
                refine (hr1 k ss[k] q hget hq).mono (by rw [hlv]; omega) ?_
                intro x v _ h
                exact ⟨ss[k], hget, h⟩
              · rintro r s2 ⟨g2, k2, hp2, hm2, rep2, _⟩
                rw [hlv] at rep2
                have rep : Rep E.c s2 (s0.levelOf E.c p) r (fun x v => ∃ a, Ev s0.kind x p a ∧ g a = some v) := by
                  refine rep2.mono (Nat.le_refl _) ?_
                  rintro x v hx ⟨q, hq, a, ha, hg⟩
                  exact ⟨a, .inner hk hq ha, hg⟩
                refine Ok.pure ⟨⟨g2, k1.trans k2, hp2, ?_⟩, rep, (hmo1.keeps k2).put hp2 rep⟩
                intro t ht
                rcases hm2 t ht with h1 | ⟨h1, h2⟩
                · exact Or.inl h1
                · rcases hm1 t h1 with h3 | h3
                  · exact absurd h3 h2
                  · exact Or.inr h3

/-- `transform` returns the transformed diagram when the function throws for none of the values, and throws otherwise. -/
theorem transformO_good (gd : Good E ext s) {p : Ptr} (hp : Prot ext [] s p) {f : Asg → Int}
    (hf : Den E.c s p f) {g : Int → Option Int} (ht : ∀ a, Range E.c f a → ∀ u, g a = some u → TermOK E.c u) :
    ((∀ a, Range E.c f a → g a ≠ none) → E.auto = false → ∃ r s', transformO E.c g p s = .ok (some r, s') ∧
      NewDiagram E ext s (fun x => (g (f x)).getD 0) r s') ∧
    ((∃ a, Range E.c f a ∧ g a = none) → ∃ s', transformO E.c g p s = .ok (none, s') ∧
      Good E ext s' ∧ Keeps ext [] s s') := by
  obtain ⟨r, s1, e, h⟩ := transformImplO_good gd (E.c.n + 1) p (fun _ => none) s gd (Keeps.refl s) hp
    (fun a ha => ht a ((leafVal_iff gd (hp.used gd.inv) hf).1 ha)) MemoOK.empty (by omega)
  unfold transformO
  rw [bind_ok e]
  match r, h with
  | none, ⟨g1, k1, a, ha, hg⟩ =>
      refine ⟨fun hn => absurd hg (hn a ((leafVal_iff gd (hp.used gd.inv) hf).1 ha)), fun _ => ?_⟩
      exact ⟨s1, rfl, g1, k1⟩
  | some (q, m), ⟨st, rep, _⟩ =>
      refine ⟨fun hn hau => ?_, ?_⟩
      · dsimp only
        rw [bind_ok (runDeferred_ok (st.good.defer hau) _)]
        obtain ⟨r, s2, e2, nd⟩ := st.diagram (f := fun x => (g (f x)).getD 0) (rep.mono (Nat.le_refl _) (by
          rintro x v hx ⟨a, ha, hg⟩
          rw [(hf x hx).det ha, hg]
          rfl))
        exact ⟨r, s2, by rw [bind_ok e2]; rfl, nd⟩
      · rintro ⟨a, ⟨x, hx, rfl⟩, hg⟩
        obtain ⟨v, ⟨b, hb, hgb⟩, _⟩ := rep.2 x hx
        rw [← (hf x hx).det hb, hg] at hgb
        cases hgb

end

variable {P : Setup} {σ : SState} {w : World}

/-- After an exception the world implements the same functions. -/
theorem throw_sim (R : Rel P σ w) {g : Int → Option Int} {a : Nat} {f : Asg → Int} (hf : σ.Has a f)
    (ht : ∀ v, Range P.c f v → ∀ u, g v = some u → TermOK P.c u) :
    ((∀ v, Range P.c f v → g v ≠ none) → σ.auto = false →
      Ok (execTransform P.c g a) w (fun o w' => o = some (.slot σ.slots.length) ∧
        Rel P { σ with slots := σ.slots ++ [some fun x => (g (f x)).getD 0] } w')) ∧
    ((∃ v, Range P.c f v ∧ g v = none) → ∃ w', execTransform P.c g a w = .ok (none, w') ∧
      w'.slots = w.slots ∧ Rel P { σ with clean := false } w') := by
  obtain ⟨p, hp, hd⟩ := R.has a f hf
  obtain ⟨h1, h2⟩ := transformO_good R.good (handle_prot (extL_pos hp)) hd ht
  unfold execTransform
  refine ⟨fun hn hau => ?_, fun hx => ?_⟩
  · obtain ⟨r, s', e, nd⟩ := h1 hn hau
    obtain ⟨o, w', e', ho, R'⟩ := making_ok R (m := fun _ => .ok (r, s')) ⟨r, s', rfl, nd.res⟩
    refine ⟨some o, w', ?_, by rw [ho], R'⟩
    unfold making at e'
    rw [bind_ok (a := r) (s' := { w with mgr := s' }) (by simp [onMgr])] at e'
    rw [bind_ok (rootOf_ok hp), bind_ok (a := some r) (s' := { w with mgr := s' }) (by simp only [onMgr]; rw [show transformO P.c g p w.mgr = _ from e])]
    dsimp only
    rw [bind_ok e']
    rfl
  · obtain ⟨s', e, gd, k⟩ := h2 hx
    refine ⟨{ w with mgr := s' }, ?_, rfl, ?_⟩
    · rw [bind_ok (rootOf_ok hp), bind_ok (a := none) (s' := { w with mgr := s' })
        (by simp only [onMgr]; rw [show transformO P.c g p w.mgr = _ from e])]
      rfl
    · exact ⟨gd, R.len, fun b h hb => by
        obtain ⟨q, hq, hdq⟩ := R.has b h hb
        exact ⟨q, hq, fun x hx => (k.ev_iff (handle_prot (extL_pos hq))).2 (hdq x hx)⟩, R.empty, by
        rw [← R.order]
        unfold levelVars
        dsimp only
        rw [k.l2i], fun h => nomatch h⟩

theorem thrown_sim (R : Rel P σ w) {g : Int → Option Int} {a : Nat} {w' : World} (hk : AdmThrowing P σ g a)
    (e : execTransform P.c g a w = .ok (none, w')) : Rel P { σ with clean := false } w' := by
  obtain ⟨f, hf, ht⟩ := hk
  obtain ⟨h1, h2⟩ := throw_sim R hf ht
  by_cases hx : ∃ v, Range P.c f v ∧ g v = none
  · obtain ⟨w'', e', -, R'⟩ := h2 hx
    rw [e] at e'
    cases e'
    exact R'
  · exfalso
    obtain ⟨p, hp, hd⟩ := R.has a f hf
    obtain ⟨r, s1, e1, h⟩ := transformImplO_good R.good (P.c.n + 1) p (fun _ => none) w.mgr R.good (Keeps.refl _)
      (handle_prot (extL_pos hp)) (g := g)
      (fun a ha => ht a ((leafVal_iff R.good (R.used hp) hd).1 ha)) MemoOK.empty (show P.c.n - _ < P.c.n + 1 by omega)
    match r, h with
    | none, ⟨_, _, a, ha, hg⟩ => exact hx ⟨a, (leafVal_iff R.good (R.used hp) hd).1 ha, hg⟩
    | some (q, m), _ =>
        unfold execTransform transformO at e
        rw [bind_ok (rootOf_ok hp), bind_run] at e
        simp only [onMgr] at e
        rw [bind_ok (show transformImplO P.c g (P.c.n + 1) p (fun _ => none) w.mgr = _ from e1)] at e
        simp only [bind_run] at e
        cases hr : runDeferred P.c s1 with
        | error x => rw [hr] at e; cases e
        | ok y =>
            rw [hr] at e
            dsimp only at e
            cases hq : mkDiagram q y.2 with
            | error x => rw [hq] at e; cases e
            | ok z => rw [hq] at e; cases e

theorem mapAccO_some {σ α β τ : Type} {f : α → τ → SM σ (β × τ)} {f' : α → τ → SM σ (Option (β × τ))} :
    ∀ (l : List α), (∀ a ∈ l, ∀ t s, f' a t s = (f a t s).map fun r => (some r.1, r.2)) → ∀ t s,
      mapAccO f' l t s = (mapAccL f l t s).map fun r => (some r.1, r.2)
  | [], _, _, _ => rfl
  | a :: l, h, t, s => by
      simp only [mapAccO, mapAccL, bind_run, h a (by simp) t s]
      cases f a t s with
      | error x => rfl
      | ok y =>
          obtain ⟨⟨b, t1⟩, s1⟩ := y
          simp only [Except.map, bind_run, mapAccO_some l (fun b hb => h b (by simp [hb])) t1 s1]
          cases mapAccL f l t1 s1 with
          | error x => rfl
          | ok z => rfl

theorem transformImplO_some (c : Cfg) (t : Int → Int) : ∀ (f : Nat) (p : Ptr) (m : Memo) (s : Mgr),
    transformImplO c (fun v => some (t v)) f p m s = (transformImpl c t f p m s).map fun r => (some r.1, r.2)
  | 0, _, _, _ => rfl
  | f + 1, p, m, s => by
      simp only [transformImplO, transformImpl]
      cases m p with
      | some r => rfl
      | none =>
          simp only [bind_run]
          cases getKind p s with
          | error x => rfl
          | ok y =>
              obtain ⟨k, s1⟩ := y
              cases k with
              | leaf v =>
                  simp only [bind_run]
                  cases makeTerminal c (t v) s1 with
                  | error x => rfl
                  | ok z => rfl
              | inner i sons =>
                  simp only [bind_run, mapAccO_some sons (fun q _ m s => transformImplO_some c t f q m s) m s1]
                  cases mapAccL (transformImpl c t f) sons m s1 with
                  | error x => rfl
                  | ok z =>
                      obtain ⟨⟨ss, m1⟩, s2⟩ := z
                      simp only [Except.map, bind_run]
                      cases makeInternal c i ss s2 with
                      | error x => rfl
                      | ok z => rfl

theorem execTransform_some (c : Cfg) (t : Int → Int) (a : Nat) (w : World) :
    execTransform c (fun v => some (t v)) a w = (exec c (.transform t a) w).map fun r => (some r.1, r.2) := by
  simp only [execTransform, exec, making, transformO, transform, bind_run]
  cases rootOf a w with
  | error x => rfl
  | ok y =>
      obtain ⟨p, w1⟩ := y
      simp only [bind_run, onMgr, transformImplO_some]
      cases transformImpl c t (c.n + 1) p (fun _ => none) w1.mgr with
      | error x => rfl
      | ok z =>
          obtain ⟨⟨r, m⟩, s1⟩ := z
          simp only [Except.map, bind_run]
          cases runDeferred c s1 with
          | error x => rfl
          | ok z1 =>
              dsimp only
              cases mkDiagram r z1.2 with
              | error x => rfl
              | ok z2 =>
                  simp only [pure_run]
                  rw [bind_run]
                  cases push z2.1 { w1 with mgr := z2.2 } with
                  | error x => rfl
                  | ok z3 => rfl

end Teddy
