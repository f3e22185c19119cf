import Verif.Proofs.Make

/-! The bundled invariant of a manager between primitives, and the node constructors in its terms. -/

namespace Teddy

open SM

/-- What is being verified: the manager's parameters, the operation each id stands for, and which of
the optional invariants (canonicity, correct apply cache) are maintained. -/
structure Env where
  c : Cfg
  Γ : Nat → BinOp
  canon : Bool
  cache : Bool
  /-- size of the first node pool -/
  pool0 : Nat
  /-- automatic reordering may have been enabled -/
  auto : Bool

structure Good (E : Env) (ext : Ptr → Nat) (s : Mgr) : Prop where
  cfg : CfgOK E.c
  inv : Inv E.c ext [] s
  ord : Ordered E.c s
  pool : PoolOK E.c s
  auto : E.auto = false → s.autoReorder = false
  defer : E.auto = false → s.deferred = false
  pool0 : E.pool0 ≤ s.poolEnd
  canon : E.canon = true → Canon s
  cache : E.cache = true → CacheOK E.c E.Γ s

/-- A computation that returned node `r`. -/
structure Step (E : Env) (ext : Ptr → Nat) (s : Mgr) (r : Ptr) (s' : Mgr) : Prop where
  good : Good E ext s'
  keeps : Keeps ext [] s s'
  prot : Prot ext [] s' r
  mark : ∀ p, s'.mark p = true → p = r ∨ s.mark p = true

/-- `r` is at level `L` or below and its value under `x` is related to `x` by `φ`. -/
def Rep (c : Cfg) (s : Mgr) (L : Nat) (r : Ptr) (φ : Asg → Int → Prop) : Prop :=
  L ≤ s.levelOf c r ∧ ∀ x, Valid c x → ∃ v, φ x v ∧ Ev s.kind x r v

section
variable {E : Env} {ext : Ptr → Nat} {s : Mgr}

theorem Keeps.ev_iff {tmp : List Ptr} {s' : Mgr} (k : Keeps ext tmp s s') {x : Asg} {p : Ptr}
    {v : Int} (hp : Prot ext tmp s p) : Ev s'.kind x p v ↔ Ev s.kind x p v :=
  Ev.transfer_iff (Prot ext tmp s) k.kind (fun _ _ _ hp hk _ hq => .son hp hk hq) hp

theorem Rep.keeps {c : Cfg} {s' : Mgr} {L : Nat} {r : Ptr} {φ : Asg → Int → Prop}
    (h : Rep c s L r φ) (k : Keeps ext [] s s') (hp : Prot ext [] s r) : Rep c s' L r φ := by
  refine ⟨by rw [k.levelOf hp]; exact h.1, fun x hx => ?_⟩
  obtain ⟨v, h1, h2⟩ := h.2 x hx
  exact ⟨v, h1, k.ev hp h2⟩

theorem Rep.mono {c : Cfg} {L L' : Nat} {r : Ptr} {φ ψ : Asg → Int → Prop}
    (h : Rep c s L r φ) (hL : L' ≤ L) (hφ : ∀ x v, Valid c x → φ x v → ψ x v) :
    Rep c s L' r ψ := by
  refine ⟨hL.trans h.1, fun x hx => ?_⟩
  obtain ⟨v, h1, h2⟩ := h.2 x hx
  exact ⟨v, hφ x v hx h1, h2⟩

theorem Good.of_keeps {s' : Mgr} (g : Good E ext s) (k : Keeps ext [] s s')
    (hi : Inv E.c ext [] s') (ho : Ordered E.c s') (hc : E.canon = true → Canon s')
    (hca : E.cache = true → CacheOK E.c E.Γ s') : Good E ext s' :=
  ⟨g.cfg, hi, ho, g.pool.keeps k, fun h => k.auto.trans (g.auto h), fun h => (k.deferred (g.auto h)).trans (g.defer h),
    g.pool0.trans k.poolEnd, hc, hca⟩

theorem Step.refl {r : Ptr} (g : Good E ext s) (hp : Prot ext [] s r) : Step E ext s r s :=
  ⟨g, Keeps.refl s, hp, fun _ h => Or.inr h⟩

theorem makeTerminal_good (g : Good E ext s) {v : Int} (hv : TermOK E.c v) :
    Ok (makeTerminal E.c v) s (fun r s' => Step E ext s r s' ∧ s'.kind r = .leaf v ∧
      s'.mark r = true) := by
  refine (makeTerminal_spec g.inv g.pool hv).mono ?_
  rintro r s' ⟨m, hk, hm⟩
  refine ⟨⟨g.of_keeps m.keeps m.inv (m.ordered g.ord ?_) (fun hc => m.canon_leaf hk (g.canon hc))
    (fun hc => m.cache _ (g.cache hc)), m.keeps, m.prot, ?_⟩, hk, hm⟩
  · intro i ss h; rw [hk] at h; cases h
  · intro p hp
    rcases m.mark p hp with h1 | h1
    · exact Or.inl h1
    · exact Or.inr h1.1

/-- Making an internal node from sons that represent the cofactors. -/
theorem makeInternal_good (g : Good E ext s) {i : Nat} {sons : List Ptr}
    {φ : Nat → Asg → Int → Prop} (hi : i < E.c.n) (hlen : sons.length = E.c.dom i)
    (hs : ∀ q ∈ sons, Prot ext [] s q)
    (hr : ∀ k q, sons[k]? = some q → Rep E.c s (s.idx2lvl i + 1) q (φ k)) :
    Ok (makeInternal E.c i sons) s (fun r s' => Good E ext s' ∧ Keeps ext [] s s' ∧
      Prot ext [] s' r ∧ (∀ p, s'.mark p = true → p = r ∨ (s.mark p = true ∧ p ∉ sons)) ∧
      Rep E.c s' (s.idx2lvl i) r (fun x v => φ (x i) x v) ∧ InternalRes s i sons r s') := by
  refine (makeInternal_spec g.inv g.pool hi hlen (g.cfg.dom_pos i hi) hs).mono ?_
  rintro r s' ⟨m, hres, _, hcan⟩
  have hmem : ∀ q ∈ sons, s.idx2lvl i + 1 ≤ s.levelOf E.c q := by
    intro q hq
    obtain ⟨k, hk⟩ := List.mem_iff_getElem?.1 hq
    exact (hr k q hk).1
  have get : ∀ x, Valid E.c x → ∃ q, sons[x i]? = some q := by
    intro x hx
    have : x i < sons.length := by rw [hlen]; exact hx i hi
    exact ⟨sons[x i], List.getElem?_eq_getElem this⟩
  refine ⟨g.of_keeps m.keeps m.inv (m.ordered g.ord ?_) (fun hc => hcan rfl (g.canon hc))
    (fun hc => m.cache _ (g.cache hc)), m.keeps, m.prot, m.mark, ?_, hres⟩
  · intro j ss hk q hq
    rcases hres with ⟨_, rfl, hrs, _⟩ | ⟨_, hk', _⟩
    · exact g.ord r j ss q ((hs r hrs).used g.inv) hk hq
    · rw [hk'] at hk; cases hk
      rw [m.keeps.levelOf (hs q hq)]
      simp only [Mgr.levelOf, hk', m.keeps.i2l]
      exact hmem q hq
  · rcases hres with ⟨_, rfl, hrs, hall⟩ | ⟨_, hk', _⟩
    · refine ⟨by have := hmem r hrs; omega, fun x hx => ?_⟩
      obtain ⟨q, hq⟩ := get x hx
      have e := hall q (List.mem_of_getElem? hq)
      subst e
      exact (hr _ _ hq).2 x hx
    · refine ⟨by simp [Mgr.levelOf, hk', m.keeps.i2l], fun x hx => ?_⟩
      obtain ⟨q, hq⟩ := get x hx
      obtain ⟨v, h1, h2⟩ := (hr _ _ hq).2 x hx
      exact ⟨v, h1, .inner hk' hq (m.keeps.ev (hs q (List.mem_of_getElem? hq)) h2)⟩

/-- Several computations that each return a node, run one after another. -/
theorem mapL_good {α : Type} {f : α → M Ptr} {L : α → Nat} {φ : α → Asg → Int → Prop}
    (l : List α) (s0 : Mgr)
    (hf : ∀ a ∈ l, ∀ s, Good E ext s → Keeps ext [] s0 s →
      Ok (f a) s (fun r s' => Step E ext s r s' ∧ Rep E.c s' (L a) r (φ a))) :
    ∀ s, Good E ext s → Keeps ext [] s0 s →
      Ok (mapL f l) s (fun rs s' => Good E ext s' ∧ Keeps ext [] s s' ∧ rs.length = l.length ∧
        (∀ q ∈ rs, Prot ext [] s' q) ∧
        (∀ (k : Nat) a q, l[k]? = some a → rs[k]? = some q → Rep E.c s' (L a) q (φ a)) ∧
        (∀ p, s'.mark p = true → p ∈ rs ∨ s.mark p = true)) := by
  induction l with
  | nil =>
      intro s g _
      exact Ok.pure ⟨g, Keeps.refl s, rfl, by simp, by simp, fun p h => Or.inr h⟩
  | cons a l ih =>
      intro s g k0
      simp only [mapL]
      refine Ok.bind (hf a (by simp) s g k0) ?_
      rintro r s1 ⟨st, rep⟩
      refine Ok.bind (ih (fun b hb => hf b (by simp [hb])) s1 st.good (k0.trans st.keeps)) ?_
      rintro rs s2 ⟨g2, k2, hl, hp, hr, hm⟩
      refine Ok.pure ⟨g2, st.keeps.trans k2, by simp [hl], ?_, ?_, ?_⟩
      · intro q hq
        rcases List.mem_cons.1 hq with rfl | hq
        · exact k2.prot _ st.prot
        · exact hp q hq
      · intro k b q hb hq
        cases k with
        | zero =>
            simp at hb hq
            subst hb hq
            exact rep.keeps k2 st.prot
        | succ k =>
            simp at hb hq
            exact hr k b q hb hq
      · intro p h
        rcases hm p h with h1 | h1
        · exact Or.inl (by simp [h1])
        · rcases st.mark p h1 with h2 | h2
          · exact Or.inl (by simp [h2])
          · exact Or.inr h2

/-- `mapL_good` for computations that thread a memo table, with any property of the results that the
later steps preserve. -/
theorem mapAccL_goodQ {α τ : Type} {f : α → τ → M (Ptr × τ)} {Q : α → Ptr → Mgr → Prop}
    (hQ : ∀ a r s s', Keeps ext [] s s' → Prot ext [] s r → Q a r s → Q a r s') {T : τ → Mgr → Prop} (l : List α) (s0 : Mgr)
    (hf : ∀ a ∈ l, ∀ t s, Good E ext s → Keeps ext [] s0 s → T t s →
      Ok (f a t) s (fun r s' => Step E ext s r.1 s' ∧ Q a r.1 s' ∧ T r.2 s')) :
    ∀ t s, Good E ext s → Keeps ext [] s0 s → T t s →
      Ok (mapAccL f l t) s (fun r s' => Good E ext s' ∧ Keeps ext [] s s' ∧
        r.1.length = l.length ∧ (∀ q ∈ r.1, Prot ext [] s' q) ∧
        (∀ (k : Nat) a q, l[k]? = some a → r.1[k]? = some q → Q a q s') ∧
        (∀ p, s'.mark p = true → p ∈ r.1 ∨ s.mark p = true) ∧ T r.2 s') := by
  induction l with
  | nil =>
      intro t s g _ ht
      exact Ok.pure ⟨g, Keeps.refl s, rfl, by simp, by simp, fun p h => Or.inr h, ht⟩
  | cons a l ih =>
      intro t s g k0 ht
      simp only [mapAccL]
      refine Ok.bind (hf a (by simp) t s g k0 ht) ?_
      rintro ⟨r, t1⟩ s1 ⟨st, rep, ht1⟩
      refine Ok.bind (ih (fun b hb => hf b (by simp [hb])) t1 s1 st.good (k0.trans st.keeps) ht1) ?_
      rintro ⟨rs, t2⟩ s2 ⟨g2, k2, hl, hp, hr, hm, ht2⟩
      refine Ok.pure ⟨g2, st.keeps.trans k2, by simp [hl], ?_, ?_, ?_, ht2⟩
      · intro q hq
        rcases List.mem_cons.1 hq with rfl | hq
        · exact k2.prot _ st.prot
        · exact hp q hq
      · intro k b q hb hq
        cases k with
        | zero =>
            simp at hb hq
            subst hb hq
            exact hQ _ _ _ _ k2 st.prot rep
        | succ k =>
            simp at hb hq
            exact hr k b q hb hq
      · intro p h
        rcases hm p h with h1 | h1
        · exact Or.inl (by simp [h1])
        · rcases st.mark p h1 with h2 | h2
          · exact Or.inl (by simp [h2])
          · exact Or.inr h2

/-- `mapL_good` for computations that thread a memo table. -/
theorem mapAccL_good {α τ : Type} {f : α → τ → M (Ptr × τ)} {L : α → Nat}
    {φ : α → Asg → Int → Prop} {T : τ → Mgr → Prop} (l : List α) (s0 : Mgr)
    (hf : ∀ a ∈ l, ∀ t s, Good E ext s → Keeps ext [] s0 s → T t s →
      Ok (f a t) s (fun r s' => Step E ext s r.1 s' ∧ Rep E.c s' (L a) r.1 (φ a) ∧ T r.2 s')) :
    ∀ t s, Good E ext s → Keeps ext [] s0 s → T t s →
      Ok (mapAccL f l t) s (fun r s' => Good E ext s' ∧ Keeps ext [] s s' ∧
        r.1.length = l.length ∧ (∀ q ∈ r.1, Prot ext [] s' q) ∧
        (∀ (k : Nat) a q, l[k]? = some a → r.1[k]? = some q → Rep E.c s' (L a) q (φ a)) ∧
        (∀ p, s'.mark p = true → p ∈ r.1 ∨ s.mark p = true) ∧ T r.2 s') := by
  exact mapAccL_goodQ (Q := fun a r s => Rep E.c s (L a) r (φ a)) (fun _ _ _ _ k hp h => h.keeps k hp) l s0 hf

end

end Teddy
