import Verif.Proofs.Sizes

/-! `transform` never returns more nodes than it reads, also when the diagram is not reduced. -/

namespace Teddy

open SM

section
variable {E : Env} {ext : Ptr → Nat} {s : Mgr}

/-- The memo table `m'` extends `m` by nodes on level `L` or below. -/
def Grows (lv : Ptr → Nat) (L : Nat) (m m' : Memo) : Prop :=
  ∀ p, m' p = m p ∨ (m p = none ∧ L ≤ lv p)

theorem Grows.refl {lv : Ptr → Nat} {L : Nat} {m : Memo} : Grows lv L m m := fun _ => .inl rfl

theorem Grows.trans {lv : Ptr → Nat} {L : Nat} {m1 m2 m3 : Memo} (a : Grows lv L m1 m2) (b : Grows lv L m2 m3) :
    Grows lv L m1 m3 := by
  intro p
  rcases b p with h | ⟨h, hl⟩
  · rw [h]; exact a p
  · rcases a p with h' | h'
    · exact .inr ⟨by rw [← h', h], hl⟩
    · exact .inr h'

theorem Grows.mono {lv : Ptr → Nat} {L L' : Nat} {m m' : Memo} (a : Grows lv L m m') (h : L' ≤ L) : Grows lv L' m m' := by
  intro p
  rcases a p with h' | ⟨h', hl⟩
  · exact .inl h'
  · exact .inr ⟨h', by omega⟩

theorem Grows.get {lv : Ptr → Nat} {L : Nat} {m m' : Memo} (a : Grows lv L m m') {p r : Ptr} (h : m p = some r) :
    m' p = some r := by
  rcases a p with h' | ⟨h', -⟩
  · rw [h', h]
  · rw [h] at h'; cases h'

/-- The result for node `p` is `r`: it is in the memo table, or both are leaves. -/
def Src (s0 : Mgr) (t : Int → Int) (p r : Ptr) (m : Memo) (s : Mgr) : Prop :=
  m p = some r ∨ ∃ v, s0.kind p = .leaf v ∧ s.kind r = .leaf (t v)

/-- `q` is the result for a node below `root`. -/
def Img (s0 : Mgr) (t : Int → Int) (root : Ptr) (m : Memo) (s : Mgr) (q : Ptr) : Prop :=
  ∃ p, Reach s0.kind root p ∧ Src s0 t p q m s

/-- The memo table holds inner nodes below `root`, and everything below their results is a result. -/
def MemoImg (s0 : Mgr) (t : Int → Int) (root : Ptr) (ext : Ptr → Nat) (m : Memo) (s : Mgr) : Prop :=
  ∀ p r, m p = some r → Prot ext [] s r ∧ (∃ i ss, s0.kind p = .inner i ss) ∧
    ∀ q, Reach s.kind r q → Img s0 t root m s q

variable {s0 : Mgr} {t : Int → Int} {root : Ptr}

theorem Src.keeps {p r : Ptr} {m m' : Memo} {s' : Mgr} {lv : Ptr → Nat} {L : Nat} (h : Src s0 t p r m s)
    (k : Keeps ext [] s s') (hp : Prot ext [] s r) (hg : Grows lv L m m') : Src s0 t p r m' s' := by
  rcases h with h | ⟨v, h1, h2⟩
  · exact .inl (hg.get h)
  · exact .inr ⟨v, h1, by rw [k.kind r hp, h2]⟩

/-- What is reached after a step from a protected node was reached before. -/
theorem Reach.back {s' : Mgr} (k : Keeps ext [] s s') {r q : Ptr} (h : Reach s'.kind r q) (hp : Prot ext [] s r) :
    Reach s.kind r q := by
  induction h with
  | refl => exact .refl
  | step hk hq _ ih =>
      rw [k.kind _ hp] at hk
      exact .step hk hq (ih (.son hp hk hq))

theorem below_keeps {r : Ptr} {m m' : Memo} {s' : Mgr} {lv : Ptr → Nat} {L : Nat}
    (h : ∀ q, Reach s.kind r q → Img s0 t root m s q) (k : Keeps ext [] s s') (hp : Prot ext [] s r)
    (hg : Grows lv L m m') : ∀ q, Reach s'.kind r q → Img s0 t root m' s' q := by
  intro q hq
  have hq' := hq.back k hp
  obtain ⟨p, h1, h2⟩ := h q hq'
  exact ⟨p, h1, h2.keeps k (hq'.prot hp) hg⟩

theorem MemoImg.keeps {m : Memo} {s' : Mgr} (h : MemoImg s0 t root ext m s) (k : Keeps ext [] s s') :
    MemoImg s0 t root ext m s' := by
  intro p r hr
  obtain ⟨h1, h2, h3⟩ := h p r hr
  exact ⟨k.prot _ h1, h2, below_keeps h3 k h1 (Grows.refl (lv := fun _ => 0) (L := 0))⟩

theorem Src.below {m : Memo} (hm : MemoImg s0 t root ext m s) {p r : Ptr} (hr : Reach s0.kind root p)
    (h : Src s0 t p r m s) : ∀ q, Reach s.kind r q → Img s0 t root m s q := by
  rcases h with h | ⟨v, h1, h2⟩
  · exact (hm p r h).2.2
  · intro q hq
    cases hq with
    | refl => exact ⟨p, hr, .inr ⟨v, h1, h2⟩⟩
    | step hk _ _ => rw [h2] at hk; cases hk

/-- What is known of the memo table. -/
def MemoAll (E : Env) (ext : Ptr → Nat) (s0 : Mgr) (t : Int → Int) (root : Ptr) (m : Memo) (s : Mgr) : Prop :=
  MemoOK E ext (s0.levelOf E.c) (fun p x v => ∃ a, Ev s0.kind x p a ∧ v = t a) m s ∧ MemoImg s0 t root ext m s

/-- The steps over the sons. -/
theorem mapAccL_img {L : Nat} {F : Ptr → Memo → M (Ptr × Memo)} (l : List Ptr)
    (hF : ∀ a ∈ l, ∀ m s, Good E ext s → Keeps ext [] s0 s → MemoAll E ext s0 t root m s →
      Ok (F a m) s (fun r s' => Step E ext s r.1 s' ∧
        Rep E.c s' (s0.levelOf E.c a) r.1 (fun x v => ∃ b, Ev s0.kind x a b ∧ v = t b) ∧
        Src s0 t a r.1 r.2 s' ∧ MemoAll E ext s0 t root r.2 s' ∧ Grows (s0.levelOf E.c) L m r.2)) :
    ∀ m s, Good E ext s → Keeps ext [] s0 s → MemoAll E ext s0 t root m s →
      Ok (mapAccL F l m) s (fun r s' => Good E ext s' ∧ Keeps ext [] s s' ∧
        r.1.length = l.length ∧ (∀ q ∈ r.1, Prot ext [] s' q ∧ ∃ a ∈ l, Src s0 t a q r.2 s') ∧
        (∀ (k : Nat) a q, l[k]? = some a → r.1[k]? = some q →
          Rep E.c s' (s0.levelOf E.c a) q (fun x v => ∃ b, Ev s0.kind x a b ∧ v = t b)) ∧
        (∀ p, s'.mark p = true → p ∈ r.1 ∨ s.mark p = true) ∧
        MemoAll E ext s0 t root r.2 s' ∧ Grows (s0.levelOf E.c) L m r.2) := by
  induction l with
  | nil =>
      intro m s g _ hm
      exact Ok.pure ⟨g, Keeps.refl s, rfl, by simp, by simp, fun p h => Or.inr h, hm, Grows.refl⟩
  | cons a l ih =>
      intro m s g k0 hm
      simp only [mapAccL]
      refine Ok.bind (hF a (by simp) m s g k0 hm) ?_
      rintro ⟨r1, m1⟩ s1 ⟨st, rep, src1, hm1, gr1⟩
      refine Ok.bind (ih (fun b hb => hF b (by simp [hb])) m1 s1 st.good (k0.trans st.keeps) hm1) ?_
      rintro ⟨rs, m2⟩ s2 ⟨g2, k2, hl, hq, hr, hmk, hm2, gr2⟩
      refine Ok.pure ⟨g2, st.keeps.trans k2, by simp [hl], ?_, ?_, ?_, hm2, gr1.trans gr2⟩
      · intro q hq'
        rcases List.mem_cons.1 hq' with rfl | hq'
        · exact ⟨k2.prot _ st.prot, a, by simp, src1.keeps k2 st.prot gr2⟩
        · obtain ⟨h1, b, hb, h2⟩ := hq q hq'
          exact ⟨h1, b, by simp [hb], h2⟩
      · intro k b q hb hq
        cases k with
        | zero =>
            simp at hb hq
            subst hb hq
            exact rep.keeps k2 st.prot
        | succ k =>
            simp at hb hq
            exact hr k b q hb hq
      · intro p h
        rcases hmk p h with h1 | h1
        · exact Or.inl (by simp [h1])
        · rcases st.mark p h1 with h2 | h2
          · exact Or.inl (by simp [h2])
          · exact Or.inr h2

theorem transformImpl_img (g0 : Good E ext s0) (hT : ∀ a, LeafVal s0.kind root a → TermOK E.c (t a)) :
    ∀ (f : Nat) (p : Ptr) (m : Memo) (s : Mgr), Good E ext s → Keeps ext [] s0 s → Reach s0.kind root p →
      Prot ext [] s0 p → MemoAll E ext s0 t root m s → E.c.n - s0.levelOf E.c p < f →
      Ok (transformImpl E.c t f p m) s (fun r s' => Step E ext s r.1 s' ∧
        Rep E.c s' (s0.levelOf E.c p) r.1 (fun x v => ∃ a, Ev s0.kind x p a ∧ v = t a) ∧
        Src s0 t p r.1 r.2 s' ∧ MemoAll E ext s0 t root r.2 s' ∧
        Grows (s0.levelOf E.c) (s0.levelOf E.c p) m r.2) := by
  intro f
  induction f with
  | zero => intro p m s _ _ _ _ _ hf; omega
  | succ f ih =>
      intro p m s g k hrp hp hm hf
      simp only [transformImpl]
      cases hmp : m p with
      | some r =>
          have := hm.1 p r hmp
          exact Ok.pure ⟨Step.refl g this.1, this.2, .inl hmp, hm, Grows.refl⟩
      | none =>
          have hps := k.prot _ hp
          refine Ok.bindEq (getKind_ok (hps.used g.inv)) ?_
          rw [k.kind p hp]
          cases hk : s0.kind p with
          | leaf v =>
              refine Ok.bind (makeTerminal_good g (hT v ⟨p, hrp, hk⟩)) ?_
              rintro r s1 ⟨st, hkr, _⟩
              refine Ok.pure ⟨st, ⟨by simp [Mgr.levelOf, hk, hkr], fun x _ => ?_⟩, .inr ⟨v, hk, hkr⟩,
                ⟨hm.1.keeps st.keeps, hm.2.keeps st.keeps⟩, Grows.refl⟩
              exact ⟨t v, ⟨v, .leaf hk, rfl⟩, .leaf hkr⟩
          | inner i ss =>
              dsimp only
              obtain ⟨hi, hlen, hu⟩ := g0.inv.sons p i ss (hp.used g0.inv) hk
              refine Ok.bind (mapAccL_img (L := s0.levelOf E.c p + 1) ss (fun q hq m s g k hm => ?_) m s g k hm) ?_
              · have hlt := g0.ord p i ss q (hp.used g0.inv) hk hq
                have hle := levelOf_le g0.inv ((Prot.son hp hk hq).used g0.inv)
                refine (ih q m s g k (hrp.snoc hk hq) (.son hp hk hq) hm (by omega)).mono ?_
                rintro r s' ⟨h1, h2, h3, h4, h5⟩
                exact ⟨h1, h2, h3, h4, h5.mono (by omega)⟩
              rintro ⟨sons', m1⟩ s1 ⟨g1, k1, hl1, hp1, hr1, hm1, hmo1, gr1⟩
              dsimp only at hl1 hp1 hr1 hm1 hmo1 gr1
              have hlv : s1.idx2lvl i = s0.levelOf E.c p := by
                rw [k1.i2l, k.i2l]; simp [Mgr.levelOf, hk]
              refine Ok.bind (makeInternal_good
                (φ := fun k x v => ∃ q, ss[k]? = some q ∧ ∃ a, Ev s0.kind x q a ∧ v = t a) g1 hi
                (by rw [← hlen]; exact hl1) (fun q hq => (hp1 q hq).1) ?_) ?_
              · intro k q hq
                dsimp only at hq
                have hkl : k < ss.length := by
                  have : k < sons'.length := by
                    by_contra hc
                    rw [List.getElem?_eq_none (by omega)] at hq; cases hq
                  rw [← hl1]; exact this
                have hget : ss[k]? = some ss[k] := List.getElem?_eq_getElem hkl
                have hlt := g0.ord p i ss _ (hp.used g0.inv) hk (List.getElem_mem hkl)
                refine (hr1 k ss[k] q hget hq).mono (by rw [hlv]; omega) ?_
                intro x v _ h
                exact ⟨ss[k], hget, h⟩
              · rintro r s2 ⟨g2, k2, hp2, hm2, rep2, res⟩
                rw [hlv] at rep2
                have rep : Rep E.c s2 (s0.levelOf E.c p) r (fun x v => ∃ a, Ev s0.kind x p a ∧ v = t a) := by
                  refine rep2.mono (Nat.le_refl _) ?_
                  rintro x v hx ⟨q, hq, a, ha, hg⟩
                  exact ⟨a, .inner hk hq ha, hg⟩
                have hnone : m1 p = none := by
                  rcases gr1 p with h | ⟨-, h⟩
                  · rw [h, hmp]
                  · omega
                have gr2 : Grows (s0.levelOf E.c) (s0.levelOf E.c p) m1 (upd m1 p (some r)) := by
                  intro q
                  by_cases e : q = p
                  · subst e; exact .inr ⟨hnone, Nat.le_refl _⟩
                  · exact .inl (upd_other _ _ e)
                have hmo2 : MemoImg s0 t root ext (upd m1 p (some r)) s2 := by
                  have old : ∀ a b, m1 a = some b → Prot ext [] s2 b ∧ (∃ i ss, s0.kind a = .inner i ss) ∧
                      ∀ q, Reach s2.kind b q → Img s0 t root (upd m1 p (some r)) s2 q := by
                    intro a b hab
                    obtain ⟨h1, h2, h3⟩ := hmo1.2 a b hab
                    exact ⟨k2.prot _ h1, h2, below_keeps h3 k2 h1 gr2⟩
                  have sub : ∀ b ∈ sons', ∀ q, Reach s2.kind b q → Img s0 t root (upd m1 p (some r)) s2 q := by
                    intro b hb
                    obtain ⟨h1, a, ha, h2⟩ := hp1 b hb
                    exact below_keeps (h2.below hmo1.2 (hrp.snoc hk ha)) k2 h1 gr2
                  intro a b hab
                  by_cases e : a = p
                  · subst e
                    rw [upd_same] at hab
                    cases hab
                    refine ⟨hp2, ⟨i, ss, hk⟩, ?_⟩
                    rcases res with ⟨-, -, h3, -⟩ | ⟨-, h3, -⟩
                    · exact sub r h3
                    · intro q hq
                      cases hq with
                      | refl => exact ⟨a, hrp, .inl (upd_same ..)⟩
                      | step hk' hq' hr' =>
                          rw [h3] at hk'
                          cases hk'
                          exact sub _ hq' q hr'
                  · rw [upd_other _ _ e] at hab
                    exact old a b hab
                refine Ok.pure ⟨⟨g2, k1.trans k2, hp2, ?_⟩, rep, .inl (upd_same ..),
                  ⟨(hmo1.1.keeps k2).put hp2 rep, hmo2⟩, (gr1.mono (by omega)).trans gr2⟩
                intro t ht
                rcases hm2 t ht with h1 | ⟨h1, h2⟩
                · exact Or.inl h1
                · rcases hm1 t h1 with h3 | h3
                  · exact absurd h3 h2
                  · exact Or.inr h3

/-- A list without repetitions is at most as long as one it maps into injectively. -/
theorem length_le_of_src {α β : Type} {R : α → β → Prop} {us : List α} {vs : List β} (hn : us.Nodup)
    (hr : ∀ q ∈ us, ∃ p ∈ vs, R q p) (hu : ∀ q q' p, q ∈ us → q' ∈ us → R q p → R q' p → q = q') :
    us.length ≤ vs.length := by
  classical
  induction us generalizing vs with
  | nil => exact Nat.zero_le _
  | cons a us ih =>
      obtain ⟨p, hp, hap⟩ := hr a (by simp)
      have hna := (List.nodup_cons.1 hn).1
      have := ih (vs := vs.erase p) (List.nodup_cons.1 hn).2 (fun q hq => by
        obtain ⟨p', hp', h'⟩ := hr q (by simp [hq])
        refine ⟨p', (List.mem_erase_of_ne ?_).2 hp', h'⟩
        rintro rfl
        exact hna (hu a q p' (by simp) (by simp [hq]) hap h' ▸ hq))
        (fun q q' p hq hq' => hu q q' p (by simp [hq]) (by simp [hq']))
      rw [List.length_erase_of_mem hp] at this
      have : 0 < vs.length := List.length_pos_of_mem hp
      simp only [List.length_cons]
      omega

/-- The result of `transform` has at most as many nodes as the operand. -/
theorem transform_shrinks (hau : E.auto = false) (g : Good E ext s) {p : Ptr} (hp : Prot ext [] s p)
    (hT : ∀ a, LeafVal s.kind p a → TermOK E.c (t a)) {r : Ptr} {s' : Mgr} (e : transform E.c t p s = .ok (r, s'))
    {us vs : List Ptr} (hu : us.Nodup) (hus : ∀ q, q ∈ us ↔ Reach s'.kind r q)
    (hvs : ∀ q, q ∈ vs ↔ Reach s.kind p q) : us.length ≤ vs.length := by
  obtain ⟨⟨r1, m⟩, s1, e1, st, -, src, hm, -⟩ := transformImpl_img (root := p) (t := t) g hT (E.c.n + 1) p (fun _ => none) s g
    (Keeps.refl s) .refl hp ⟨MemoOK.empty, nofun⟩ (by omega)
  unfold transform at e
  rw [bind_ok e1] at e
  dsimp only at e
  rw [bind_ok (runDeferred_ok (st.good.defer hau) _)] at e
  obtain ⟨r2, s2, e2, rfl, -, -, hk⟩ := mkDiagram_good st.good st.prot
  dsimp only at e2
  rw [e2] at e
  cases e
  rw [hk] at hus
  have hall := src.below hm.2 .refl
  refine length_le_of_src (R := fun q p => Src s t p q m s1) hu (fun q hq => ?_) (fun q q' a hq hq' h1 h2 => ?_)
  · obtain ⟨a, h1, h2⟩ := hall q ((hus q).1 hq)
    exact ⟨a, (hvs a).2 h1, h2⟩
  · rcases h1 with h1 | ⟨v, h1, h3⟩ <;> rcases h2 with h2 | ⟨v', h2, h4⟩
    · rw [h1] at h2; cases h2; rfl
    · obtain ⟨-, ⟨i, ss, h5⟩, -⟩ := hm.2 a q h1
      rw [h2] at h5; cases h5
    · obtain ⟨-, ⟨i, ss, h5⟩, -⟩ := hm.2 a q' h2
      rw [h1] at h5; cases h5
    · rw [h1] at h2
      cases h2
      have hr := st.prot.used st.good.inv
      exact leaf_unique st.good.inv (((hus q).1 hq).used st.good.inv hr) (((hus q').1 hq').used st.good.inv hr) h3 h4

end

variable {P : Setup} {w : World} {σ : SState}

/-- `get_node_count` counts the nodes of the diagram. -/
theorem counted_nodes (hP : P.OK) (h : Reachable P w σ) (hclean : σ.clean = true) {a : Nat} {p : Ptr}
    (hp : w.slots[a]? = some (some p)) : ∃ vs : List Ptr, vs.Nodup ∧ (∀ q, q ∈ vs ↔ Reach w.mgr.kind p q) ∧
      exec P.c (.nodeCountOf a) w = .ok (.nat vs.length, w) := by
  have R := reachable_rel hP h
  obtain ⟨k, s', e, rfl, vs, h1, h2, rfl⟩ := nodeCountOf_ok R.good.inv R.good.ord (R.used hp) (R.cleanBelow hclean p)
  refine ⟨vs, h1, h2, ?_⟩
  simp only [exec]
  rw [bind_ok (rootOf_ok hp), bind_ok (a := vs.length) (s' := w)
    (by simp only [onMgr, show nodeCountOf P.c p w.mgr = _ from e])]
  rfl

end Teddy
