import Verif.Reliability
import Verif.Proofs.Queries
import Verif.Proofs.TidyBelow

/-! Direct partial logic derivatives. -/

namespace Teddy

open SM

section
variable {E : Env} {ext : Ptr → Nat} {s : Mgr}

/-- `p` does not test `var`. -/
def NotVar (s : Mgr) (var : Nat) (p : Ptr) : Prop := ∀ ss, s.kind p ≠ .inner var ss

/-- No node of the diagram `p` tests `var`. -/
def Avoids (s : Mgr) (var : Nat) (p : Ptr) : Prop := ∀ q, Reach s.kind p q → NotVar s var q

theorem Avoids.keeps {var : Nat} {p : Ptr} {s' : Mgr} (h : Avoids s var p) (k : Keeps ext [] s s')
    (hp : Prot ext [] s p) : Avoids s' var p := by
  have key : ∀ q, Reach s'.kind p q → Reach s.kind p q ∧ Prot ext [] s q := by
    intro q hq
    have gen : ∀ a b, Reach s'.kind a b → Prot ext [] s a → Reach s.kind a b ∧ Prot ext [] s b := by
      intro a b hab
      induction hab with
      | refl => exact fun h => ⟨.refl, h⟩
      | step hk hmem _ ih =>
          intro ha
          rw [k.kind _ ha] at hk
          obtain ⟨h1, h2⟩ := ih (.son ha hk hmem)
          exact ⟨.step hk hmem h1, h2⟩
    exact gen p q hq hp
  intro q hq ss e
  obtain ⟨h1, h2⟩ := key q hq
  rw [k.kind q h2] at e
  exact h q h1 ss e

theorem Avoids.leaf {var : Nat} {p : Ptr} {v : Int} (h : s.kind p = .leaf v) : Avoids s var p := by
  intro q hq ss e
  cases hq with
  | refl => rw [h] at e; cases e
  | step hk _ _ => rw [h] at hk; cases hk

theorem Avoids.inner {var i : Nat} {p : Ptr} {ts : List Ptr} (h : s.kind p = .inner i ts)
    (hi : i ≠ var) (hs : ∀ q ∈ ts, Avoids s var q) : Avoids s var p := by
  intro q hq ss e
  cases hq with
  | refl => rw [h] at e; cases e; exact hi rfl
  | step hk hm hr =>
      rw [h] at hk
      cases hk
      exact hs _ hm q hr ss e

/-- Every memoised result is protected and represents what it should. -/
def DMemoOK (E : Env) (ext : Ptr → Nat) (var : Nat) (L : Ptr × Ptr → Nat) (φ : Ptr × Ptr → Asg → Int → Prop)
    (m : DMemo) (s : Mgr) : Prop :=
  ∀ p r, m p = some r → Prot ext [] s r ∧ Rep E.c s (L p) r (φ p) ∧ Avoids s var r

theorem DMemoOK.keeps {var : Nat} {L : Ptr × Ptr → Nat} {φ : Ptr × Ptr → Asg → Int → Prop} {m : DMemo} {s' : Mgr}
    (h : DMemoOK E ext var L φ m s) (k : Keeps ext [] s s') : DMemoOK E ext var L φ m s' :=
  fun p r hr => ⟨k.prot _ (h p r hr).1, (h p r hr).2.1.keeps k (h p r hr).1,
    (h p r hr).2.2.keeps k (h p r hr).1⟩

theorem DMemoOK.put {var : Nat} {L : Ptr × Ptr → Nat} {φ : Ptr × Ptr → Asg → Int → Prop} {m : DMemo}
    (h : DMemoOK E ext var L φ m s) {p q r : Ptr} (hp : Prot ext [] s r)
    (hr : Rep E.c s (L (p, q)) r (φ (p, q))) (ha : Avoids s var r) :
    DMemoOK E ext var L φ (m.put p q r) s := by
  intro k t hq
  unfold DMemo.put at hq
  split at hq
  · rename_i e; subst e; cases hq; exact ⟨hp, hr, ha⟩
  · exact h k t hq

/-- An operand of the recursive call. -/
theorem dpldSide_ok {s0 : Mgr} (g0 : Good E ext s0) {var val : Nat}
    (hval : var < E.c.n → val < E.c.dom var) {p : Ptr} (hp : Prot ext [] s0 p) {i k : Nat}
    (hi : i < E.c.n) (hiv : i ≠ var) (hn : NotVar s0 var p)
    (hl : s0.idx2lvl i ≤ s0.levelOf E.c p) (hk : k < E.c.dom i) (g : Good E ext s)
    (ke : Keeps ext [] s0 s) :
    ∃ q, (if s0.levelOf E.c p = s0.idx2lvl i then dpldSon p k var val else pure p : M Ptr) s = .ok (q, s) ∧
      Prot ext [] s0 q ∧ s0.idx2lvl i < s0.levelOf E.c q ∧ NotVar s0 var q ∧
      ∀ x v, Valid E.c x → x i = k → Ev s0.kind (upd x var val) q v →
        Ev s0.kind (upd x var val) p v := by
  by_cases h : s0.levelOf E.c p = s0.idx2lvl i
  · rw [if_pos h]
    cases hkp : s0.kind p with
    | leaf v =>
        have := g0.inv.order.i2l_lt i hi
        simp only [Mgr.levelOf, hkp] at h
        omega
    | inner j ss =>
        obtain ⟨hj, hlen, hu⟩ := g0.inv.sons p j ss (hp.used g0.inv) hkp
        have hji : j = i := by
          simp only [Mgr.levelOf, hkp] at h
          rw [← g0.inv.order.i2l2i j hj, ← g0.inv.order.i2l2i i hi, h]
        subst hji
        have hkl : k < ss.length := by rw [hlen]; exact hk
        have hget : ss[k]? = some ss[k] := List.getElem?_eq_getElem hkl
        have hmem : ss[k] ∈ ss := List.getElem_mem hkl
        generalize ss[k] = q at hget hmem
        have hlt := g0.ord p j ss q (hp.used g0.inv) hkp hmem
        have hq : Prot ext [] s0 q := .son hp hkp hmem
        have hps := ke.prot _ hp
        have hqs := ke.prot _ hq
        have e1 : getSon p k s = .ok (q, s) :=
          getSon_ok (hps.used g.inv) (by rw [ke.kind p hp]; exact hkp) hget
        have step : ∀ x v, x j = k → Ev s0.kind (upd x var val) q v →
            Ev s0.kind (upd x var val) p v := by
          intro x v hx hv
          exact .inner hkp (by rw [upd_other _ _ hiv, hx]; exact hget) hv
        cases hkq : s0.kind q with
        | leaf v =>
            refine ⟨q, ?_, hq, by omega, (fun ss e => by rw [hkq] at e; cases e),
              fun x v _ hx hv => step x v hx hv⟩
            unfold dpldSon
            rw [bind_ok e1, bind_ok (getKind_ok (hqs.used g.inv)), ke.kind q hq, hkq]
            rfl
        | inner j' ts =>
            obtain ⟨hj', hlen', hu'⟩ := g0.inv.sons q j' ts (hq.used g0.inv) hkq
            by_cases hv : j' = var
            · subst hv
              have hvl : val < ts.length := by rw [hlen']; exact hval hj'
              have hget' : ts[val]? = some ts[val] := List.getElem?_eq_getElem hvl
              have hmem' : ts[val] ∈ ts := List.getElem_mem hvl
              generalize ts[val] = r at hget' hmem'
              have hlt' := g0.ord q j' ts r (hq.used g0.inv) hkq hmem'
              have hr : Prot ext [] s0 r := .son hq hkq hmem'
              refine ⟨r, ?_, hr, by omega, ?_, ?_⟩
              · unfold dpldSon
                rw [bind_ok e1, bind_ok (getKind_ok (hqs.used g.inv)), ke.kind q hq, hkq]
                dsimp only
                rw [if_pos rfl]
                exact getSon_ok (hqs.used g.inv) (by rw [ke.kind q hq]; exact hkq) hget'
              · intro us e
                simp only [Mgr.levelOf, hkq, e] at hlt'
                omega
              · intro x v _ hx hv
                exact step x v hx (.inner hkq (by rw [upd_same]; exact hget') hv)
            · refine ⟨q, ?_, hq, by omega, (fun ss e => by rw [hkq] at e; cases e; exact hv rfl),
                fun x v _ hx hv => step x v hx hv⟩
              unfold dpldSon
              rw [bind_ok e1, bind_ok (getKind_ok (hqs.used g.inv)), ke.kind q hq, hkq]
              dsimp only
              rw [if_neg hv]
              rfl
  · rw [if_neg h]
    exact ⟨p, rfl, hp, by omega, hn, fun _ _ _ _ hv => hv⟩

/-- What `dpld_impl` returns for a pair of nodes. -/
def DpldRel (s0 : Mgr) (vc : VarChange) (ch : Int → Int → Bool) (pq : Ptr × Ptr) (x : Asg)
    (v : Int) : Prop :=
  ∃ a b, Ev s0.kind (upd x vc.index vc.from) pq.1 a ∧ Ev s0.kind (upd x vc.index vc.to) pq.2 b ∧
    v = b2i (ch a b)

/-- `r` is stored in the memo table. -/
def DMemo.Stores (m : DMemo) (r : Ptr) : Prop := ∃ pq, m pq = some r

theorem DMemo.Stores.of_put {m : DMemo} {p q r t : Ptr} (h : (m.put p q r).Stores t) : t = r ∨ m.Stores t := by
  obtain ⟨pq, e⟩ := h
  unfold DMemo.put at e
  split at e
  · cases e; exact .inl rfl
  · exact .inr ⟨pq, e⟩

theorem dpldImpl_tidy {s0 : Mgr} (g0 : Good E ext s0) {vc : VarChange} {ch : Int → Int → Bool}
    (hf : vc.index < E.c.n → vc.from < E.c.dom vc.index)
    (ht : vc.index < E.c.n → vc.to < E.c.dom vc.index) (h0 : TermOK E.c 0) (h1 : TermOK E.c 1) :
    ∀ (f : Nat) (p q : Ptr) (L : Ptr → Prop) (m : DMemo) (s : Mgr), Good E ext s → Keeps ext [] s0 s →
      Prot ext [] s0 p → Prot ext [] s0 q → NotVar s0 vc.index p → NotVar s0 vc.index q →
      DMemoOK E ext vc.index (fun pq => min (s0.levelOf E.c pq.1) (s0.levelOf E.c pq.2))
        (DpldRel s0 vc ch) m s → (∀ t, m.Stores t → TidyBelow L t s) →
      E.c.n - min (s0.levelOf E.c p) (s0.levelOf E.c q) < f →
      Ok (dpldImpl E.c vc ch f (p, q) m) s (fun r s' => Step E ext s r.1 s' ∧
        Rep E.c s' (min (s0.levelOf E.c p) (s0.levelOf E.c q)) r.1 (DpldRel s0 vc ch (p, q)) ∧
        Avoids s' vc.index r.1 ∧
        DMemoOK E ext vc.index (fun pq => min (s0.levelOf E.c pq.1) (s0.levelOf E.c pq.2))
          (DpldRel s0 vc ch) r.2 s' ∧
        TidyBelow (fun t => t = r.1 ∨ L t) r.1 s' ∧ ∀ u, r.2.Stores u → TidyBelow (fun t => t = r.1 ∨ L t) u s') := by
  intro f
  induction f with
  | zero => intro p q L m s _ _ _ _ _ _ _ _ hf; omega
  | succ f ih =>
      intro p q L m s g k hp hq hnp hnq hm hL hfu
      simp only [dpldImpl]
      cases hmp : m (p, q) with
      | some r =>
          have := hm (p, q) r hmp
          exact Ok.pure ⟨Step.refl g this.1, this.2.1, this.2.2, hm, (hL r ⟨_, hmp⟩).mono fun _ h => .inr h,
            fun u hu => (hL u hu).mono fun _ h => .inr h⟩
      | none =>
          have hps := k.prot _ hp
          have hqs := k.prot _ hq
          dsimp only
          refine Ok.bindEq (getKind_ok (hps.used g.inv)) ?_
          refine Ok.bindEq (getKind_ok (hqs.used g.inv)) ?_
          rw [k.kind p hp, k.kind q hq]
          -- the recursive case
          have rec_case : (∀ a b, ¬ (s0.kind p = .leaf a ∧ s0.kind q = .leaf b)) → Ok (do
              let ll ← getLevel E.c p
              let rl ← getLevel E.c q
              let top := min ll rl
              let i ← getIndex E.c top
              let (sons, m) ← mapAccL (fun k m => do
                let a ← (if ll = top then dpldSon p k vc.index vc.from else pure p : M Ptr)
                let b ← (if rl = top then dpldSon q k vc.index vc.to else pure q : M Ptr)
                dpldImpl E.c vc ch f (a, b) m) (List.range (E.c.dom i)) m
              let r ← makeInternal E.c i sons
              pure (r, m.put p q r)) s (fun r s' => Step E ext s r.1 s' ∧
                Rep E.c s' (min (s0.levelOf E.c p) (s0.levelOf E.c q)) r.1 (DpldRel s0 vc ch (p, q)) ∧
        Avoids s' vc.index r.1 ∧
                DMemoOK E ext vc.index (fun pq => min (s0.levelOf E.c pq.1) (s0.levelOf E.c pq.2))
                  (DpldRel s0 vc ch) r.2 s' ∧
                TidyBelow (fun t => t = r.1 ∨ L t) r.1 s' ∧
                ∀ u, r.2.Stores u → TidyBelow (fun t => t = r.1 ∨ L t) u s') := by
            intro hnl
            refine Ok.bindEq (getLevel_ok (hps.used g.inv)) ?_
            refine Ok.bindEq (getLevel_ok (hqs.used g.inv)) ?_
            rw [k.levelOf hp, k.levelOf hq]
            -- the top variable
            obtain ⟨i, hi, hiv, htop⟩ : ∃ i, i < E.c.n ∧ i ≠ vc.index ∧
                min (s0.levelOf E.c p) (s0.levelOf E.c q) = s0.idx2lvl i := by
              have lev : ∀ r, Prot ext [] s0 r → NotVar s0 vc.index r → s0.levelOf E.c r < E.c.n →
                  ∃ i, i < E.c.n ∧ i ≠ vc.index ∧ s0.levelOf E.c r = s0.idx2lvl i := by
                intro r hr hn hl
                cases hk : s0.kind r with
                | leaf a => simp [Mgr.levelOf, hk] at hl
                | inner i ss =>
                    exact ⟨i, (g0.inv.sons r i ss (hr.used g0.inv) hk).1,
                      fun e => hn ss (by rw [← e]; exact hk), by simp [Mgr.levelOf, hk]⟩
              have one : s0.levelOf E.c p < E.c.n ∨ s0.levelOf E.c q < E.c.n := by
                by_contra hc
                have key : ∀ r, Prot ext [] s0 r → ¬ s0.levelOf E.c r < E.c.n →
                    ∃ a, s0.kind r = .leaf a := by
                  intro r hr hl
                  cases hk : s0.kind r with
                  | leaf a => exact ⟨a, rfl⟩
                  | inner i ss =>
                      exfalso
                      apply hl
                      simp only [Mgr.levelOf, hk]
                      exact g0.inv.order.i2l_lt i (g0.inv.sons r i ss (hr.used g0.inv) hk).1
                obtain ⟨a, ha⟩ := key p hp (by omega)
                obtain ⟨b, hb⟩ := key q hq (by omega)
                exact hnl a b ⟨ha, hb⟩
              rcases Nat.le_total (s0.levelOf E.c p) (s0.levelOf E.c q) with h | h
              · rw [Nat.min_eq_left h]; exact lev p hp hnp (by omega)
              · rw [Nat.min_eq_right h]; exact lev q hq hnq (by omega)
            have hit := g0.inv.order.i2l_lt i hi
            refine Ok.bindEq (a := i) (s' := s) ?_ ?_
            · rw [getIndex_ok (by rw [htop]; exact hit), htop, k.l2i, g0.inv.order.i2l2i i hi]
            rw [htop]
            refine Ok.bind (mapAccL_tidy (E := E) (ext := ext)
              (Q := fun k r s => Rep E.c s (s0.idx2lvl i + 1) r
                (fun x v => x i = k → DpldRel s0 vc ch (p, q) x v) ∧ Avoids s vc.index r)
              (fun _ _ _ _ k hp h => ⟨h.1.keeps k hp, h.2.keeps k hp⟩)
              (T := DMemoOK E ext vc.index (fun pq => min (s0.levelOf E.c pq.1) (s0.levelOf E.c pq.2))
                (DpldRel s0 vc ch)) (mem := DMemo.Stores) s0 (List.range (E.c.dom i)) ?_ L m s g k hm hL) ?_
            · intro kk hkk L1 m1 s1 g1 k1 hm1 hL1
              have hkd := List.mem_range.1 hkk
              obtain ⟨a, ea, pa, la, na, va⟩ := dpldSide_ok g0 hf hp hi hiv hnp (by omega) hkd g1 k1
              obtain ⟨b, eb, pb, lb, nb, vb⟩ := dpldSide_ok g0 ht hq hi hiv hnq (by omega) hkd g1 k1
              refine Ok.bindEq ea ?_
              refine Ok.bindEq eb ?_
              refine (ih a b L1 m1 s1 g1 k1 pa pb na nb hm1 hL1 (by omega)).mono ?_
              rintro r s2 ⟨st, rep, av, hm2, htb⟩
              refine ⟨st, ⟨rep.mono (by omega) ?_, av⟩, hm2, htb⟩
              rintro x v hx ⟨u, w, hu, hw, e⟩ hxk
              exact ⟨u, w, va x u hx hxk hu, vb x w hx hxk hw, e⟩
            · rintro ⟨sons, m1⟩ s1 ⟨g1, k1, hl1, hp1, hr1, hm1, hmo1, tb1, mt1⟩
              have hlv : s1.idx2lvl i = s0.idx2lvl i := by rw [k1.i2l, k.i2l]
              refine Ok.bind (makeInternal_good
                (φ := fun k x v => x i = k → DpldRel s0 vc ch (p, q) x v) g1 hi
                (by simpa using hl1) hp1 ?_) ?_
              · intro kk r hr
                have hkl : kk < E.c.dom i := by
                  have : kk < sons.length := by
                    by_contra hc
                    rw [List.getElem?_eq_none (by omega)] at hr; cases hr
                  simpa [hl1] using this
                rw [hlv]
                exact (hr1 kk kk r (by rw [List.getElem?_range hkl]) hr).1
              · rintro r s2 ⟨g2, k2, hp2, hm2, rep2, ires⟩
                have below := TidyBelow.new k2 hm2 hp1 tb1 ires
                have avs : ∀ t ∈ sons, Avoids s1 vc.index t := by
                  intro t ht
                  obtain ⟨kk, hkk⟩ := List.mem_iff_getElem?.1 ht
                  have hkl : kk < E.c.dom i := by
                    have : kk < sons.length := by
                      by_contra hc
                      rw [List.getElem?_eq_none (by omega)] at hkk; cases hkk
                    simpa [hl1] using this
                  exact (hr1 kk kk t (by rw [List.getElem?_range hkl]) hkk).2
                have av : Avoids s2 vc.index r := by
                  rcases ires with ⟨_, rfl, hmem, _⟩ | ⟨_, hk, _⟩
                  · exact avs r hmem
                  · exact .inner hk hiv fun t ht => (avs t ht).keeps k2 (hp1 t ht)
                rw [hlv] at rep2
                have rep : Rep E.c s2 (s0.idx2lvl i) r (DpldRel s0 vc ch (p, q)) :=
                  rep2.mono (Nat.le_refl _) fun x v _ h => h rfl
                refine Ok.pure ⟨⟨g2, k1.trans k2, hp2, ?_⟩, rep, av,
                  (hmo1.keeps k2).put hp2 (by rw [htop]; exact rep) av, below, ?_⟩
                · intro t ht
                  rcases hm2 t ht with h1 | ⟨h1, h2⟩
                  · exact Or.inl h1
                  · rcases hm1 t h1 with h3 | h3
                    · exact absurd h3 h2
                    · exact Or.inr h3
                · intro u hu
                  rcases hu.of_put with rfl | ⟨pq, e⟩
                  · exact below
                  · exact (mt1 u ⟨pq, e⟩).made k2 hm2 (hmo1 pq u e).1
          cases hkp : s0.kind p with
          | inner i ss => exact rec_case (by simp [hkp])
          | leaf a =>
              cases hkq : s0.kind q with
              | inner i ss => exact rec_case (by simp [hkq])
              | leaf b =>
                  dsimp only
                  have hT : TermOK E.c (b2i (ch a b)) := by
                    unfold b2i; split
                    · exact h1
                    · exact h0
                  refine Ok.bind (makeTerminal_good g hT) ?_
                  rintro r s1 ⟨st, hkr, _⟩
                  have rep : Rep E.c s1 (min (s0.levelOf E.c p) (s0.levelOf E.c q)) r
                      (DpldRel s0 vc ch (p, q)) := by
                    refine ⟨by simp [Mgr.levelOf, hkr, hkp, hkq], fun x _ => ?_⟩
                    exact ⟨_, ⟨a, b, .leaf hkp, .leaf hkq, rfl⟩, .leaf hkr⟩
                  refine Ok.pure ⟨st, rep, .leaf hkr, (hm.keeps st.keeps).put st.prot rep (.leaf hkr), .leaf hkr, ?_⟩
                  intro u hu
                  rcases hu.of_put with rfl | ⟨pq, e⟩
                  · exact .leaf hkr
                  · exact (hL u ⟨pq, e⟩).step (hm pq u e).1 st

/-- Whatever is marked: no node of the result of `dpld` is. -/
theorem dpld_tidy (hau : E.auto = false) (g : Good E ext s) {p : Ptr} (hp : Prot ext [] s p) {f : Asg → Int}
    (hd : Den E.c s p f) {vc : VarChange} {ch : Int → Int → Bool}
    (hf : vc.index < E.c.n → vc.from < E.c.dom vc.index)
    (ht : vc.index < E.c.n → vc.to < E.c.dom vc.index) (h0 : TermOK E.c 0) (h1 : TermOK E.c 1) :
    Ok (dpld E.c vc ch p) s (fun r s' => NewDiagram E ext s (fun x =>
      b2i (ch (f (upd x vc.index vc.from)) (f (upd x vc.index vc.to)))) r s' ∧
      Avoids s' vc.index r ∧ TidyBelow (fun _ => False) r s') := by
  have hu := hp.used g.inv
  -- the two operands
  have start : ∃ a b, ((do
      match ← getKind p with
      | .leaf _ => pure (p, p)
      | .inner i _ =>
          if i = vc.index then do
            let a ← getSon p vc.from
            let b ← getSon p vc.to
            pure (a, b)
          else pure (p, p) : M (Ptr × Ptr)) s = .ok ((a, b), s)) ∧ Prot ext [] s a ∧
      Prot ext [] s b ∧ NotVar s vc.index a ∧ NotVar s vc.index b ∧
      (∀ x v, Ev s.kind (upd x vc.index vc.from) a v → Ev s.kind (upd x vc.index vc.from) p v) ∧
      (∀ x v, Ev s.kind (upd x vc.index vc.to) b v → Ev s.kind (upd x vc.index vc.to) p v) := by
    rw [bind_ok (getKind_ok hu)]
    cases hk : s.kind p with
    | leaf v =>
        exact ⟨p, p, rfl, hp, hp, (fun ss e => by rw [hk] at e; cases e),
          (fun ss e => by rw [hk] at e; cases e), fun _ _ h => h, fun _ _ h => h⟩
    | inner i ss =>
        dsimp only
        by_cases hi : i = vc.index
        · subst hi
          obtain ⟨hin, hlen, hus⟩ := g.inv.sons p _ ss hu hk
          have side : ∀ val, val < E.c.dom vc.index → ∃ a, getSon p val s = .ok (a, s) ∧
              Prot ext [] s a ∧ NotVar s vc.index a ∧ ∀ x v, Ev s.kind (upd x vc.index val) a v →
                Ev s.kind (upd x vc.index val) p v := by
            intro val hv
            have hvl : val < ss.length := by rw [hlen]; exact hv
            have hget : ss[val]? = some ss[val] := List.getElem?_eq_getElem hvl
            have hmem : ss[val] ∈ ss := List.getElem_mem hvl
            refine ⟨ss[val], getSon_ok hu hk hget, .son hp hk hmem, ?_, ?_⟩
            · intro us e
              have := g.ord p _ ss _ hu hk hmem
              simp only [Mgr.levelOf, hk, e] at this
              omega
            · intro x v hv
              exact .inner hk (by rw [upd_same]; exact hget) hv
          obtain ⟨a, ea, pa, na, va⟩ := side _ (hf hin)
          obtain ⟨b, eb, pb, nb, vb⟩ := side _ (ht hin)
          refine ⟨a, b, ?_, pa, pb, na, nb, va, vb⟩
          rw [if_pos rfl, bind_ok ea, bind_ok eb]
          rfl
        · rw [if_neg hi]
          exact ⟨p, p, rfl, hp, hp, (fun us e => by rw [hk] at e; cases e; exact hi rfl),
            (fun us e => by rw [hk] at e; cases e; exact hi rfl), fun _ _ h => h, fun _ _ h => h⟩
  obtain ⟨a, b, e, pa, pb, na, nb, va, vb⟩ := start
  unfold dpld
  refine Ok.bindEq e ?_
  refine Ok.bind (dpldImpl_tidy g hf ht h0 h1 (E.c.n + 1) a b (fun _ => False) _ s g (Keeps.refl s) pa pb na nb
    (by intro p r h; cases h) (by rintro _ ⟨_, h⟩; cases h) (by omega)) ?_
  rintro ⟨r, m⟩ s1 ⟨st, rep, av, _, tb, _⟩
  refine Ok.bindEq (runDeferred_ok (st.good.defer hau) _) ?_
  obtain ⟨r', s', e', rfl, _, hm, hk⟩ := mkDiagram_good st.good st.prot
  suffices hs : Ok (mkDiagram r') s1 (fun r s' => NewDiagram E ext s (fun x =>
      b2i (ch (f (upd x vc.index vc.from)) (f (upd x vc.index vc.to)))) r s') by
    obtain ⟨r2, s2, e2, nd⟩ := hs
    rw [e'] at e2
    cases e2
    refine ⟨r', s', e', nd, ?_, ?_⟩
    · intro q hq ss hkq
      rw [hk] at hq hkq
      exact av q hq ss hkq
    · intro t ht hmt
      rw [hk] at ht
      rw [hm, upd_apply] at hmt
      split at hmt
      · cases hmt
      · rename_i hne
        exact (tb t ht hmt).elim hne id
  refine st.diagram (rep.mono (Nat.le_refl _) ?_)
  rintro x v hx ⟨u, w, hu, hw, rfl⟩
  rw [(hd _ (valid_upd hx hf)).det (va x u hu), (hd _ (valid_upd hx ht)).det (vb x w hw)]

theorem dpld_good (hau : E.auto = false) (g : Good E ext s) {p : Ptr} (hp : Prot ext [] s p) {f : Asg → Int}
    (hd : Den E.c s p f) {vc : VarChange} {ch : Int → Int → Bool}
    (hf : vc.index < E.c.n → vc.from < E.c.dom vc.index)
    (ht : vc.index < E.c.n → vc.to < E.c.dom vc.index) (h0 : TermOK E.c 0) (h1 : TermOK E.c 1) :
    Ok (dpld E.c vc ch p) s (fun r s' => NewDiagram E ext s (fun x =>
      b2i (ch (f (upd x vc.index vc.from)) (f (upd x vc.index vc.to)))) r s' ∧
      Avoids s' vc.index r) :=
  (dpld_tidy hau g hp hd hf ht h0 h1).mono fun _ _ h => ⟨h.1, h.2.1⟩

/-- A node of `var` whose other sons are undefined. -/
theorem undefinedExcept_good (g : Good E ext s) (hU : TermOK E.c Undefined) {varFrom var : Nat}
    (hi : var < E.c.n) {son : Ptr} (hp : Prot ext [] s son) {φ : Asg → Int → Prop}
    (hr : Rep E.c s (s.idx2lvl var + 1) son φ) :
    Ok (undefinedExcept E.c varFrom var son) s (fun r s' => Step E ext s r s' ∧
      Rep E.c s' (s.idx2lvl var) r (fun x v => if x var = varFrom then φ x v else v = Undefined)) := by
  unfold undefinedExcept
  refine Ok.bindEq (s' := s) (a := E.c.dom var) (by simp [getDomain, hi]) ?_
  refine Ok.bind (mapL_good (E := E) (ext := ext) (L := fun _ => s.idx2lvl var + 1)
    (φ := fun k x v => if k = varFrom then φ x v else v = Undefined) (List.range (E.c.dom var)) s ?_
    s g (Keeps.refl s)) ?_
  · intro k _ s1 g1 k1
    by_cases hk : k = varFrom
    · simp only [hk, if_true]
      exact Ok.pure ⟨Step.refl g1 (k1.prot _ hp), hr.keeps k1 hp⟩
    · simp only [hk, if_false]
      refine (makeTerminal_good g1 hU).mono ?_
      rintro r s2 ⟨st, hkr, _⟩
      refine ⟨st, ?_, fun x _ => ⟨_, rfl, .leaf hkr⟩⟩
      simp only [Mgr.levelOf, hkr]
      exact g.inv.order.i2l_lt var hi
  · rintro sons s1 ⟨g1, k1, hl1, hp1, hr1, hm1⟩
    have hlv : s1.idx2lvl var = s.idx2lvl var := by rw [k1.i2l]
    refine (makeInternal_good
      (φ := fun k x v => if k = varFrom then φ x v else v = Undefined) g1 hi
      (by simpa using hl1) hp1 ?_).mono ?_
    · intro kk r hr
      have hkl : kk < E.c.dom var := by
        have : kk < sons.length := by
          by_contra hc
          rw [List.getElem?_eq_none (by omega)] at hr; cases hr
        simpa [hl1] using this
      rw [hlv]
      exact hr1 kk kk r (by rw [List.getElem?_range hkl]) hr
    · rintro r s2 ⟨g2, k2, hp2, hm2, rep2, _⟩
      rw [hlv] at rep2
      refine ⟨⟨g2, k1.trans k2, hp2, ?_⟩, rep2⟩
      intro t ht
      rcases hm2 t ht with h1 | ⟨h1, h2⟩
      · exact Or.inl h1
      · rcases hm1 t h1 with h3 | h3
        · exact absurd h3 h2
        · exact Or.inr h3

theorem toDpldEImpl_good {s0 : Mgr} (g0 : Good E ext s0) (hU : TermOK E.c Undefined)
    {varFrom var : Nat} (hi : var < E.c.n) :
    ∀ (f : Nat) (p : Ptr) (m : Memo) (s : Mgr), Good E ext s → Keeps ext [] s0 s →
      Prot ext [] s0 p → (∀ q, Reach s0.kind p q → NotVar s0 var q) →
      s0.levelOf E.c p < s0.idx2lvl var →
      MemoOK E ext (fun q => min (s0.levelOf E.c q) (s0.idx2lvl var))
        (fun q x v => if x var = varFrom then Ev s0.kind x q v else v = Undefined) m s →
      E.c.n - s0.levelOf E.c p < f →
      Ok (toDpldEImpl E.c varFrom var f p m) s (fun r s' => Step E ext s r.1 s' ∧
        Rep E.c s' (s0.levelOf E.c p) r.1
          (fun x v => if x var = varFrom then Ev s0.kind x p v else v = Undefined) ∧
        MemoOK E ext (fun q => min (s0.levelOf E.c q) (s0.idx2lvl var))
          (fun q x v => if x var = varFrom then Ev s0.kind x q v else v = Undefined) r.2 s') := by
  have hvl := g0.inv.order.i2l_lt var hi
  intro f
  induction f with
  | zero => intro p m s _ _ _ _ _ _ h; omega
  | succ f ih =>
      intro p m s g k hp hn hlt hm hfu
      have hps := k.prot _ hp
      simp only [toDpldEImpl]
      refine Ok.bindEq (getKind_ok (hps.used g.inv)) ?_
      rw [k.kind p hp]
      cases hk : s0.kind p with
      | leaf v => simp only [Mgr.levelOf, hk] at hlt; omega
      | inner i ss =>
          have hlp : s0.levelOf E.c p = s0.idx2lvl i := by simp [Mgr.levelOf, hk]
          obtain ⟨hin, hlen, hu⟩ := g0.inv.sons p i ss (hp.used g0.inv) hk
          dsimp only
          cases hmp : m p with
          | some r =>
              have := hm p r hmp
              refine Ok.pure ⟨Step.refl g this.1, ?_, hm⟩
              refine this.2.mono ?_ fun _ _ _ h => h
              dsimp only
              omega
          | none =>
              dsimp only
              refine Ok.bindGet ?_
              rw [k.i2l]
              refine Ok.bind (mapAccL_good (E := E) (ext := ext)
                (L := fun q => min (s0.levelOf E.c q) (s0.idx2lvl var))
                (φ := fun q x v => if x var = varFrom then Ev s0.kind x q v else v = Undefined)
                (T := MemoOK E ext (fun q => min (s0.levelOf E.c q) (s0.idx2lvl var))
                  (fun q x v => if x var = varFrom then Ev s0.kind x q v else v = Undefined))
                ss s0 ?_ m s g k hm) ?_
              · intro q hq m1 s1 g1 k1 hm1
                have hqp : Prot ext [] s0 q := .son hp hk hq
                have hql := g0.ord p i ss q (hp.used g0.inv) hk hq
                have hqs := k1.prot _ hqp
                refine Ok.bindEq (getLevel_ok (hqs.used g1.inv)) ?_
                rw [k1.levelOf hqp]
                by_cases hc : s0.idx2lvl var < s0.levelOf E.c q
                · rw [if_pos ⟨by omega, hc⟩]
                  have rep : Rep E.c s1 (s1.idx2lvl var + 1) q (fun x v => Ev s0.kind x q v) := by
                    rw [k1.i2l]
                    refine Rep.keeps (s := s0) ⟨by omega, fun x hx => ?_⟩ k1 hqp
                    obtain ⟨v, hv⟩ := Ev.total g0.inv g0.ord hx q (hqp.used g0.inv)
                    exact ⟨v, hv, hv⟩
                  refine Ok.bind (undefinedExcept_good g1 hU hi (k1.prot _ hqp) rep) ?_
                  rintro r s2 ⟨st, rep2⟩
                  refine Ok.pure ⟨st, ?_, hm1.keeps st.keeps⟩
                  rw [k1.i2l] at rep2
                  exact rep2.mono (by omega) fun _ _ _ h => h
                · rw [if_neg (fun h => hc h.2)]
                  have hql2 : s0.levelOf E.c q < s0.idx2lvl var := by
                    refine lt_of_le_of_ne (by omega) fun e => ?_
                    cases hkq : s0.kind q with
                    | leaf v => simp only [Mgr.levelOf, hkq] at e; omega
                    | inner j ts =>
                        simp only [Mgr.levelOf, hkq] at e
                        obtain ⟨hj, _⟩ := g0.inv.sons q j ts (hqp.used g0.inv) hkq
                        have : j = var := by
                          rw [← g0.inv.order.i2l2i j hj, ← g0.inv.order.i2l2i var hi, e]
                        exact hn q (.step hk hq .refl) ts (by rw [← this]; exact hkq)
                  refine (ih q m1 s1 g1 k1 hqp (fun r hr => hn r (.step hk hq hr)) hql2 hm1
                    (by omega)).mono ?_
                  rintro r s2 ⟨st, rep, hm2⟩
                  exact ⟨st, rep.mono (by omega) fun _ _ _ h => h, hm2⟩
              · rintro ⟨sons, m1⟩ s1 ⟨g1, k1, hl1, hp1, hr1, hm1, hmo1⟩
                have hlv : s1.idx2lvl i = s0.idx2lvl i := by rw [k1.i2l, k.i2l]
                refine Ok.bind (makeInternal_good (φ := fun k x v => ∃ q, ss[k]? = some q ∧
                  if x var = varFrom then Ev s0.kind x q v else v = Undefined) g1 hin
                  (by rw [← hlen]; exact hl1) hp1 ?_) ?_
                · intro kk r hr
                  have hkl : kk < ss.length := by
                    have : kk < sons.length := by
                      by_contra hc
                      rw [List.getElem?_eq_none (Nat.le_of_not_lt hc)] at hr; cases hr
                    have hl2 : sons.length = ss.length := hl1
                    omega
                  have hget : ss[kk]? = some ss[kk] := List.getElem?_eq_getElem hkl
                  have hlt' := g0.ord p i ss _ (hp.used g0.inv) hk (List.getElem_mem hkl)
                  refine (hr1 kk ss[kk] r hget hr).mono (by omega) ?_
                  intro x v _ h
                  exact ⟨ss[kk], hget, h⟩
                · rintro r s2 ⟨g2, k2, hp2, hm2, rep2, _⟩
                  rw [hlv, ← hlp] at rep2
                  have rep : Rep E.c s2 (s0.levelOf E.c p) r (fun x v =>
                      if x var = varFrom then Ev s0.kind x p v else v = Undefined) := by
                    refine rep2.mono (Nat.le_refl _) ?_
                    rintro x v hx ⟨q, hq, h⟩
                    split
                    · rename_i hxv
                      rw [if_pos hxv] at h
                      exact .inner hk hq h
                    · rename_i hxv
                      rw [if_neg hxv] at h
                      exact h
                  refine Ok.pure ⟨⟨g2, k1.trans k2, hp2, ?_⟩, rep,
                    (hmo1.keeps k2).put hp2 (rep.mono (by omega) fun _ _ _ h => h)⟩
                  intro t ht
                  rcases hm2 t ht with h1 | ⟨h1, h2⟩
                  · exact Or.inl h1
                  · rcases hm1 t h1 with h3 | h3
                    · exact absurd h3 h2
                    · exact Or.inr h3

theorem toDpldE_good (hau : E.auto = false) (g : Good E ext s) (hU : TermOK E.c Undefined) {varFrom var : Nat}
    (hi : var < E.c.n) {p : Ptr} (hp : Prot ext [] s p) {f : Asg → Int} (hd : Den E.c s p f)
    (hn : ∀ q, Reach s.kind p q → NotVar s var q) :
    Ok (toDpldE E.c varFrom var p) s (fun r s' => NewDiagram E ext s (fun x =>
      if x var = varFrom then f x else Undefined) r s') := by
  have hu := hp.used g.inv
  have hvl := g.inv.order.i2l_lt var hi
  unfold toDpldE
  refine Ok.bindEq (getLevel_ok hu) ?_
  refine Ok.bindGet ?_
  rw [if_pos hi]
  have fin : ∀ x v, Valid E.c x → (if x var = varFrom then Ev s.kind x p v else v = Undefined) →
      v = if x var = varFrom then f x else Undefined := by
    intro x v hx h
    split
    · rename_i hxv
      rw [if_pos hxv] at h
      exact h.det (hd x hx)
    · rename_i hxv
      rw [if_neg hxv] at h
      exact h
  by_cases hc : s.idx2lvl var < s.levelOf E.c p
  · rw [if_pos hc]
    have rep : Rep E.c s (s.idx2lvl var + 1) p (fun x v => Ev s.kind x p v) :=
      ⟨hc, fun x hx => ⟨_, hd x hx, hd x hx⟩⟩
    refine Ok.bind (undefinedExcept_good g hU hi hp rep) ?_
    rintro r s1 ⟨st, rep1⟩
    exact st.diagram (rep1.mono (Nat.le_refl _) fin)
  · rw [if_neg hc]
    have hlt : s.levelOf E.c p < s.idx2lvl var := by
      refine lt_of_le_of_ne (by omega) fun e => ?_
      cases hk : s.kind p with
      | leaf v => simp only [Mgr.levelOf, hk] at e; omega
      | inner j ts =>
          simp only [Mgr.levelOf, hk] at e
          obtain ⟨hj, _⟩ := g.inv.sons p j ts hu hk
          have : j = var := by
            rw [← g.inv.order.i2l2i j hj, ← g.inv.order.i2l2i var hi, e]
          exact hn p .refl ts (by rw [← this]; exact hk)
    refine Ok.bind (toDpldEImpl_good g hU hi (E.c.n + 1) p _ s g (Keeps.refl s) hp hn hlt
      (by intro p r h; cases h) (by omega)) ?_
    rintro ⟨r, m⟩ s1 ⟨st, rep, _⟩
    refine Ok.bindEq (runDeferred_ok (st.good.defer hau) _) ?_
    exact st.diagram (rep.mono (Nat.le_refl _) fin)

end

end Teddy
