import Verif.Proofs.TidyBelow

/-! `apply_n` and expression trees. -/

namespace Teddy

open SM

theorem forall2_mono {α β γ : Type} {R : α → γ → Prop} {S : β → γ → Prop} {as : List α}
    {bs : List β} {cs : List γ} (h : List.Forall₂ (fun a b => ∀ c, R a c → S b c) as bs)
    (h2 : List.Forall₂ R as cs) : List.Forall₂ S bs cs := by
  induction h generalizing cs with
  | nil => cases h2; exact .nil
  | cons h1 _ ih => cases h2 with | cons h3 h4 => exact .cons (h1 _ h3) (ih h4)

theorem NOpOK.mono {c : Cfg} {op : List Int → Except Err Int} {As Bs : List (Int → Prop)}
    (h : NOpOK c op As) (hB : List.Forall₂ (fun (B A : Int → Prop) => ∀ a, B a → A a) Bs As) :
    NOpOK c op Bs where
  nd B hB' a ha := by
    obtain ⟨k, hk⟩ := List.mem_iff_getElem?.1 hB'
    have hlen := hB.length_eq
    have hkl : k < Bs.length := by
      by_contra hc
      rw [List.getElem?_eq_none (by omega)] at hk; cases hk
    have := List.forall₂_iff_get.1 hB
    have h2 := this.2 k hkl (by omega)
    simp only [List.get_eq_getElem] at h2
    rw [List.getElem?_eq_getElem hkl] at hk
    cases hk
    exact h.nd _ (List.getElem_mem _) a (h2 a ha)
  total vs' hv := by
    obtain ⟨v, h1, h2, h3⟩ := h.total vs' (forall2_mono (hB.imp (fun _ _ hab c hc =>
      hc.imp_left (hab c))) hv)
    exact ⟨v, h1, h2, fun hne => ⟨(h3 hne).1, fun ws hw => (h3 hne).2 ws
      (forall2_mono hB hw)⟩⟩

section
variable {E : Env} {ext : Ptr → Nat} {s : Mgr}

theorem mapL_pure {α β : Type} {f : α → M β} {g : α → β} {l : List α} {s : Mgr}
    (h : ∀ a ∈ l, f a s = .ok (g a, s)) : mapL f l s = .ok (l.map g, s) := by
  induction l with
  | nil => rfl
  | cons a l ih =>
      simp only [mapL]
      rw [bind_ok (h a (by simp)), bind_ok (ih (fun b hb => h b (by simp [hb])))]
      rfl

theorem packMin_le {ls : List Nat} {l : Nat} (h : l ∈ ls) : packMin ls ≤ l := by
  match ls with
  | [] => cases h
  | [a] => simp at h; subst h; simp [packMin]
  | a :: b :: ls =>
      simp only [packMin]
      rcases List.mem_cons.1 h with rfl | h
      · omega
      · have := packMin_le (ls := b :: ls) h
        omega

theorem packMin_mem {ls : List Nat} (h : ls ≠ []) : packMin ls ∈ ls := by
  match ls with
  | [] => exact absurd rfl h
  | [a] => simp [packMin]
  | a :: b :: ls =>
      simp only [packMin]
      have := packMin_mem (ls := b :: ls) (by simp)
      rcases Nat.le_total a (packMin (b :: ls)) with h1 | h1
      · rw [Nat.min_eq_left h1]; simp
      · rw [Nat.min_eq_right h1]; exact List.mem_cons_of_mem _ this

/-- Smallest level of the operands. -/
def topLevel (c : Cfg) (s : Mgr) (ps : List Ptr) : Nat := packMin (ps.map (s.levelOf c))

/-- What `apply_n_impl` must compute. -/
def NVal (op : List Int → Except Err Int) (s : Mgr) (ps : List Ptr) (x : Asg) (v : Int) : Prop :=
  ∃ ws, List.Forall₂ (fun p w => Ev s.kind x p w) ps ws ∧ op ws = .ok v

/-- The memo of `apply_n_impl`. -/
def NMemoOK (E : Env) (ext : Ptr → Nat) (op : List Int → Except Err Int) (s0 : Mgr) (m : NCache)
    (s : Mgr) : Prop :=
  ∀ h ps r, m h = some (ps, r) → Prot ext [] s r ∧
    Rep E.c s (topLevel E.c s0 ps) r (NVal op s0 ps)

theorem NMemoOK.keeps {op : List Int → Except Err Int} {s0 s' : Mgr} {m : NCache}
    (h : NMemoOK E ext op s0 m s) (k : Keeps ext [] s s') : NMemoOK E ext op s0 m s' :=
  fun i ps r hr => ⟨k.prot _ (h i ps r hr).1, (h i ps r hr).2.keeps k (h i ps r hr).1⟩

theorem NMemoOK.put {op : List Int → Except Err Int} {s0 : Mgr} {m : NCache} {ps : List Ptr}
    {r : Ptr} {i : Nat} (h : NMemoOK E ext op s0 m s) (hp : Prot ext [] s r)
    (hr : Rep E.c s (topLevel E.c s0 ps) r (NVal op s0 ps)) :
    NMemoOK E ext op s0 (upd m i (some (ps, r))) s := by
  intro j qs t hq
  simp only [upd_apply] at hq
  split at hq
  · cases hq; exact ⟨hp, hr⟩
  · exact h j qs t hq

theorem total_list (g : Good E ext s) {x : Asg} (hx : Valid E.c x) {ps : List Ptr}
    (hp : ∀ p ∈ ps, s.used p = true) : ∃ ws, List.Forall₂ (fun p w => Ev s.kind x p w) ps ws := by
  induction ps with
  | nil => exact ⟨[], .nil⟩
  | cons p ps ih =>
      obtain ⟨ws, h⟩ := ih (fun q hq => hp q (by simp [hq]))
      obtain ⟨w, hw⟩ := Ev.total g.inv g.ord hx p (hp p (by simp))
      exact ⟨w :: ws, .cons hw h⟩

theorem forall2_map_left {α β γ : Type} {R : β → γ → Prop} {f : α → β} {l : List α} {m : List γ}
    (h : List.Forall₂ (fun a c => R (f a) c) l m) : List.Forall₂ R (l.map f) m := by
  induction h with
  | nil => exact .nil
  | cons h1 _ ih => exact .cons h1 ih

theorem forall2_of_map_left {α β γ : Type} {R : β → γ → Prop} {f : α → β} {l : List α}
    {m : List γ} (h : List.Forall₂ R (l.map f) m) : List.Forall₂ (fun a c => R (f a) c) l m := by
  induction l generalizing m with
  | nil => cases h; exact .nil
  | cons a l ih => cases h with | cons h1 h2 => exact .cons h1 (ih h2)

theorem forall2_same {α : Type} {R : α → α → Prop} {l : List α} (h : ∀ a ∈ l, R a a) :
    List.Forall₂ R l l := by
  induction l with
  | nil => exact .nil
  | cons a l ih => exact .cons (h a (by simp)) (ih (fun b hb => h b (by simp [hb])))

theorem forall2_right {α β γ : Type} {R : α → β → Prop} {S : γ → β → Prop} {f : α → γ}
    {l : List α} {m : List β} (h : List.Forall₂ R l m)
    (hi : ∀ a ∈ l, ∀ b, R a b → S (f a) b) : List.Forall₂ S (l.map f) m := by
  induction h with
  | nil => exact .nil
  | cons h1 _ ih => exact .cons (hi _ (by simp) _ h1) (ih (fun a ha => hi a (by simp [ha])))

theorem forall2_imp_mem {α β : Type} {R S : α → β → Prop} {l : List α} {m : List β}
    (h : List.Forall₂ R l m) (hi : ∀ a ∈ l, ∀ b, R a b → S a b) : List.Forall₂ S l m := by
  have := forall2_right (f := id) (S := S) h hi
  simpa using this

theorem cofNode_keeps {s' : Mgr} (k : Keeps ext [] s s') {p : Ptr} (hp : Prot ext [] s p)
    (top i : Nat) : s'.cofNode E.c p top i = s.cofNode E.c p top i := by
  unfold Mgr.cofNode
  rw [k.levelOf hp]
  simp only [Mgr.sonsOf, k.kind p hp]

/-- `r` is stored in the memo table. -/
def NCache.Stores (m : NCache) (r : Ptr) : Prop := ∃ i ps, m i = some (ps, r)

theorem NCache.Stores.of_put {m : NCache} {h : Nat} {ps : List Ptr} {r q : Ptr}
    (hq : NCache.Stores (upd m h (some (ps, r))) q) : q = r ∨ m.Stores q := by
  obtain ⟨i, qs, e⟩ := hq
  simp only [upd_apply] at e
  split at e
  · cases e; exact .inl rfl
  · exact .inr ⟨i, qs, e⟩

theorem applyNImpl_tidy {op : List Int → Except Err Int} {s0 : Mgr} (g0 : Good E ext s0) :
    ∀ (f : Nat) (ps : List Ptr) (L : Ptr → Prop) (m : NCache) (s : Mgr), Good E ext s → Keeps ext [] s0 s →
      ps ≠ [] → (∀ p ∈ ps, Prot ext [] s0 p) →
      NOpOK E.c op (ps.map (LeafVal s0.kind)) → NMemoOK E ext op s0 m s → (∀ q, m.Stores q → TidyBelow L q s) →
      E.c.n - topLevel E.c s0 ps < f →
      Ok (applyNImpl E.c op f ps m) s (fun r s' => Step E ext s r.1 s' ∧
        Rep E.c s' (topLevel E.c s0 ps) r.1 (NVal op s0 ps) ∧ NMemoOK E ext op s0 r.2 s' ∧
        TidyBelow (fun p => p = r.1 ∨ L p) r.1 s' ∧ ∀ q, r.2.Stores q → TidyBelow (fun p => p = r.1 ∨ L p) q s') := by
  intro f
  induction f with
  | zero => intro ps L m s _ _ _ _ _ _ _ hf; omega
  | succ f ih =>
      intro ps L m s g k hne hps hop hm hL hf
      simp only [applyNImpl]
      cases hlook : NCache.look 100000 m (E.c.hash ps) ps with
      | some r =>
          unfold NCache.look at hlook
          split at hlook
          · rename_i qs r' hqs
            split at hlook
            · rename_i e; subst e; cases hlook
              have := hm _ _ _ hqs
              exact Ok.pure ⟨Step.refl g this.1, this.2, hm, (hL _ ⟨_, _, hqs⟩).mono fun _ h => .inr h,
                fun q hq => (hL q hq).mono fun _ h => .inr h⟩
            · cases hlook
          · cases hlook
      | none =>
          dsimp only
          have hus : ∀ p ∈ ps, s.used p = true := fun p hp => (k.prot _ (hps p hp)).used g.inv
          have hus0 : ∀ p ∈ ps, s0.used p = true := fun p hp => (hps p hp).used g0.inv
          have hval : ∀ p ∈ ps, valueOrND p s = .ok (s0.topVal p, s) := by
            intro p hp
            rw [valueOrND_ok (hus p hp)]
            simp [Mgr.topVal, k.kind p (hps p hp)]
          refine Ok.bindEq (mapL_pure hval) ?_
          obtain ⟨v, hv, hnd, hdet⟩ := hop.total (ps.map s0.topVal) (by
            rw [List.forall₂_map_right_iff, List.forall₂_map_left_iff]
            exact forall2_same (fun p _ => topVal_leaf))
          refine Ok.bindEq (liftE_ok hv s) ?_
          by_cases hvn : v = Nondetermined
          · rw [if_neg (by simpa using hvn)]
            have hlev : ∀ p ∈ ps, getLevel E.c p s = .ok (s0.levelOf E.c p, s) := by
              intro p hp
              rw [getLevel_ok (hus p hp), k.levelOf (hps p hp)]
            refine Ok.bindEq (mapL_pure hlev) ?_
            have htop : topLevel E.c s0 ps < E.c.n := by
              obtain ⟨p, hp, hpv⟩ := List.mem_map.1 (hnd hvn)
              have hle : topLevel E.c s0 ps ≤ s0.levelOf E.c p :=
                packMin_le (List.mem_map_of_mem hp)
              cases hk : s0.kind p with
              | leaf a =>
                  have : a = Nondetermined := by simpa [Mgr.topVal, hk] using hpv
                  exact absurd this (hop.nd _ (List.mem_map_of_mem hp) a ⟨p, .refl, hk⟩)
              | inner i ss =>
                  have : s0.levelOf E.c p = s0.idx2lvl i := by simp [Mgr.levelOf, hk]
                  have := g0.inv.order.i2l_lt i (g0.inv.sons p i ss (hus0 p hp) hk).1
                  omega
            have hge : ∀ p ∈ ps, topLevel E.c s0 ps ≤ s0.levelOf E.c p :=
              fun p hp => packMin_le (List.mem_map_of_mem hp)
            change Ok (getIndex E.c (topLevel E.c s0 ps) >>= _) s _
            refine Ok.bindEq (getIndex_ok htop) ?_
            rw [k.l2i]
            have hi := g0.inv.order.l2i_lt _ htop
            have hli := g0.inv.order.l2i2l _ htop
            generalize hidef : s0.lvl2idx (topLevel E.c s0 ps) = i at *
            -- facts about the cofactors
            have hcof : ∀ j, j < E.c.dom i → ∀ p ∈ ps,
                Reach s0.kind p (s0.cofNode E.c p (topLevel E.c s0 ps) j) ∧
                topLevel E.c s0 ps < s0.levelOf E.c (s0.cofNode E.c p (topLevel E.c s0 ps) j) ∧
                (∀ x v, x i = j → Ev s0.kind x (s0.cofNode E.c p (topLevel E.c s0 ps) j) v →
                  Ev s0.kind x p v) := by
              intro j hj p hp
              obtain ⟨h1, _, h3, _, h5⟩ := cofNode_spec g0.inv g0.ord hi (hus0 p hp)
                (by rw [hli]; exact hge p hp) hj
              rw [hli] at h1 h3 h5
              exact ⟨h1, h3, h5⟩
            refine Ok.bind (mapAccL_tidy (E := E) (ext := ext)
              (Q := fun j r s => Rep E.c s (topLevel E.c s0 ps + 1) r (fun x v => x i = j → NVal op s0 ps x v))
              (fun _ _ _ _ k hp h => h.keeps k hp)
              (T := NMemoOK E ext op s0) (mem := NCache.Stores) s0 (List.range (E.c.dom i)) ?_ L m s g k hm hL) ?_
            · intro j hj L1 m1 s1 g1 k1 hm1 hL1
              have hj := List.mem_range.1 hj
              have hsel : ∀ p ∈ ps, (do
                  let l ← getLevel E.c p
                  sonAtTop p l (topLevel E.c s0 ps) j : M Ptr) s1
                  = .ok (s0.cofNode E.c p (topLevel E.c s0 ps) j, s1) := by
                intro p hp
                have hp1 := k1.prot _ (hps p hp)
                rw [bind_ok (getLevel_ok (hp1.used g1.inv))]
                have hi1 : s1.idx2lvl i = topLevel E.c s0 ps := by rw [k1.i2l]; exact hli
                obtain ⟨_, h2, _⟩ := cofNode_spec g1.inv g1.ord hi (hp1.used g1.inv)
                  (by rw [hi1, k1.levelOf (hps p hp)]; exact hge p hp) hj
                rw [hi1, cofNode_keeps k1 (hps p hp)] at h2
                exact h2
              refine Ok.bindEq (mapL_pure hsel) ?_
              have htl : topLevel E.c s0 ps < topLevel E.c s0
                  (ps.map (fun p => s0.cofNode E.c p (topLevel E.c s0 ps) j)) := by
                have := packMin_mem (ls := (ps.map (fun p => s0.cofNode E.c p
                  (topLevel E.c s0 ps) j)).map (s0.levelOf E.c)) (by simpa using hne)
                rw [List.map_map] at this
                obtain ⟨p, hp, he⟩ := List.mem_map.1 this
                have h3 := (hcof j hj p hp).2.1
                simp only [Function.comp] at he
                change topLevel E.c s0 ps < packMin ((ps.map (fun p => s0.cofNode E.c p
                  (topLevel E.c s0 ps) j)).map (s0.levelOf E.c))
                rw [List.map_map]
                omega
              refine (ih _ L1 m1 s1 g1 k1 (by simpa using hne) ?_ ?_ hm1 hL1 (by omega)).mono ?_
              · intro q hq
                obtain ⟨p, hp, rfl⟩ := List.mem_map.1 hq
                exact (hcof j hj p hp).1.prot (hps p hp)
              · refine hop.mono ?_
                rw [List.forall₂_map_left_iff, List.forall₂_map_right_iff,
                  List.forall₂_map_left_iff]
                refine forall2_same ?_
                rintro p hp a ⟨t, h1, h2⟩
                exact ⟨t, (hcof j hj p hp).1.trans h1, h2⟩
              · rintro ⟨r, m2⟩ s2 ⟨st, rep, hm2, htb⟩
                refine ⟨st, rep.mono (by omega) ?_, hm2, htb⟩
                rintro x v hx ⟨ws, hws, hv⟩ hxj
                exact ⟨ws, forall2_imp_mem (forall2_of_map_left hws)
                  (fun p hp w hw => (hcof j hj p hp).2.2 x w hxj hw), hv⟩
            · rintro ⟨sons, m1⟩ s1 ⟨g1, k1, hlen, hprot, hrep, hmark, hm1, tb1, mt1⟩
              have hi1 : s1.idx2lvl i = topLevel E.c s0 ps := by rw [k1.i2l, k.i2l]; exact hli
              dsimp only at hlen hprot hrep hmark hm1 tb1 mt1 ⊢
              refine Ok.bind (makeInternal_good (φ := fun j x v => x i = j → NVal op s0 ps x v) g1 hi
                (by simpa using hlen) hprot ?_) ?_
              · intro j q hq
                rw [hi1]
                have hj : j < E.c.dom i := by
                  have : j < sons.length := by
                    by_contra hc
                    rw [List.getElem?_eq_none (by omega)] at hq; cases hq
                  simpa [hlen] using this
                exact hrep j j q (by rw [List.getElem?_range hj]) hq
              · rintro r s2 ⟨g2, k2, hp2, hm2, rep2, hres⟩
                rw [hi1] at rep2
                have below := TidyBelow.new k2 hm2 hprot tb1 hres
                have rep : Rep E.c s2 (topLevel E.c s0 ps) r (NVal op s0 ps) :=
                  rep2.mono (Nat.le_refl _) (fun x v _ h => h rfl)
                refine Ok.pure ⟨⟨g2, k1.trans k2, hp2, ?_⟩, rep, (hm1.keeps k2).put hp2 rep, below, ?_⟩
                · intro p hp
                  rcases hm2 p hp with h1 | ⟨h1, h2⟩
                  · exact Or.inl h1
                  · rcases hmark p h1 with h3 | h3
                    · exact absurd h3 h2
                    · exact Or.inr h3
                · intro q hq
                  rcases hq.of_put with rfl | ⟨j, qs, e⟩
                  · exact below
                  · exact (mt1 q ⟨j, qs, e⟩).made k2 hm2 (hm1 _ _ _ e).1
          · rw [if_pos (by simpa using hvn)]
            obtain ⟨hterm, hall⟩ := hdet hvn
            refine Ok.bind (makeTerminal_good g hterm) ?_
            rintro r s1 ⟨st, hk, _⟩
            have rep : Rep E.c s1 (topLevel E.c s0 ps) r (NVal op s0 ps) := by
              refine ⟨?_, fun x hx => ?_⟩
              · have e : s1.levelOf E.c r = E.c.n := by simp [Mgr.levelOf, hk]
                rw [e]
                have := packMin_mem (ls := ps.map (s0.levelOf E.c)) (by simpa using hne)
                obtain ⟨p, hp, he⟩ := List.mem_map.1 this
                have hle := levelOf_le g0.inv (hus0 p hp)
                unfold topLevel
                omega
              · obtain ⟨ws, hws⟩ := total_list g0 hx hus0
                refine ⟨v, ⟨ws, hws, hall ws ?_ ?_⟩, .leaf hk⟩
                · rw [List.forall₂_map_left_iff]
                  exact forall2_imp_mem hws (fun p _ w hw => hw.leafVal)
                · rw [List.forall₂_map_left_iff]
                  exact forall2_imp_mem hws (fun p _ w hw => topVal_ev hw)
            refine Ok.pure ⟨st, rep, (hm.keeps st.keeps).put st.prot rep, .leaf hk, ?_⟩
            intro q hq
            rcases hq.of_put with rfl | ⟨j, qs, e⟩
            · exact .leaf hk
            · exact (hL q ⟨j, qs, e⟩).step (hm _ _ _ e).1 st

theorem applyNImpl_good {op : List Int → Except Err Int} {s0 : Mgr} (g0 : Good E ext s0)
    (f : Nat) (ps : List Ptr) (m : NCache) (s : Mgr) (g : Good E ext s) (k : Keeps ext [] s0 s)
    (hne : ps ≠ []) (hps : ∀ p ∈ ps, Prot ext [] s0 p)
    (hop : NOpOK E.c op (ps.map (LeafVal s0.kind))) (hm : NMemoOK E ext op s0 m s)
    (hf : E.c.n - topLevel E.c s0 ps < f) :
    Ok (applyNImpl E.c op f ps m) s (fun r s' => Step E ext s r.1 s' ∧
      Rep E.c s' (topLevel E.c s0 ps) r.1 (NVal op s0 ps) ∧ NMemoOK E ext op s0 r.2 s') :=
  (applyNImpl_tidy g0 f ps (fun _ => True) m s g k hne hps hop hm (fun _ _ _ _ _ => trivial) hf).mono
    fun _ _ h => ⟨h.1, h.2.1, h.2.2.1⟩

theorem NMemoOK.empty {op : List Int → Except Err Int} {s0 : Mgr} :
    NMemoOK E ext op s0 (fun _ => none) s := by
  intro i ps r h; cases h

theorem applyN_good {op : BinOp} (hau : E.auto = false) (g : Good E ext s) {ps : List Ptr} {fs : List (Asg → Int)}
    (hne : ps ≠ []) (hps : ∀ p ∈ ps, 0 < ext p) (hh : Holds E.c s ps fs)
    (hop : NOpOK E.c (opType E.c op).nary (fs.map (Range E.c))) {h : Asg → Int}
    (hr : ∀ x, Valid E.c x → (opType E.c op).nary (fs.map (fun f => f x)) = .ok (h x)) :
    Ok (applyN E.c op ps) s (fun r s' => Res E ext s h r s') := by
  unfold applyN
  have hop' : NOpOK E.c (opType E.c op).nary (ps.map (LeafVal s.kind)) := by
    refine hop.mono ?_
    rw [List.forall₂_map_left_iff, List.forall₂_map_right_iff]
    refine forall2_imp_mem hh ?_
    intro p hp f hf a ha
    exact (leafVal_iff g (g.inv.extUsed p (hps p hp)) hf).1 ha
  refine Ok.bind (applyNImpl_good g (E.c.n + 1) ps _ s g (Keeps.refl s) hne
    (fun p hp => handle_prot (hps p hp)) hop' NMemoOK.empty (by omega)) ?_
  rintro ⟨r, m⟩ s1 ⟨st, rep, _⟩
  refine Ok.bindEq (runDeferred_ok (st.good.defer hau) _) ?_
  refine (st.diagram (f := h) (rep.mono (Nat.le_refl _) ?_)).mono (fun _ _ nd => nd.res)
  rintro x v hx ⟨ws, hws, hv⟩
  have : ws = fs.map (fun f => f x) := by
    clear hv hop hop' hr hne rep
    induction hh generalizing ws with
    | nil => cases hws; rfl
    | cons h1 _ ih =>
        cases hws with
        | cons h3 h4 =>
            rw [ih (fun p hp => hps p (by simp [hp])) _ h4, h3.det (h1 x hx)]
            rfl
  rw [this, hr x hx] at hv
  cases hv; rfl

/-! ### Expression trees -/

/-- Result of an internal computation that may leave marks. -/
structure StepM (E : Env) (ext : Ptr → Nat) (s : Mgr) (r : Ptr) (s' : Mgr) : Prop where
  good : Good E ext s'
  keeps : Keeps ext [] s s'
  prot : Prot ext [] s' r

theorem Rep.den {L : Nat} {r : Ptr} {f : Asg → Int} {c : Cfg}
    (h : Rep c s L r (fun x v => v = f x)) : Den c s r f := by
  intro x hx
  obtain ⟨v, rfl, hv⟩ := h.2 x hx
  exact hv

theorem Expr.OK.ne {c : Cfg} {e : Expr} (h : e.OK c) {x : Asg} (hx : Valid c x) :
    e.val x ≠ Nondetermined := by
  cases e with
  | const v => exact h.2
  | var i =>
      have := hx i h.1
      have := h.2
      simp only [Expr.val]
      omega
  | op f l r => exact (h.2.2 x x hx hx).2

theorem exprOp_ok {f : Int → Int → Int} {l r : Expr} {s : Mgr} (g : Good E ext s) {a b : Ptr}
    (ha : s.used a = true) (hb : s.used b = true) (da : Den E.c s a (fun x => l.val x))
    (db : Den E.c s b (fun x => r.val x)) (hl : l.OK E.c) (hr : r.OK E.c)
    (hf : ∀ x y, Valid E.c x → Valid E.c y → TermOK E.c (f (l.val x) (r.val y)) ∧
        f (l.val x) (r.val y) ≠ Nondetermined) :
    NOpOK E.c (exprOp f) ([a, b].map (LeafVal s.kind)) where
  nd A hA v hv := by
    simp only [List.map_cons, List.map_nil, List.mem_cons, List.not_mem_nil, or_false] at hA
    rcases hA with rfl | rfl
    · obtain ⟨x, hx, rfl⟩ := (leafVal_iff g ha da).1 hv
      exact hl.ne hx
    · obtain ⟨x, hx, rfl⟩ := (leafVal_iff g hb db).1 hv
      exact hr.ne hx
  total vs' hv := by
    simp only [List.map_cons, List.map_nil] at hv
    cases hv with
    | @cons _ v1 _ _ h1 hv =>
    cases hv with
    | @cons _ v2 _ _ h2 hv =>
    cases hv
    by_cases hn : v1 = Nondetermined ∨ v2 = Nondetermined
    · refine ⟨Nondetermined, by simp [exprOp, hn], fun _ => ?_, fun h => absurd rfl h⟩
      rcases hn with rfl | rfl <;> simp
    · have hn' := hn
      push Not at hn
      obtain ⟨x, hx, rfl⟩ := (leafVal_iff g ha da).1 (h1.resolve_right hn.1)
      obtain ⟨y, hy, rfl⟩ := (leafVal_iff g hb db).1 (h2.resolve_right hn.2)
      refine ⟨f (l.val x) (r.val y), by simp only [exprOp]; rw [if_neg hn'],
        fun h => absurd h (hf x y hx hy).2, fun _ => ⟨(hf x y hx hy).1, ?_⟩⟩
      intro ws hw hws
      cases hws with
      | cons e1 hws =>
      cases hws with
      | cons e2 hws =>
      cases hws
      rcases e1 with e1 | rfl
      · exact absurd e1 hn.1
      rcases e2 with e2 | rfl
      · exact absurd e2 hn.2
      simp only [exprOp]; rw [if_neg hn']

theorem exprImpl_good : ∀ (e : Expr) (s : Mgr), Good E ext s → e.OK E.c →
    Ok (exprImpl E.c e) s (fun r s' => StepM E ext s r s' ∧ Den E.c s' r (fun x => e.val x) ∧
      TidyBelow (fun p => p = r) r s') := by
  intro e
  induction e with
  | const v =>
      intro s g he
      refine (makeTerminal_good g he.1).mono ?_
      rintro r s' ⟨st, hk, _⟩
      exact ⟨⟨st.good, st.keeps, st.prot⟩, fun x _ => .leaf hk, fun t ht _ => reach_leaf hk ht⟩
  | var i =>
      intro s g he
      refine (variableImpl_good g he.1).mono ?_
      rintro r s' ⟨st, rep, tb⟩
      exact ⟨⟨st.good, st.keeps, st.prot⟩, rep.den, tb⟩
  | op f l r ihl ihr =>
      intro s g he
      simp only [exprImpl]
      refine Ok.bind (ihl s g he.1) ?_
      rintro a s1 ⟨sta, da, _⟩
      refine Ok.bind (ihr s1 sta.good he.2.1) ?_
      rintro b s2 ⟨stb, db, _⟩
      have da2 : Den E.c s2 a (fun x => l.val x) := stb.keeps.toX.den sta.prot da
      have hpa := stb.keeps.prot _ sta.prot
      refine Ok.bind (applyNImpl_tidy stb.good (E.c.n + 1) [a, b] (fun _ => False) _ s2 stb.good (Keeps.refl s2)
        (by simp) ?_ (exprOp_ok stb.good (hpa.used stb.good.inv) (stb.prot.used stb.good.inv)
          da2 db he.1 he.2.1 he.2.2) NMemoOK.empty (by rintro _ ⟨_, _, h⟩; cases h) (by omega)) ?_
      · intro p hp
        simp only [List.mem_cons, List.not_mem_nil, or_false] at hp
        rcases hp with rfl | rfl
        · exact hpa
        · exact stb.prot
      · rintro ⟨p, m⟩ s3 ⟨st, rep, _, tb, _⟩
        refine Ok.pure ⟨⟨st.good, (sta.keeps.trans stb.keeps).trans st.keeps, st.prot⟩, ?_,
          tb.mono fun _ h => h.resolve_right id⟩
        refine (rep.mono (Nat.le_refl _) ?_).den
        rintro x v hx ⟨ws, hws, hv⟩
        cases hws with
        | cons e1 hws =>
        cases hws with
        | cons e2 hws =>
        cases hws
        rw [e1.det (da2 x hx), e2.det (db x hx)] at hv
        simp only [exprOp] at hv
        rw [if_neg (by push Not; exact ⟨he.1.ne hx, he.2.1.ne hx⟩)] at hv
        cases hv; rfl

/-- Like `Res` but marks may be left behind. -/
structure ResM (E : Env) (ext : Ptr → Nat) (s : Mgr) (f : Asg → Int) (r : Ptr) (s' : Mgr) :
    Prop where
  good : Good E (addExt ext r) s'
  keeps : KeepsH ext s s'
  den : Den E.c s' r f

/-- The marks that are left are not on nodes of the result. -/
theorem fromExpressionTree_good {e : Expr} (hau : E.auto = false) (g : Good E ext s) (he : e.OK E.c) :
    Ok (fromExpressionTree E.c e) s (fun r s' => ResM E ext s (fun x => e.val x) r s' ∧
      TidyBelow (fun _ => False) r s') := by
  unfold fromExpressionTree
  refine Ok.bind (exprImpl_good e s g he) ?_
  rintro p s1 ⟨st, d, tb⟩
  refine Ok.bindEq (runDeferred_ok (st.good.defer hau) _) ?_
  refine (mkDiagram_good st.good st.prot).mono ?_
  rintro r s2 ⟨rfl, hh, hm, hk⟩
  have k := st.keeps.toX.trans hh.keeps
  refine ⟨⟨hh.good, k.toH, hh.keeps.den st.prot d⟩, ?_⟩
  intro t ht hmt
  rw [hk] at ht
  rw [hm, upd_apply] at hmt
  split at hmt
  · cases hmt
  · rename_i hne
    exact hne (tb t ht hmt)

end

end Teddy
