import Verif.Proofs.Dpld
import Verif.Proofs.Folds
import Verif.Proofs.OpsLemmas

/-! Minimal cut and path vectors. -/

namespace Teddy

open SM Spec

section
variable {c : Cfg}

theorem PairsOK.of_closed {op : BinOp} {A : Int → Prop} (hop : OpOK c op A A) :
    ∀ {fs : List (Asg → Int)}, (∀ g ∈ fs, ∀ x, InDomain c.n c.dom x → A (g x)) → PairsOK c op fs
  | [], _ => trivial
  | [_], _ => trivial
  | f :: g :: l, h => by
      refine ⟨hop.mono ?_ ?_, PairsOK.of_closed hop fun k hk => h k (by simp [hk])⟩
      · rintro v ⟨x, hx, rfl⟩; exact h f (by simp) x hx
      · rintro v ⟨x, hx, rfl⟩; exact h g (by simp) x hx

theorem pairUp_closed {op : BinOp} {A : Int → Prop} (hcl : ∀ a b, A a → A b → A (op.val a b)) :
    ∀ {fs : List (Asg → Int)}, (∀ g ∈ fs, ∀ x, InDomain c.n c.dom x → A (g x)) →
      ∀ g ∈ pairUp op.lift fs, ∀ x, InDomain c.n c.dom x → A (g x)
  | [], _ => fun g hg => by simp [pairUp] at hg
  | [f], h => fun g hg => by
      simp only [pairUp] at hg
      exact h g hg
  | f :: g :: l, h => by
      intro k hk x hx
      simp only [pairUp, List.mem_cons] at hk
      rcases hk with rfl | hk
      · exact hcl _ _ (h f (by simp) x hx) (h g (by simp) x hx)
      · exact pairUp_closed hcl (fun k hk => h k (by simp [hk])) k hk x hx

theorem TreeOK.of_closed {op : BinOp} {A : Int → Prop} (hop : OpOK c op A A)
    (hcl : ∀ a b, A a → A b → A (op.val a b)) : ∀ (k : Nat) {fs : List (Asg → Int)},
    (∀ g ∈ fs, ∀ x, InDomain c.n c.dom x → A (g x)) → TreeOK c op k fs
  | 0, _, _ => trivial
  | k + 1, _, h => ⟨PairsOK.of_closed hop h, TreeOK.of_closed hop hcl k (pairUp_closed hcl h)⟩

end


/-! ### Conjunction of extended derivatives -/

theorem piConj_closed (a b : Int) (ha : a = 0 ∨ a = 1 ∨ a = Undefined)
    (hb : b = 0 ∨ b = 1 ∨ b = Undefined) :
    Op.PI_CONJ.val a b = 0 ∨ Op.PI_CONJ.val a b = 1 ∨ Op.PI_CONJ.val a b = Undefined := by
  rcases ha with rfl | rfl | rfl <;> rcases hb with rfl | rfl | rfl <;> decide

theorem piConj_assoc (a b d : Int) (ha : a = 0 ∨ a = 1 ∨ a = Undefined)
    (hb : b = 0 ∨ b = 1 ∨ b = Undefined) (hd : d = 0 ∨ d = 1 ∨ d = Undefined) :
    Op.PI_CONJ.val (Op.PI_CONJ.val a b) d = Op.PI_CONJ.val a (Op.PI_CONJ.val b d) := by
  rcases ha with rfl | rfl | rfl <;> rcases hb with rfl | rfl | rfl <;>
    rcases hd with rfl | rfl | rfl <;> decide

/-- `PI_CONJ` is one iff some operand is defined and all defined operands are one. -/
theorem piConj_one (a b : Int) (ha : a = 0 ∨ a = 1 ∨ a = Undefined)
    (hb : b = 0 ∨ b = 1 ∨ b = Undefined) :
    (Op.PI_CONJ.val a b = 1 ↔ (a ≠ 0 ∧ b ≠ 0) ∧ (a = 1 ∨ b = 1)) ∧
    (Op.PI_CONJ.val a b = 0 ↔ a = 0 ∨ b = 0) := by
  rcases ha with rfl | rfl | rfl <;> rcases hb with rfl | rfl | rfl <;> decide

theorem piConj_foldl (l : List Int) (a : Int) (ha : a = 0 ∨ a = 1 ∨ a = Undefined)
    (hl : ∀ b ∈ l, b = 0 ∨ b = 1 ∨ b = Undefined) :
    (l.foldl Op.PI_CONJ.val a = 1 ↔ (∀ b ∈ a :: l, b ≠ 0) ∧ ∃ b ∈ a :: l, b = 1) := by
  induction l generalizing a with
  | nil => simp; omega
  | cons b l ih =>
      have hb := hl b (by simp)
      simp only [List.foldl_cons]
      rw [ih _ (piConj_closed a b ha hb) (fun d hd => hl d (by simp [hd]))]
      obtain ⟨h1, h2⟩ := piConj_one a b ha hb
      simp only [List.mem_cons, forall_eq_or_imp, exists_eq_or_imp, ne_eq]
      rw [h2, h1]
      have hU : (Undefined : Int) ≠ 0 ∧ (Undefined : Int) ≠ 1 := by decide
      constructor
      · rintro ⟨⟨h3, h4⟩, h5⟩
        push Not at h3
        refine ⟨⟨h3.1, h3.2, h4⟩, ?_⟩
        rcases h5 with ⟨_, h5 | h5⟩ | h5
        · exact Or.inl h5
        · exact Or.inr (Or.inl h5)
        · exact Or.inr (Or.inr h5)
      · rintro ⟨⟨h3, h4, h5⟩, h6⟩
        refine ⟨⟨by push Not; exact ⟨h3, h4⟩, h5⟩, ?_⟩
        rcases h6 with h6 | h6 | h6
        · exact Or.inl ⟨⟨h3, h4⟩, Or.inl h6⟩
        · exact Or.inl ⟨⟨h3, h4⟩, Or.inr h6⟩
        · exact Or.inr h6

section
variable {E : Env} {ext : Ptr → Nat} {s : Mgr}

/-- The function of one extended derivative. -/
def dpldeFun (f : Asg → Int) (ch : Int → Int → Bool) (vc : VarChange) (x : Asg) : Int :=
  if x vc.index = vc.from then b2i (ch (f (upd x vc.index vc.from)) (f (upd x vc.index vc.to)))
  else Undefined

theorem dpldes_good {root : Ptr} (hau : E.auto = false) (hr : 0 < ext root) {f : Asg → Int} {ch : Int → Int → Bool}
    (h0 : TermOK E.c 0) (h1 : TermOK E.c 1) (hU : TermOK E.c Undefined) :
    ∀ (vcs : List VarChange) (s : Mgr) (pre : List (Option Ptr)) (gs : List (Asg → Int)),
      (∀ vc ∈ vcs, vc.index < E.c.n ∧ vc.from < E.c.dom vc.index ∧ vc.to < E.c.dom vc.index) →
      Good E (extL ext pre) s → Den E.c s root f → pre.length = gs.length →
      (∀ j g, gs[j]? = some g → HoldsAt E.c s pre j g) →
      Ok (dpldes E.c ch root vcs) s (fun xs s' => Good E (extL ext (pre ++ xs)) s' ∧
        (pre ++ xs).length = (gs ++ vcs.map (dpldeFun f ch)).length ∧ KeepsH ext s s' ∧
        (∀ p, s'.mark p = true → s.mark p = true) ∧
        ∀ j g, (gs ++ vcs.map (dpldeFun f ch))[j]? = some g → HoldsAt E.c s' (pre ++ xs) j g) := by
  intro vcs
  induction vcs with
  | nil =>
      intro s pre gs _ g _ hl hh
      refine Ok.pure ⟨by simpa using g, by simpa using hl, KeepsH.refl _ _, fun _ h => h, ?_⟩
      simpa using hh
  | cons vc vcs ih =>
      intro s pre gs hvc g hd hl hh
      obtain ⟨hi, hfr, hto⟩ := hvc vc (by simp)
      have hrp : 0 < extL ext pre root := by unfold extL; omega
      have hstep : Ok (do
          let d ← dpld E.c vc ch root
          let e ← toDpldE E.c vc.from vc.index d
          dropHandle d
          pure (some e)) s (fun o s' => ∃ e, o = some e ∧
            Good E (extL ext (pre ++ [some e])) s' ∧ KeepsH (extL ext pre) s s' ∧
            (∀ p, s'.mark p = true → s.mark p = true) ∧ Den E.c s' e (dpldeFun f ch vc)) := by
        refine Ok.bind (dpld_good hau g (handle_prot hrp) hd (vc := vc) (ch := ch) (fun _ => hfr)
          (fun _ => hto) h0 h1) ?_
        rintro d s1 ⟨nd, av⟩
        have g1 := nd.handle.good
        have hdp : 0 < addExt (extL ext pre) d d := by simp [addExt, upd_same]
        refine Ok.bind (toDpldE_good (varFrom := vc.from) hau g1 hU hi (handle_prot hdp) nd.den av) ?_
        · rintro e s2 ne
          have g2 := ne.handle.good
          have hdp2 : 0 < addExt (addExt (extL ext pre) d) e d := by
            simp only [addExt, upd_apply]
            split <;> simp
          refine Ok.bind (dropHandle_good g2 hdp2) ?_
          rintro _ s3 ⟨g3, hm3, hk3, hi3, hl3, _⟩
          refine Ok.pure ⟨e, rfl, g3.ext_eq ?_, ?_, ?_, ?_⟩
          · intro r
            simp only [extL, addExt, subExt, upd_apply, List.count_append, List.count_cons,
              List.count_nil]
            by_cases e1 : r = e <;> by_cases e2 : r = d
            · subst e1; subst e2; simp; omega
            · subst e1; simp [e2]; omega
            · subst e2; simp [e1, Ne.symm e1]
            · simp [e1, e2, Ne.symm e1]
          · refine (nd.handle.keeps.toH.trans (ne.handle.keeps.toH.mono ?_)).trans
              (KeepsH.of_kind hk3 hi3 hl3)
            intro p hp
            simp only [addExt, upd_apply]
            split
            · omega
            · exact hp
          · intro p hp
            rw [hm3] at hp
            exact nd.mark p (ne.mark p hp)
          · intro x hx
            rw [hk3]
            exact ne.den x hx
      simp only [dpldes, mapL]
      refine Ok.bind hstep ?_
      rintro _ s1 ⟨e, rfl, g1, k1, m1, d1⟩
      refine Ok.bind (ih s1 (pre ++ [some e]) (gs ++ [dpldeFun f ch vc])
        (fun v hv => hvc v (by simp [hv])) g1 (k1.den hrp hd) (by simp [hl]) ?_) ?_
      · intro j g' hj
        by_cases h : j < gs.length
        · rw [List.getElem?_append_left h] at hj
          obtain ⟨p, h2, h3⟩ := (hh j g' hj).keeps k1
          exact ⟨p, by rw [List.getElem?_append_left (by omega)]; exact h2, h3⟩
        · have h' : j = gs.length := by
            have := List.getElem?_eq_some_iff.1 hj
            obtain ⟨hlt, _⟩ := this
            simp at hlt
            omega
          subst h'
          rw [List.getElem?_append_right (Nat.le_refl _)] at hj
          simp only [Nat.sub_self, List.getElem?_cons_zero, Option.some.injEq] at hj
          subst hj
          exact ⟨e, by rw [← hl, List.getElem?_append_right (Nat.le_refl _)]; simp, d1⟩
      · rintro xs s2 ⟨g2, l2, k2, m2, h2⟩
        refine Ok.pure ⟨by simpa using g2, by simpa using l2, ?_, fun p hp => m1 p (m2 p hp), ?_⟩
        · refine (k1.mono ?_).trans k2
          intro p hp
          unfold extL
          omega
        · simpa using h2

theorem dpldeFun_values (f : Asg → Int) (ch : Int → Int → Bool) (vc : VarChange) (x : Asg) :
    dpldeFun f ch vc x = 0 ∨ dpldeFun f ch vc x = 1 ∨ dpldeFun f ch vc x = Undefined := by
  unfold dpldeFun b2i
  split
  · split <;> simp
  · simp

/-- `x` is a solution of the conjunction of the extended derivatives. -/
def Critical (f : Asg → Int) (ch : Int → Int → Bool) (vcs : List VarChange) (x : Asg) : Prop :=
  (∀ vc ∈ vcs, x vc.index = vc.from → ch (f x) (f (upd x vc.index vc.to)) = true) ∧
    ∃ vc ∈ vcs, x vc.index = vc.from

theorem upd_self (x : Asg) (i : Nat) {v : Nat} (h : x i = v) : upd x i v = x := by
  funext j
  simp only [upd_apply]
  split
  · subst_vars; rfl
  · rfl

theorem critical_iff {f : Asg → Int} {ch : Int → Int → Bool} {vcs : List VarChange}
    (hne : vcs ≠ []) (x : Asg) :
    treeFun Op.PI_CONJ (vcs.map (dpldeFun f ch)) x = 1 ↔ Critical f ch vcs x := by
  obtain ⟨v, vs, rfl⟩ : ∃ v vs, vcs = v :: vs := by
    cases vcs with
    | nil => exact absurd rfl hne
    | cons v vs => exact ⟨v, vs, rfl⟩
  have hv : ∀ vc : VarChange, (dpldeFun f ch vc x ≠ 0 ↔
      (x vc.index = vc.from → ch (f x) (f (upd x vc.index vc.to)) = true)) := by
    intro vc
    have hU : (Undefined : Int) ≠ 0 ∧ (Undefined : Int) ≠ 1 := by decide
    unfold dpldeFun
    by_cases h : x vc.index = vc.from
    · rw [if_pos h, upd_self x _ h]
      unfold b2i
      cases ch (f x) (f (upd x vc.index vc.to)) <;> simp [h]
    · rw [if_neg h]
      simp [h, hU]
  have h1 : ∀ vc : VarChange, (dpldeFun f ch vc x = 1 ↔
      (x vc.index = vc.from ∧ ch (f x) (f (upd x vc.index vc.to)) = true)) := by
    intro vc
    have hU : (Undefined : Int) ≠ 0 ∧ (Undefined : Int) ≠ 1 := by decide
    unfold dpldeFun
    by_cases h : x vc.index = vc.from
    · rw [if_pos h, upd_self x _ h]
      unfold b2i
      cases ch (f x) (f (upd x vc.index vc.to)) <;> simp [h]
    · rw [if_neg h]
      simp [h, hU]
  rw [List.map_cons, treeFun_eq (A := fun a => a = 0 ∨ a = 1 ∨ a = Undefined)
    (fun a b => piConj_closed a b) (fun a b d => piConj_assoc a b d) ?_,
    piConj_foldl _ _ (dpldeFun_values f ch v x) ?_]
  · have e : dpldeFun f ch v x :: ((vs.map (dpldeFun f ch)).map fun g => g x) =
        (v :: vs).map (fun vc => dpldeFun f ch vc x) := by simp
    rw [e]
    simp only [List.mem_map, forall_exists_index, and_imp, forall_apply_eq_imp_iff₂,
      exists_exists_and_eq_and]
    unfold Critical
    constructor
    · rintro ⟨h2, w, hw, h3⟩
      exact ⟨fun vc hvc => (hv vc).1 (h2 vc hvc), w, hw, ((h1 w).1 h3).1⟩
    · rintro ⟨h2, w, hw, h3⟩
      exact ⟨fun vc hvc => (hv vc).2 (h2 vc hvc), w, hw, (h1 w).2 ⟨h3, h2 w hw h3⟩⟩
  · intro b hb
    simp only [List.map_map, List.mem_map] at hb
    obtain ⟨vc, _, rfl⟩ := hb
    exact dpldeFun_values f ch vc x
  · intro g hg
    rw [← List.map_cons] at hg
    obtain ⟨vc, _, rfl⟩ := List.mem_map.1 hg
    exact dpldeFun_values f ch vc x

open Classical in
theorem vectorsG_good {root : Ptr} (hau : E.auto = false) (g : Good E ext s) (hr : 0 < ext root) {f : Asg → Int}
    (hd : Den E.c s root f) {ch : Int → Int → Bool} {vcs : List VarChange} (hne : vcs ≠ [])
    (hvc : ∀ vc ∈ vcs, vc.index < E.c.n ∧ vc.from < E.c.dom vc.index ∧ vc.to < E.c.dom vc.index)
    (hca : E.cache = true) (hΓ : E.Γ 4 = Op.PI_CONJ)
    (h1 : TermOK E.c 1) (hU : TermOK E.c Undefined) :
    Ok (vectorsG E.c ch root vcs) s (fun r s' => Good E ext s' ∧ KeepsH ext s s' ∧
      (∀ p, s'.mark p = true → s.mark p = true) ∧
      r = ((assignments E.c.dom (levelVars E.c s)).filter
        fun x => decide (Critical f ch vcs x)).map (toList E.c.n)) := by
  have h0 : TermOK E.c 0 := h1.of_le (by omega) (by omega)
  unfold vectorsG
  refine Ok.bind (dpldes_good hau hr h0 h1 hU vcs s [] [] hvc (g.ext_eq (fun _ => by simp [extL]))
    hd rfl (fun j g' hj => by simp at hj)) ?_
  rintro xs s1 ⟨g1, l1, k1, m1, hh1⟩
  simp only [List.nil_append] at g1 l1 hh1
  have hop : opType E.c Op.PI_CONJ = Op.PI_CONJ := by
    unfold opType
    cases E.c.fixedDom <;> simp [Op.PI_CONJ, Op.MAX]
  have htree : TreeOK E.c (opType E.c Op.PI_CONJ)
      (ceilLog2 (vcs.map (dpldeFun f ch)).length) (vcs.map (dpldeFun f ch)) := by
    rw [hop]
    refine TreeOK.of_closed (A := fun a => a = 0 ∨ a = 1 ∨ a = Undefined) ?_ ?_ _ ?_
    · exact opOK_PI_CONJ h1 hU (fun _ h => h) (fun _ h => h)
    · exact fun a b => piConj_closed a b
    · intro g' hg' x _
      obtain ⟨vc, _, rfl⟩ := List.mem_map.1 hg'
      exact dpldeFun_values f ch vc x
  refine Ok.bind (treeFold_good hau hca (by rw [hop]; exact hΓ) (by simpa using hne) l1 htree g1 hh1) ?_
  rintro ⟨r, rest⟩ s2 ⟨_, g2, k2, d2, m2⟩
  rw [hop] at d2
  have hrp : 0 < addExt (extL ext rest) r r := by simp [addExt, upd_same]
  refine Ok.bind (satisfyAll_ok g2.inv g2.ord g2.cfg (g2.inv.extUsed r hrp) d2 (v := 1) ?_) ?_
  · exact fun m hm ha => h1.2 ha m hm
  rintro l s2' ⟨rfl, rfl⟩
  refine Ok.bind (dropHandle_good g2 hrp) ?_
  rintro _ s3 ⟨g3, hm3, hk3, hi3, hl3, _⟩
  have g3' : Good E (extL ext rest) s3 := g3.ext_eq (fun p => by
    simp only [subExt, addExt, upd_apply]
    by_cases e : p = r
    · subst e; simp
    · simp [e])
  refine Ok.bind (dropAll_good rest s3 g3') ?_
  rintro _ s4 ⟨g4, hm4, hk4, hi4, hl4⟩
  have kk : KeepsH ext s s4 := ((k1.trans k2).trans (KeepsH.of_kind hk3 hi3 hl3)).trans
    (KeepsH.of_kind hk4 hi4 hl4)
  refine Ok.pure ⟨g4, kk, ?_, ?_⟩
  · intro p hp
    rw [hm4, hm3] at hp
    exact m1 p (m2 p hp)
  · have e1 : levelVars E.c s2' = levelVars E.c s := by
      unfold levelVars
      rw [(k1.trans k2).l2i]
    rw [e1]
    congr 1
    apply List.filter_congr
    intro x _
    have := critical_iff (f := f) (ch := ch) hne x
    simp [this]

end

end Teddy
