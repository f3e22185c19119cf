import Verif.Proofs.Count

/-! `get_node_count(d)`, `get_dependency_set`, `satisfy_one`, `satisfy_all`. -/

namespace Teddy

open SM Spec

section
variable {E : Env} {c : Cfg} {ext : Ptr → Nat} {tmp : List Ptr} {S : Mgr} {root : Ptr}

theorem nodeCountOf_ok (h : Inv c ext tmp S) (ho : Ordered c S) (hp : S.used root = true)
    (hcl : CleanBelow S root) :
    Ok (nodeCountOf c root) S (fun r s' => s' = S ∧ ∃ vs : List Ptr, vs.Nodup ∧
      (∀ q, q ∈ vs ↔ Reach S.kind root q) ∧ r = vs.length) := by
  unfold nodeCountOf
  refine (traversePre_ok (I := fun vs (n : Nat) d => d = S.data ∧ n = vs.length)
    (Below.of h ho hp) hcl ⟨rfl, rfl⟩ ?_).mono ?_
  · rintro vs p t s hT ⟨hd, rfl⟩ _ _
    exact Ok.pure ⟨hT, hd, by simp⟩
  · rintro r s' ⟨vs, h1, h2, h3, h4, h5⟩
    rw [h4] at h3
    exact ⟨h3, vs, h1, h2, h5⟩

/-- Variable `i` is tested somewhere below `root`. -/
def Tested (S : Mgr) (root : Ptr) (i : Nat) : Prop :=
  ∃ p ss, Reach S.kind root p ∧ S.kind p = .inner i ss

theorem dependencySet_ok (h : Inv c ext tmp S) (ho : Ordered c S) (hp : S.used root = true)
    (hcl : CleanBelow S root) :
    Ok (dependencySet c root) S (fun r s' => s' = S ∧ r.Nodup ∧ ∀ i, i ∈ r ↔ Tested S root i) := by
  unfold dependencySet
  refine Ok.bind (traversePre_ok (I := fun vs (t : (Nat → Bool) × List Nat) d => d = S.data ∧
    t.2.Nodup ∧ (∀ i, t.1 i = true ↔ i ∈ t.2) ∧
    (∀ i, i ∈ t.2 ↔ ∃ p ∈ vs, ∃ ss, S.kind p = .inner i ss))
    (Below.of h ho hp) hcl ⟨rfl, by simp, by simp, by simp⟩ ?_) ?_
  · rintro vs p ⟨memo, out⟩ s hT ⟨hd, h1, h2, h3⟩ hr _
    have hu : s.used p = true := by rw [hT.used]; exact hr.used h hp
    unfold dependencyVisit
    refine Ok.bindEq (getKind_ok hu) ?_
    rw [hT.kind]
    dsimp only at h1 h2 h3
    cases hk : S.kind p with
    | leaf v =>
        refine Ok.pure ⟨hT, hd, h1, h2, ?_⟩
        intro i
        rw [h3 i]
        constructor
        · rintro ⟨q, hq, ss, hs⟩
          exact ⟨q, by simp [hq], ss, hs⟩
        · rintro ⟨q, hq, ss, hs⟩
          rcases List.mem_append.1 hq with hq | hq
          · exact ⟨q, hq, ss, hs⟩
          · simp at hq
            subst hq
            rw [hk] at hs; cases hs
    | inner j ss =>
        dsimp only
        have hmem : ∀ i, (∃ q ∈ vs ++ [p], ∃ ss, S.kind q = .inner i ss) ↔ i ∈ out ∨ i = j := by
          intro i
          rw [h3 i]
          constructor
          · rintro ⟨q, hq, ts, hs⟩
            rcases List.mem_append.1 hq with hq | hq
            · exact Or.inl ⟨q, hq, ts, hs⟩
            · simp at hq
              subst hq
              rw [hk] at hs; cases hs
              exact Or.inr rfl
          · rintro (⟨q, hq, ts, hs⟩ | rfl)
            · exact ⟨q, by simp [hq], ts, hs⟩
            · exact ⟨p, by simp, ss, hk⟩
        by_cases hj : memo j = true
        · simp only [hj, if_true]
          have hjo := (h2 j).1 hj
          refine Ok.pure ⟨hT, hd, h1, ?_, ?_⟩
          · intro i
            simp only [upd_apply]
            split
            · rename_i e; subst e; simpa using hjo
            · exact h2 i
          · intro i
            rw [hmem i]
            constructor
            · exact Or.inl
            · rintro (h | rfl)
              · exact h
              · exact hjo
        · have hj' : memo j = false := by simpa using hj
          simp only [hj', Bool.false_eq_true, if_false]
          have hjo : j ∉ out := fun h => hj ((h2 j).2 h)
          refine Ok.pure ⟨hT, hd, ?_, ?_, ?_⟩
          · rw [List.nodup_append]
            refine ⟨h1, by simp, ?_⟩
            intro a ha b hb
            simp at hb
            subst hb
            exact fun e => hjo (e ▸ ha)
          · intro i
            simp only [upd_apply, List.mem_append, List.mem_singleton]
            split
            · rename_i e; simp [e]
            · rename_i e; simp [e, h2 i]
          · intro i
            rw [hmem i]
            simp
  · rintro ⟨memo, out⟩ s' ⟨vs, h1, h2, h3, h4, h5, h6, h7⟩
    rw [h4] at h3
    refine Ok.pure ⟨h3, h5, ?_⟩
    intro i
    rw [h7 i]
    constructor
    · rintro ⟨p, hpv, ss, hs⟩
      exact ⟨p, ss, (h2 p).1 hpv, hs⟩
    · rintro ⟨p, ss, hr, hs⟩
      exact ⟨p, (h2 p).2 hr, ss, hs⟩

theorem Reach.level_le (h : Inv c ext tmp S) (ho : Ordered c S) {a b : Ptr}
    (hab : Reach S.kind a b) (ha : S.used a = true) : S.levelOf c a ≤ S.levelOf c b := by
  induction hab with
  | refl => exact Nat.le_refl _
  | step hk hq _ ih =>
      have := ho _ _ _ _ ha hk hq
      have := ih ((h.sons _ _ _ ha hk).2.2 _ hq)
      omega

/-- Values that lead from `r` to `p`. -/
theorem path_to (h : Inv c ext tmp S) (ho : Ordered c S) (hc : CfgOK c) {r p : Ptr}
    (hr : Reach S.kind r p) (hu : S.used r = true) :
    ∃ y, Valid c y ∧ ∀ z v, (∀ j, j < c.n → S.levelOf c r ≤ S.idx2lvl j → S.idx2lvl j < S.levelOf c p →
      z j = y j) → (Ev S.kind z p v ↔ Ev S.kind z r v) := by
  induction hr with
  | refl => exact ⟨fun _ => 0, fun i hi => hc.dom_pos i hi, fun _ _ _ => Iff.rfl⟩
  | @step r q p i ss hk hq hqp ih =>
      obtain ⟨hi, hlen, hus⟩ := h.sons _ _ _ hu hk
      obtain ⟨y, hy, hz⟩ := ih (hus _ hq)
      obtain ⟨k, hget⟩ := List.mem_iff_getElem?.1 hq
      have hkl : k < ss.length := by
        by_contra hcon
        rw [List.getElem?_eq_none (by omega)] at hget; cases hget
      have hlr : S.levelOf c r = S.idx2lvl i := by simp [Mgr.levelOf, hk]
      have hlt := ho _ _ _ _ hu hk hq
      have hle := hqp.level_le h ho (hus _ hq)
      refine ⟨upd y i k, valid_upd hy (fun _ => by omega), ?_⟩
      intro z v hagree
      have hzi : z i = k := by
        rw [hagree i hi (by omega) (by omega), upd_same]
      have h1 := hz z v (by
        intro j hj h1 h2
        have hne : j ≠ i := by rintro rfl; omega
        rw [hagree j hj (by omega) h2, upd_other _ _ hne])
      rw [h1]
      constructor
      · intro hv
        exact .inner hk (by rw [hzi]; exact hget) hv
      · intro hv
        cases hv with
        | leaf hk' => rw [hk] at hk'; cases hk'
        | inner hk' hq' hv =>
            rw [hk] at hk'; cases hk'
            rw [hzi, hget] at hq'; cases hq'
            exact hv

/-- Every variable the function depends on is tested. -/
theorem depends_tested {f : Asg → Int} (hd : Den c S root f) {i : Nat}
    (hdep : DependsOn c.n c.dom f i) : Tested S root i := by
  obtain ⟨x, k, hx, hkd, hne⟩ := hdep
  by_contra hnt
  have : ∀ q v, Reach S.kind root q → Ev S.kind x q v → Ev S.kind (upd x i k) q v := by
    intro q v hr he
    induction he with
    | leaf hk => exact .leaf hk
    | @inner q r j ss v hk hq _ ih =>
        have hji : j ≠ i := by
          rintro rfl
          exact hnt ⟨q, ss, hr, hk⟩
        refine .inner hk (q := r) ?_ (ih (hr.snoc hk (List.mem_of_getElem? hq)))
        rw [upd_other _ _ hji]
        exact hq
  have h1 := this root _ .refl (hd x hx)
  exact hne ((hd _ (valid_upd hx (fun _ => hkd))).det h1)

/-- In a canonical manager the tested variables are exactly the essential ones. -/
theorem tested_iff (h : Inv c ext [] S) (ho : Ordered c S) (hc : CfgOK c) (hcan : Canon S)
    (hp : S.used root = true) {f : Asg → Int} (hd : Den c S root f) {i : Nat} (hi : i < c.n) :
    Tested S root i ↔ DependsOn c.n c.dom f i := by
  constructor
  · rintro ⟨p, ss, hr, hk⟩
    have hup := hr.used h hp
    obtain ⟨_, hlen, hus⟩ := h.sons p i ss hup hk
    have hnr := hcan.nonred p i ss hup hk
    -- two different sons
    obtain ⟨a, b, ka, kb, ha, hb, hab⟩ : ∃ (a b : Ptr) (ka kb : Nat), ss[ka]? = some a ∧ ss[kb]? = some b ∧ a ≠ b := by
      match ss, hnr with
      | [], hnr => simp [isRedundant] at hnr
      | a :: l, hnr =>
          have : ¬ ∀ b ∈ l, b = a := by
            intro hall
            rw [(isRedundant_iff (a := a) (l := l)).2 hall] at hnr
            cases hnr
          push Not at this
          obtain ⟨b, hb, hne⟩ := this
          obtain ⟨k, hkb⟩ := List.mem_iff_getElem?.1 hb
          exact ⟨a, b, 0, k + 1, by simp, by simpa using hkb, fun e => hne e.symm⟩
    have hma := List.mem_of_getElem? ha
    have hmb := List.mem_of_getElem? hb
    have hka : ka < c.dom i := by
      by_contra hcon
      rw [List.getElem?_eq_none (by omega)] at ha; cases ha
    have hkb : kb < c.dom i := by
      by_contra hcon
      rw [List.getElem?_eq_none (by omega)] at hb; cases hb
    have hdiff : ¬ SameFun c S a b := fun hs => hab (canonical h ho hcan hc (hus a hma) (hus b hmb) hs)
    unfold SameFun at hdiff
    push Not at hdiff
    obtain ⟨x, v, hx, hva, hvb⟩ := hdiff
    obtain ⟨w, hw⟩ := Ev.total h ho hx b (hus b hmb)
    have hvw : v ≠ w := by rintro rfl; exact hvb hw
    obtain ⟨y, hy, hpath⟩ := path_to h ho hc hr hp
    have hlp : S.levelOf c p = S.idx2lvl i := by simp [Mgr.levelOf, hk]
    -- above `p` follow the path, below use `x`
    let z : Asg := fun j => if S.idx2lvl j < S.levelOf c p then y j else x j
    have hz : Valid c z := by
      intro j hj
      simp only [z]
      split
      · exact hy j hj
      · exact hx j hj
    have hval : ∀ k q u, ss[k]? = some q → k < c.dom i → Ev S.kind x q u → f (upd z i k) = u := by
      intro k q u hq hkd hu
      have hmq := List.mem_of_getElem? hq
      have hlq := ho p i ss q hup hk hmq
      have h1 : Ev S.kind (upd z i k) q u := by
        refine hu.agree h ho (hus q hmq) ?_
        intro j hj
        have hne : j ≠ i := by rintro rfl; omega
        rw [upd_other _ _ hne]
        simp only [z]
        rw [if_neg (by omega)]
      have h2 : Ev S.kind (upd z i k) p u := .inner hk (by rw [upd_same]; exact hq) h1
      have h3 : Ev S.kind (upd z i k) root u := by
        refine (hpath _ u ?_).1 h2
        intro j _ _ hj
        have hne : j ≠ i := by rintro rfl; omega
        rw [upd_other _ _ hne]
        simp only [z]
        rw [if_pos hj]
      exact (hd _ (valid_upd hz (fun _ => hkd))).det h3
    refine ⟨upd z i ka, kb, valid_upd hz (fun _ => hka), hkb, ?_⟩
    rw [upd_upd, hval kb b w hb hkb hw, hval ka a v ha hka hva]
    exact fun e => hvw e.symm
  · exact depends_tested hd

/-! ### satisfy_one -/

theorem satOneImpl_any (h : Inv c ext tmp S) (ho : Ordered c S) {value : Int} :
    ∀ (f : Nat) (p : Ptr) (x : Asg), S.used p = true → c.n - S.levelOf c p < f →
      ∃ b y, satOneImpl value f p x S = .ok ((b, y), S) ∧ (∀ j, y j = x j ∨ y j < c.dom j) ∧
        (∀ j, S.idx2lvl j < S.levelOf c p → y j = x j) ∧
        (b = true → Ev S.kind y p value) ∧
        (b = false → ∀ z, Valid c z → ¬ Ev S.kind z p value) := by
  intro f
  induction f with
  | zero => intro p x _ hf; omega
  | succ f ih =>
      intro p x hp hf
      simp only [satOneImpl]
      rw [bind_ok (getKind_ok hp)]
      cases hk : S.kind p with
      | leaf v =>
          refine ⟨v == value, x, rfl, fun _ => .inl rfl, fun _ _ => rfl, ?_, ?_⟩
          · intro hb
            rw [← (beq_iff_eq.1 hb)]
            exact .leaf hk
          · intro hb z _ hev
            have : v ≠ value := by simpa using hb
            exact this ((Ev.leaf hk).det hev)
      | inner i ss =>
          dsimp only
          obtain ⟨hi, hlen, hus⟩ := h.sons p i ss hp hk
          have hlp : S.levelOf c p = S.idx2lvl i := by simp [Mgr.levelOf, hk]
          -- the loop over the sons
          have loop : ∀ (qs : List Ptr) (k : Nat) (x : Asg), ss.drop k = qs →
              ∃ b y, firstSon (satOneImpl value f) i k qs x S = .ok ((b, y), S) ∧
                (∀ j, y j = x j ∨ y j < c.dom j) ∧
                (∀ j, S.idx2lvl j < S.levelOf c p → y j = x j) ∧
                (b = true → Ev S.kind y p value) ∧
                (b = false → ∀ z, Valid c z → k ≤ z i → ¬ Ev S.kind z p value) := by
            intro qs
            induction qs with
            | nil =>
                intro k x hdrop
                refine ⟨false, x, rfl, fun _ => .inl rfl, fun _ _ => rfl, by simp, ?_⟩
                intro _ z hz hkz
                have := List.drop_eq_nil_iff.1 hdrop
                have := hz i hi
                omega
            | cons q qs ihq =>
                intro k x hdrop
                have hkl : k < ss.length := by
                  by_contra hcon
                  rw [List.drop_eq_nil_iff.2 (by omega)] at hdrop; cases hdrop
                rw [List.drop_eq_getElem_cons hkl] at hdrop
                obtain ⟨hqe, hrest⟩ := List.cons.inj hdrop
                have hget : ss[k]? = some q := by rw [List.getElem?_eq_getElem hkl, hqe]
                have hmem := List.mem_of_getElem? hget
                have hlq := ho p i ss q hp hk hmem
                have hle := levelOf_le h (hus q hmem)
                obtain ⟨b, y, hrun, hy, hag, ht, hf'⟩ := ih q (upd x i k) (hus q hmem)
                  (by omega)
                have hyx : ∀ j, y j = x j ∨ y j < c.dom j := by
                  intro j
                  by_cases hj : j = i
                  · subst hj
                    rcases hy j with e | e
                    · rw [e, upd_same]; exact .inr (by omega)
                    · exact .inr e
                  · have := hy j
                    rwa [upd_other _ _ hj] at this
                have hyi : y i = k := by rw [hag i (by omega), upd_same]
                have hagx : ∀ j, S.idx2lvl j < S.levelOf c p → y j = x j := by
                  intro j hj
                  have hne : j ≠ i := by rintro rfl; omega
                  rw [hag j (by omega), upd_other _ _ hne]
                simp only [firstSon]
                rw [bind_ok hrun]
                cases b with
                | true =>
                    refine ⟨true, y, rfl, hyx, hagx, ?_, by simp⟩
                    intro _
                    exact .inner hk (by rw [hyi]; exact hget) (ht rfl)
                | false =>
                    dsimp only
                    rw [if_neg (by simp)]
                    obtain ⟨b', y', hrun', hy', hag', ht', hf''⟩ := ihq (k + 1) y hrest
                    refine ⟨b', y', hrun', fun j => (hy' j).elim (fun e => e ▸ hyx j) .inr, fun j hj => (hag' j hj).trans (hagx j hj), ht', ?_⟩
                    intro hb z hz hkz hev
                    rcases Nat.lt_or_eq_of_le hkz with hlt | heq
                    · exact hf'' hb z hz hlt hev
                    · cases hev with
                      | leaf hk' => rw [hk] at hk'; cases hk'
                      | inner hk' hq' hv =>
                          rw [hk] at hk'; cases hk'
                          rw [← heq, hget] at hq'; cases hq'
                          exact hf' rfl z hz hv
          obtain ⟨b, y, h1, h2, h3, h4, h5⟩ := loop ss 0 x (by simp)
          exact ⟨b, y, h1, h2, h3, h4, fun hb z hz => h5 hb z hz (Nat.zero_le _)⟩

theorem satOneImpl_ok (h : Inv c ext tmp S) (ho : Ordered c S) {value : Int} (f : Nat) (p : Ptr) (x : Asg)
    (hp : S.used p = true) (hx : Valid c x) (hf : c.n - S.levelOf c p < f) :
    ∃ b y, satOneImpl value f p x S = .ok ((b, y), S) ∧ Valid c y ∧
      (∀ j, S.idx2lvl j < S.levelOf c p → y j = x j) ∧
      (b = true → Ev S.kind y p value) ∧
      (b = false → ∀ z, Valid c z → ¬ Ev S.kind z p value) := by
  obtain ⟨b, y, h1, h2, h3⟩ := satOneImpl_any h ho (value := value) f p x hp hf
  exact ⟨b, y, h1, fun i hi => (h2 i).elim (fun e => e ▸ hx i hi) id, h3⟩

/-- Only the variables tested on the path matter. -/
theorem Ev.cube (h : Inv c ext tmp S) {y : Asg} {p : Ptr} {v : Int} (hp : S.used p = true) (e : Ev S.kind y p v) :
    ∃ T : Nat → Prop, (∀ i, T i → i < c.n ∧ y i < c.dom i) ∧
      ∀ z, (∀ i, T i → z i = y i) → Ev S.kind z p v := by
  induction e with
  | leaf hk => exact ⟨fun _ => False, fun _ hf => hf.elim, fun _ _ => .leaf hk⟩
  | @inner p q i ss v hk hq _ ih =>
      obtain ⟨hi, hlen, hus⟩ := h.sons p i ss hp hk
      obtain ⟨T, h1, h2⟩ := ih (hus q (List.mem_of_getElem? hq))
      refine ⟨fun j => j = i ∨ T j, ?_, fun z hz => .inner hk ?_ (h2 z fun j hj => hz j (.inr hj))⟩
      · rintro j (rfl | hj)
        · exact ⟨hi, hlen ▸ (List.getElem?_eq_some_iff.1 hq).1⟩
        · exact h1 j hj
      · rw [hz i (.inl rfl)]; exact hq

theorem satisfyOne_ok (h : Inv c ext tmp S) (ho : Ordered c S) (hc : CfgOK c)
    (hp : S.used root = true) {f : Asg → Int} (hd : Den c S root f) {v : Int}
    (hv : ∀ m, c.fixedDom = some m → c.asserts = true → v < m) :
    Ok (satisfyOne c v root) S (fun r s' => s' = S ∧
      match r with
      | some l => ∃ x, Valid c x ∧ f x = v ∧ l = toList c.n x
      | none => ∀ x, Valid c x → f x ≠ v) := by
  unfold satisfyOne
  refine Ok.bindEq (assertValue_ok hv) ?_
  obtain ⟨b, y, h1, h2, _, h4, h5⟩ := satOneImpl_ok h ho (value := v) (c.n + 1) root (fun _ => 0) hp
    (fun i hi => hc.dom_pos i hi) (by omega)
  refine Ok.bindEq h1 (Ok.pure ⟨rfl, ?_⟩)
  cases b with
  | true =>
      exact ⟨y, h2, (hd y h2).det (h4 rfl), rfl⟩
  | false =>
      intro x hx hfx
      refine h5 rfl x hx ?_
      rw [← hfx]
      exact hd x hx

theorem satisfyOneInto_ok (h : Inv c ext tmp S) (ho : Ordered c S) (hp : S.used root = true) {f : Asg → Int}
    (hd : Den c S root f) {v : Int} (hv : ∀ m, c.fixedDom = some m → c.asserts = true → v < m) (buf : Asg) :
    Ok (satisfyOneInto c v buf root) S (fun r s' => s' = S ∧
      match r with
      | some l => ∃ y, l = toList c.n y ∧ Ev S.kind y root v ∧ ∀ j, y j = buf j ∨ y j < c.dom j
      | none => ∀ x, Valid c x → f x ≠ v) := by
  unfold satisfyOneInto
  refine Ok.bindEq (assertValue_ok hv) ?_
  obtain ⟨b, y, h1, h2, _, h4, h5⟩ := satOneImpl_any h ho (value := v) (c.n + 1) root buf hp (by omega)
  refine Ok.bindEq h1 (Ok.pure ⟨rfl, ?_⟩)
  cases b with
  | true => exact ⟨y, rfl, h4 rfl, h2⟩
  | false =>
      intro x hx hfx
      refine h5 rfl x hx ?_
      rw [← hfx]
      exact hd x hx

/-! ### satisfy_all -/

theorem foldL_append {α β γ σ : Type} {f : α → β × List γ → SM σ (β × List γ)} (g : α → List γ)
    (J : β → Prop) (s : σ) :
    ∀ (l : List α) (t : β × List γ), J t.1 →
      (∀ a ∈ l, ∀ t : β × List γ, J t.1 → ∃ y, f a t s = .ok ((y, t.2 ++ g a), s) ∧ J y) →
      ∃ y, foldL f l t s = .ok ((y, t.2 ++ l.flatMap g), s) ∧ J y := by
  intro l
  induction l with
  | nil => intro t ht _; exact ⟨t.1, by simp [foldL], ht⟩
  | cons a l ih =>
      intro t ht hf
      obtain ⟨y, h1, h2⟩ := hf a (by simp) t ht
      obtain ⟨z, h3, h4⟩ := ih (y, t.2 ++ g a) h2 (fun b hb => hf b (by simp [hb]))
      refine ⟨z, ?_, h4⟩
      simp only [foldL]
      rw [bind_ok h1, h3]
      simp

/-- `x` above level `l`, `y` from it on. -/
def merge (S : Mgr) (l : Nat) (x y : Asg) : Asg := fun j => if S.idx2lvl j < l then x j else y j

/-- Solutions of `p` over the variables from level `l` on, upper variables as in `x`. -/
noncomputable def sols (c : Cfg) (S : Mgr) (value : Int) (l : Nat) (p : Ptr) (x : Asg) :
    List (List Nat) :=
  ((assignments c.dom (varsFrom c S l)).filter fun y => valOf S y p = value).map
    fun y => toList c.n (merge S l x y)

theorem sols_cons (h : Inv c ext tmp S) (hc : CfgOK c) {value : Int} {l : Nat} {p : Ptr}
    {x : Asg} (hl : l < c.n) {q : Nat → Ptr}
    (hq : ∀ k, k < c.dom (S.lvl2idx l) → ∀ y, Valid c y →
      valOf S (upd y (S.lvl2idx l) k) p = valOf S y (q k)) :
    sols c S value l p x = (List.range (c.dom (S.lvl2idx l))).flatMap fun k =>
      sols c S value (l + 1) (q k) (upd x (S.lvl2idx l) k) := by
  have hn := nodup_varsFrom h.order (l := l)
  unfold sols
  rw [varsFrom_cons hl] at hn ⊢
  obtain ⟨hni, hn⟩ := List.nodup_cons.1 hn
  simp only [assignments]
  rw [List.filter_flatMap, List.map_flatMap]
  refine List.flatMap_congr ?_
  intro k hk
  have hkd := List.mem_range.1 hk
  rw [List.filter_map, List.map_map]
  have e1 : (assignments c.dom (varsFrom c S (l + 1))).filter
      ((fun y => decide (valOf S y p = value)) ∘ fun x => upd x (S.lvl2idx l) k)
      = (assignments c.dom (varsFrom c S (l + 1))).filter
        (fun y => decide (valOf S y (q k) = value)) := by
    refine List.filter_congr ?_
    intro y hy
    obtain ⟨h1, h2⟩ := (mem_assignments hn).1 hy
    simp only [Function.comp]
    rw [hq k hkd y (valid_of_vars hc h1 h2)]
  rw [e1]
  refine List.map_congr_left ?_
  intro y hy
  simp only [Function.comp, toList]
  refine List.map_congr_left ?_
  intro j hj
  have hjn := List.mem_range.1 hj
  have hlj : S.idx2lvl j = l ↔ j = S.lvl2idx l := by
    constructor
    · rintro rfl; exact (h.order.i2l2i j hjn).symm
    · rintro rfl; exact h.order.l2i2l l hl
  simp only [merge, upd_apply]
  by_cases h1 : j = S.lvl2idx l
  · have := hlj.2 h1
    rw [if_neg (by omega), if_pos h1, if_pos (by omega), if_pos h1]
  · have : S.idx2lvl j ≠ l := fun e => h1 (hlj.1 e)
    rw [if_neg h1, if_neg h1]
    by_cases h2 : S.idx2lvl j < l
    · rw [if_pos h2, if_pos (by omega)]
    · rw [if_neg h2, if_neg (by omega)]

theorem satAllImpl_ok (h : Inv c ext tmp S) (ho : Ordered c S) (hc : CfgOK c) {value : Int} :
    ∀ (f : Nat) (p : Ptr) (l : Nat) (x : Asg) (out : List (List Nat)), S.used p = true →
      l ≤ S.levelOf c p → c.n - l < f →
      ∃ y, satAllImpl c value f p l x out S = .ok ((y, out ++ sols c S value l p x), S) ∧
        (∀ j, j < c.n → S.idx2lvl j < l → y j = x j) := by
  intro f
  induction f with
  | zero => intro p l x out _ _ hf; omega
  | succ f ih =>
      intro p l x out hp hl hf
      have hle := levelOf_le h hp
      simp only [satAllImpl]
      rw [bind_ok (getKind_ok hp)]
      -- a level that `p` does not test
      have skip : l < S.levelOf c p →
          ∃ y, (do
            let i ← getIndex c l
            foldL (fun k (t : Asg × List (List Nat)) =>
              satAllImpl c value f p (l + 1) (upd t.1 i k) t.2) (List.range (c.dom i)) (x, out) :
              M (Asg × List (List Nat))) S = .ok ((y, out ++ sols c S value l p x), S) ∧
          (∀ j, j < c.n → S.idx2lvl j < l → y j = x j) := by
        intro hlt
        have hln : l < c.n := by omega
        rw [bind_ok (getIndex_ok hln)]
        have hq : ∀ k, k < c.dom (S.lvl2idx l) → ∀ y, Valid c y →
            valOf S (upd y (S.lvl2idx l) k) p = valOf S y p := by
          intro k _ y hy
          refine valOf_eq ((upd_self_of_indep h ho hp ?_).2 (ev_valOf h ho hy hp))
          rw [h.order.l2i2l l hln]; exact hlt
        rw [sols_cons h hc hln (q := fun _ => p) hq]
        refine foldL_append (J := fun y => ∀ j, j < c.n → S.idx2lvl j < l → y j = x j)
          (g := fun k => sols c S value (l + 1) p (upd x (S.lvl2idx l) k)) S _ (x, out)
          (fun _ _ _ => rfl) ?_
        rintro k _ ⟨t, o⟩ ht
        obtain ⟨y, h1, h2⟩ := ih p (l + 1) (upd t (S.lvl2idx l) k) o hp (by omega) (by omega)
        refine ⟨y, ?_, ?_⟩
        · rw [h1]
          congr 3
          unfold sols
          congr 1
          refine List.map_congr_left ?_
          intro z _
          refine List.map_congr_left ?_
          intro j hj
          have hjn := List.mem_range.1 hj
          simp only [merge]
          by_cases hjl : S.idx2lvl j < l + 1
          · rw [if_pos hjl, if_pos hjl]
            simp only [upd_apply]
            by_cases e : j = S.lvl2idx l
            · rw [if_pos e, if_pos e]
            · rw [if_neg e, if_neg e]
              refine ht j hjn ?_
              have : S.idx2lvl j ≠ l := by
                intro hh
                exact e (by rw [← hh, h.order.i2l2i j hjn])
              omega
          · rw [if_neg hjl, if_neg hjl]
        · intro j hj hjl
          have hne : j ≠ S.lvl2idx l := by
            rintro rfl
            rw [h.order.l2i2l l hln] at hjl
            omega
          rw [h2 j hj (by omega), upd_other _ _ hne]
          exact ht j hj hjl
      cases hk : S.kind p with
      | leaf v =>
          have hlp : S.levelOf c p = c.n := by simp [Mgr.levelOf, hk]
          dsimp only
          by_cases hv : value = v
          · rw [if_neg (by simpa using hv)]
            by_cases hln : l = c.n
            · rw [if_pos hln]
              subst hln
              refine ⟨x, ?_, fun _ _ _ => rfl⟩
              unfold sols
              rw [varsFrom_end]
              have e : valOf S (fun _ => 0) p = value := by rw [hv]; exact valOf_eq (.leaf hk)
              simp only [assignments, List.filter_cons, e, decide_true, if_true, List.filter_nil,
                List.map_cons, List.map_nil]
              have : toList c.n (merge S c.n x (fun _ => 0)) = (List.range c.n).map x := by
                refine List.map_congr_left ?_
                intro j hj
                simp only [merge]
                rw [if_pos (h.order.i2l_lt j (List.mem_range.1 hj))]
              rw [this]
              rfl
            · rw [if_neg hln]
              exact skip (by omega)
          · rw [if_pos (by simpa using hv)]
            refine ⟨x, ?_, fun _ _ _ => rfl⟩
            have : sols c S value l p x = [] := by
              unfold sols
              rw [List.map_eq_nil_iff, List.filter_eq_nil_iff]
              intro y _
              simp only [decide_eq_true_eq]
              rw [valOf_eq (.leaf hk)]
              exact fun e => hv e.symm
            rw [this]
            simp
      | inner i ss =>
          obtain ⟨hi, hlen, hus⟩ := h.sons p i ss hp hk
          have hlp : S.levelOf c p = S.idx2lvl i := by simp [Mgr.levelOf, hk]
          have hil := h.order.i2l_lt i hi
          dsimp only
          rw [if_neg (by omega), bind_ok (s' := S) (a := S) rfl]
          by_cases hgt : S.idx2lvl i > l
          · rw [if_pos hgt]
            exact skip (by omega)
          · rw [if_neg hgt]
            have hli : S.idx2lvl i = l := by omega
            have hln : l < c.n := by omega
            have hidx : S.lvl2idx l = i := by rw [← hli]; exact h.order.i2l2i i hi
            have hq : ∀ k, k < c.dom (S.lvl2idx l) → ∀ y, Valid c y →
                valOf S (upd y (S.lvl2idx l) k) p = valOf S y (ss.getD k 0) := by
              intro k hkd y hy
              rw [hidx] at hkd ⊢
              have hkl : k < ss.length := by omega
              have eget : ss.getD k 0 = ss[k] := by simp [List.getD, hkl]
              have hmem := List.getElem_mem hkl
              rw [eget]
              have hlq := ho p i ss _ hp hk hmem
              exact valOf_eq (.inner hk (by rw [upd_same, List.getElem?_eq_getElem hkl])
                ((upd_self_of_indep h ho (hus _ hmem) (by omega)).2
                  (ev_valOf h ho hy (hus _ hmem))))
            rw [sols_cons h hc hln (q := fun k => ss.getD k 0) hq]
            have hzip : (List.range (c.dom (S.lvl2idx l))).flatMap (fun k =>
                sols c S value (l + 1) (ss.getD k 0) (upd x (S.lvl2idx l) k))
                = (ss.zip (List.range ss.length)).flatMap (fun e =>
                  sols c S value (l + 1) e.1 (upd x i e.2)) := by
              rw [hidx, ← hlen]
              conv =>
                lhs
                rw [← List.map_snd_zip (l₁ := ss) (l₂ := List.range ss.length) (by simp),
                  List.flatMap_map]
              refine List.flatMap_congr ?_
              rintro ⟨q, k⟩ hqk
              obtain ⟨m, hm⟩ := List.mem_iff_getElem?.1 hqk
              rw [List.getElem?_zip_eq_some] at hm
              obtain ⟨h1, h2⟩ := hm
              have hml : m < ss.length := by
                by_contra hcon
                rw [List.getElem?_eq_none (by omega)] at h1; cases h1
              rw [List.getElem?_range hml] at h2
              cases h2
              simp only [List.getD, h1, Option.getD_some]
            rw [hzip]
            refine foldL_append (J := fun y => ∀ j, j < c.n → S.idx2lvl j < l → y j = x j)
              (g := fun (e : Ptr × Nat) => sols c S value (l + 1) e.1 (upd x i e.2)) S _ (x, out)
              (fun _ _ _ => rfl) ?_
            rintro ⟨q, k⟩ hqk ⟨t, o⟩ ht
            have hqs : q ∈ ss := (List.of_mem_zip hqk).1
            have hlq := ho p i ss q hp hk hqs
            obtain ⟨y, h1, h2⟩ := ih q (l + 1) (upd t i k) o (hus q hqs) (by omega) (by omega)
            refine ⟨y, ?_, ?_⟩
            · dsimp only
              rw [h1]
              congr 3
              unfold sols
              congr 1
              refine List.map_congr_left ?_
              intro z _
              refine List.map_congr_left ?_
              intro j hj
              have hjn := List.mem_range.1 hj
              simp only [merge]
              by_cases hjl : S.idx2lvl j < l + 1
              · rw [if_pos hjl, if_pos hjl]
                simp only [upd_apply]
                by_cases e : j = i
                · rw [if_pos e, if_pos e]
                · rw [if_neg e, if_neg e]
                  refine ht j hjn ?_
                  have : S.idx2lvl j ≠ l := by
                    intro hh
                    exact e (by rw [← hidx, ← hh, h.order.i2l2i j hjn])
                  omega
              · rw [if_neg hjl, if_neg hjl]
            · intro j hj hjl
              have hne : j ≠ i := by
                rintro rfl
                omega
              rw [h2 j hj (by omega), upd_other _ _ hne]
              exact ht j hj hjl

/-- The variables in level order, as `get_order` reports them. -/
def levelVars (c : Cfg) (S : Mgr) : List Nat := (List.range c.n).map S.lvl2idx

theorem varsFrom_zero : varsFrom c S 0 = levelVars c S := by
  simp [varsFrom, levelVars, List.range_eq_range']

theorem satisfyAll_ok (h : Inv c ext tmp S) (ho : Ordered c S) (hc : CfgOK c)
    (hp : S.used root = true) {f : Asg → Int} (hd : Den c S root f) {v : Int}
    (hv : ∀ m, c.fixedDom = some m → c.asserts = true → v < m) :
    Ok (satisfyAll c v root) S (fun r s' => s' = S ∧
      r = ((assignments c.dom (levelVars c S)).filter fun x => f x = v).map (toList c.n)) := by
  unfold satisfyAll
  refine Ok.bindEq (assertValue_ok hv) ?_
  obtain ⟨y, h1, _⟩ := satAllImpl_ok h ho hc (value := v) (c.n + 1) root 0 (fun _ => 0) [] hp
    (Nat.zero_le _) (by omega)
  refine Ok.bindEq h1 (Ok.pure ⟨rfl, ?_⟩)
  simp only [List.nil_append]
  unfold sols
  rw [← varsFrom_zero]
  have e : (assignments c.dom (varsFrom c S 0)).filter (fun y => decide (valOf S y root = v))
      = (assignments c.dom (varsFrom c S 0)).filter (fun y => decide (f y = v)) := by
    refine List.filter_congr ?_
    intro x hx
    obtain ⟨h1, h2⟩ := (mem_assignments (nodup_varsFrom h.order)).1 hx
    rw [valOf_eq (hd x (valid_of_vars hc h1 h2))]
  rw [e]
  refine List.map_congr_left ?_
  intro x _
  refine List.map_congr_left ?_
  intro j _
  simp [merge]

end

end Teddy
