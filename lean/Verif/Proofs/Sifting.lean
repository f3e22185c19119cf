import Verif.SiftSpec
import Verif.Proofs.Reorder

/-!
# Sifting puts each variable where the fewest nodes were counted
-/

namespace Teddy

open SM

section
variable {c : Cfg} {ext : Ptr → Nat} {i : Nat}

theorem Moves.append {s t u : Mgr} {l m : List Mgr} (h : Moves c i s l t) (g : Moves c i t m u) :
    Moves c i s (l ++ m) u := by
  induction h with
  | stop => exact g
  | down e1 e2 _ ih => exact .down e1 e2 (ih g)
  | up e1 e2 _ ih => exact .up e1 e2 (ih g)

/-- The levels of the other variables, as if variable `i` were not there. -/
def Others (c : Cfg) (i : Nat) (r : Nat → Nat) (s : Mgr) : Prop :=
  ∀ k, k < c.n → k ≠ i → s.idx2lvl k = r k + if r k < s.idx2lvl i then 0 else 1

theorem Others.start {s : Mgr} (O : OrderOK c s) (hi : i < c.n) :
    Others c i (fun k => if s.idx2lvl k < s.idx2lvl i then s.idx2lvl k else s.idx2lvl k - 1) s := by
  intro k hk hne
  have hd : s.idx2lvl k ≠ s.idx2lvl i := fun e => hne (by rw [← O.i2l2i k hk, e, O.i2l2i i hi])
  dsimp only
  split_ifs <;> omega

theorem Others.unique {r : Nat → Nat} {s t : Mgr} (hs : Others c i r s) (ht : Others c i r t)
    (h : s.idx2lvl i = t.idx2lvl i) : ∀ k, k < c.n → s.idx2lvl k = t.idx2lvl k := by
  intro k hk
  by_cases e : k = i
  · rw [e, h]
  · rw [hs k hk e, ht k hk e, h]

theorem Others.step {r : Nat → Nat} {s t : Mgr} (h : Others c i r s) {k0 : Nat}
    (hk0 : k0 ≠ i) (hn : k0 < c.n)
    (ht : ∀ k, t.idx2lvl k = if k = k0 then s.idx2lvl i else if k = i then s.idx2lvl k0 else s.idx2lvl k)
    (hd : s.idx2lvl k0 = s.idx2lvl i + 1 ∨ s.idx2lvl i = s.idx2lvl k0 + 1)
    (hinj : ∀ k, k < c.n → k ≠ i → k ≠ k0 → s.idx2lvl k ≠ s.idx2lvl k0) :
    Others c i r t := by
  intro k hk hne
  have e0 := h k0 hn hk0
  have hti : t.idx2lvl i = s.idx2lvl k0 := by rw [ht i, if_neg (fun e => hk0 e.symm), if_pos rfl]
  rw [hti, ht k]
  by_cases e : k = k0
  · subst e
    rw [if_pos rfl]
    split at e0 <;> split <;> omega
  · rw [if_neg e, if_neg hne]
    have e1 := h k hk hne
    have e2 := hinj k hk hne e
    split at e0 <;> split at e1 <;> split <;> omega

/-- The result of the measurements made so far. -/
def Best (i : Nat) (V : List Mgr) (pl : Place) : Prop :=
  ∃ before best after, V = before ++ best :: after ∧ best.nodeCount = pl.optCount ∧
    best.idx2lvl i = pl.optLevel ∧
    (∀ t ∈ before, pl.optCount < t.nodeCount) ∧ (∀ t ∈ after, pl.optCount ≤ t.nodeCount)

theorem Best.update {V : List Mgr} {pl : Place} (h : Best i V pl) {t : Mgr} {level : Nat}
    (hl : t.idx2lvl i = level) : Best i (V ++ [t]) (placeUpdate pl level t.nodeCount) := by
  obtain ⟨b, m, a, rfl, h1, h2, h3, h4⟩ := h
  unfold placeUpdate
  split
  · rename_i hlt
    refine ⟨b ++ m :: a, t, [], by simp, rfl, hl, fun u hu => ?_, fun u hu => by simp at hu⟩
    rcases List.mem_append.1 hu with hu | hu
    · exact Nat.lt_trans hlt (h3 u hu)
    · rcases List.mem_cons.1 hu with rfl | hu
      · rw [h1]; exact hlt
      · exact Nat.lt_of_lt_of_le hlt (h4 u hu)
  · rename_i hlt
    refine ⟨b, m, a ++ [t], by simp, h1, h2, h3, fun u hu => ?_⟩
    rcases List.mem_append.1 hu with hu | hu
    · exact h4 u hu
    · rw [List.mem_singleton.1 hu]
      show pl.optCount ≤ _
      omega

theorem placeUpdate_level (pl : Place) (level count : Nat) : (placeUpdate pl level count).level = level := by
  unfold placeUpdate; split <;> rfl

/-- One level down. -/
theorem moveDown_full {s : Mgr} {r : Nat → Nat} (h : Sane c ext s) (hdom : ∀ k, k < c.n → 0 < c.dom k)
    (hi : i < c.n) (hL : s.idx2lvl i + 1 < c.n) (hr : Others c i r s) :
    ∃ t, swapVariableWithNext c i s = .ok ((), t) ∧ Sane c ext t ∧ t.idx2lvl i = s.idx2lvl i + 1 ∧
      Others c i r t := by
  have O := h.inv.order
  obtain ⟨_, t, e, h1, _, h3⟩ := swapVariable_spec h hdom hi hL
  have hl := O.l2i2l _ hL
  have hne : s.lvl2idx (s.idx2lvl i + 1) ≠ i := by
    intro e2
    rw [e2] at hl
    omega
  refine ⟨t, e, h1, ?_, ?_⟩
  · rw [h3 i, if_neg (fun e => hne e.symm), if_pos rfl]
  · refine hr.step hne (O.l2i_lt _ hL) (fun k => ?_) (Or.inl hl) (fun k hk _ hk0 e2 => hk0 ?_)
    · rw [h3 k, hl]
    · rw [← O.i2l2i k hk, e2, hl]

/-- One level up. -/
theorem moveUp_full {s : Mgr} {r : Nat → Nat} (h : Sane c ext s) (hdom : ∀ k, k < c.n → 0 < c.dom k)
    (hi : i < c.n) (hL : 0 < s.idx2lvl i) (hr : Others c i r s) :
    ∃ t, moveVarUp c i s = .ok ((), t) ∧ swapVariableWithNext c (s.lvl2idx (s.idx2lvl i - 1)) s = .ok ((), t) ∧
      Sane c ext t ∧ s.idx2lvl i = t.idx2lvl i + 1 ∧ Others c i r t := by
  have O := h.inv.order
  have hlt := O.i2l_lt i hi
  have hp : s.lvl2idx (s.idx2lvl i - 1) < c.n := O.l2i_lt _ (by omega)
  have hl := O.l2i2l (s.idx2lvl i - 1) (by omega)
  obtain ⟨_, t, e, h1, _, h3⟩ := swapVariable_spec h hdom hp (by omega)
  have hnext : s.lvl2idx (s.idx2lvl (s.lvl2idx (s.idx2lvl i - 1)) + 1) = i := by
    rw [hl, show s.idx2lvl i - 1 + 1 = s.idx2lvl i by omega, O.i2l2i i hi]
  have hne : s.lvl2idx (s.idx2lvl i - 1) ≠ i := by
    intro e2
    rw [e2] at hl
    omega
  rw [hnext] at h3
  refine ⟨t, ?_, e, h1, ?_, ?_⟩
  · unfold moveVarUp
    rw [bind_ok (get_run s)]
    rw [bind_ok (getIndex_ok (by omega))]
    exact e
  · rw [h3 i, if_pos rfl, hl]; omega
  · refine hr.step hne hp (fun k => ?_) (Or.inr (by omega)) (fun k hk _ hk0 e2 => hk0 ?_)
    · rw [h3 k]
      by_cases e1 : k = i
      · rw [if_pos e1, if_neg (fun e3 => hne (by rw [← e3, e1])), if_pos e1]
      · rw [if_neg e1]
        by_cases e3 : k = s.lvl2idx (s.idx2lvl i - 1)
        · rw [if_pos e3, if_pos e3]; omega
        · rw [if_neg e3, if_neg e3, if_neg e1]
    · rw [← O.i2l2i k hk, e2, hl]

theorem siftDown_full (hdom : ∀ k, k < c.n → 0 < c.dom k) (hi : i < c.n) {r : Nat → Nat} :
    ∀ (f : Nat) (pl : Place) (s : Mgr) (V : List Mgr), Sane c ext s → s.idx2lvl i = pl.level →
      c.n ≤ pl.level + 1 + f → Best i V pl → Others c i r s →
      Ok (siftDownVar c i f pl) s (fun pl' s' => Sane c ext s' ∧ s'.idx2lvl i = pl'.level ∧ pl'.level + 1 = c.n ∧
        Others c i r s' ∧ ∃ l, Moves c i s l s' ∧ Best i (V ++ l) pl' ∧ (∀ t ∈ l, Others c i r t ∧ t.idx2lvl i < c.n) ∧
          ∀ level, pl.level < level → level < c.n → ∃ t ∈ l, t.idx2lvl i = level) := by
  intro f
  induction f with
  | zero =>
      intro pl s V h hl hf hb hr
      have hlt := h.inv.order.i2l_lt i hi
      rw [siftDownVar, if_pos (by omega)]
      exact Ok.pure ⟨h, hl, by omega, hr, [], .stop, by simpa using hb, by simp, fun level h1 h2 => by omega⟩
  | succ f ih =>
      intro pl s V h hl hf hb hr
      have hlt := h.inv.order.i2l_lt i hi
      rw [siftDownVar]
      by_cases e : pl.level = c.n - 1
      · rw [if_pos e]
        exact Ok.pure ⟨h, hl, by omega, hr, [], .stop, by simpa using hb, by simp, fun level h1 h2 => by omega⟩
      · rw [if_neg e]
        obtain ⟨t, e1, h1, h2, h3⟩ := moveDown_full h hdom hi (by omega) hr
        refine Ok.bindEq e1 ?_
        refine Ok.bindGet ?_
        have hp := placeUpdate_level pl (pl.level + 1) t.nodeCount
        refine (ih _ t (V ++ [t]) h1 (by rw [hp, h2, hl]) (by rw [hp]; omega)
          (hb.update (by rw [h2, hl])) h3).mono ?_
        rintro pl' s2 ⟨g1, g2, g2', g3, l, g4, g5, g6, g7⟩
        refine ⟨g1, g2, g2', g3, t :: l, .down e1 h2 g4, by simpa using g5, ?_, fun level a1 a2 => ?_⟩
        · intro u hu
          rcases List.mem_cons.1 hu with rfl | hu
          · exact ⟨h3, h1.inv.order.i2l_lt i hi⟩
          · exact g6 u hu
        · by_cases e3 : level = pl.level + 1
          · exact ⟨t, by simp, by rw [h2, hl, e3]⟩
          · obtain ⟨u, hu, e4⟩ := g7 level (by rw [hp]; omega) a2
            exact ⟨u, by simp [hu], e4⟩

theorem siftUp_full (hdom : ∀ k, k < c.n → 0 < c.dom k) (hi : i < c.n) {r : Nat → Nat} :
    ∀ (f : Nat) (pl : Place) (s : Mgr) (V : List Mgr), Sane c ext s → s.idx2lvl i = pl.level →
      pl.level ≤ f → Best i V pl → Others c i r s →
      Ok (siftUpVar c i f pl) s (fun pl' s' => Sane c ext s' ∧ s'.idx2lvl i = 0 ∧ pl'.level = 0 ∧ Others c i r s' ∧
        ∃ l, Moves c i s l s' ∧ Best i (V ++ l) pl' ∧ (∀ t ∈ l, Others c i r t ∧ t.idx2lvl i < c.n) ∧
          ∀ level, level < pl.level → ∃ t ∈ l, t.idx2lvl i = level) := by
  intro f
  induction f with
  | zero =>
      intro pl s V h hl hf hb hr
      rw [siftUpVar, if_pos (by omega)]
      exact Ok.pure ⟨h, by omega, by omega, hr, [], .stop, by simpa using hb, by simp, fun level h1 => by omega⟩
  | succ f ih =>
      intro pl s V h hl hf hb hr
      rw [siftUpVar]
      by_cases e : pl.level = 0
      · rw [if_pos e]
        exact Ok.pure ⟨h, by omega, e, hr, [], .stop, by simpa using hb, by simp, fun level h1 => by omega⟩
      · rw [if_neg e]
        obtain ⟨t, e1, e2, h1, h2, h3⟩ := moveUp_full h hdom hi (by omega) hr
        refine Ok.bindEq e1 ?_
        refine Ok.bindGet ?_
        have hp := placeUpdate_level pl (pl.level - 1) t.nodeCount
        refine (ih _ t (V ++ [t]) h1 (by rw [hp]; omega) (by rw [hp]; omega)
          (hb.update (by omega)) h3).mono ?_
        rintro pl' s2 ⟨g1, g2, g2', g3, l, g4, g5, g6, g7⟩
        refine ⟨g1, g2, g2', g3, t :: l, .up e2 h2 g4, by simpa using g5, ?_, fun level a1 => ?_⟩
        · intro u hu
          rcases List.mem_cons.1 hu with rfl | hu
          · exact ⟨h3, h1.inv.order.i2l_lt i hi⟩
          · exact g6 u hu
        · by_cases e3 : level = pl.level - 1
          · exact ⟨t, by simp, by omega⟩
          · obtain ⟨u, hu, e4⟩ := g7 level (by rw [hp]; omega)
            exact ⟨u, by simp [hu], e4⟩

theorem siftRestore_full (hdom : ∀ k, k < c.n → 0 < c.dom k) (hi : i < c.n) {opt : Nat} (ho : opt < c.n)
    {r : Nat → Nat} :
    ∀ (f level : Nat) (s : Mgr), Sane c ext s → s.idx2lvl i = level → level ≤ opt → opt ≤ level + f →
      Others c i r s →
      Ok (siftRestore c i opt f level) s (fun _ s' => Sane c ext s' ∧ s'.idx2lvl i = opt ∧ Others c i r s' ∧
        ∃ l, Moves c i s l s') := by
  intro f
  induction f with
  | zero =>
      intro level s h hl h1 h2 hr
      rw [siftRestore, if_pos (by omega)]
      exact Ok.pure ⟨h, by omega, hr, [], .stop⟩
  | succ f ih =>
      intro level s h hl hle hf hr
      rw [siftRestore]
      by_cases e : level = opt
      · rw [if_pos e]
        exact Ok.pure ⟨h, by omega, hr, [], .stop⟩
      · rw [if_neg e]
        obtain ⟨t, e1, h1, h2, h3⟩ := moveDown_full h hdom hi (by omega) hr
        refine Ok.bindEq e1 ?_
        refine (ih (level + 1) t h1 (by omega) (by omega) (by omega) h3).mono ?_
        rintro _ s2 ⟨g1, g2, g3, l, g4⟩
        exact ⟨g1, g2, g3, t :: l, .down e1 h2 g4⟩

theorem placeVariable_placed {s : Mgr} (h : Sane c ext s) (hdom : ∀ k, k < c.n → 0 < c.dom k)
    (hi : i < c.n) :
    Ok (placeVariable c i) s (fun _ s' => Sane c ext s' ∧ Placed c i s s') := by
  obtain ⟨r, hr⟩ : ∃ r, Others c i r s := ⟨_, Others.start h.inv.order hi⟩
  have hlt := h.inv.order.i2l_lt i hi
  unfold placeVariable
  refine Ok.bindGet ?_
  refine Ok.bind (siftDown_full hdom hi c.n ⟨s.idx2lvl i, s.idx2lvl i, s.nodeCount⟩ s [s] h rfl
    (by simp only; omega) ⟨[], s, [], rfl, rfl, rfl, by simp, by simp⟩ hr) ?_
  rintro pl s1 ⟨h1, h2, h2', h3, l1, h4, h5, h6, h7⟩
  have hlt1 := h1.inv.order.i2l_lt i hi
  refine Ok.bind (siftUp_full hdom hi c.n pl s1 ([s] ++ l1) h1 h2 (by omega) h5 h3) ?_
  rintro pl2 s2 ⟨g1, g2, g2', g3, l2, g4, ⟨b, m, a, k1, k2, k3, k4, k5⟩, g6, g7⟩
  have hall : ∀ t ∈ s :: (l1 ++ l2), Others c i r t ∧ t.idx2lvl i < c.n := by
    intro t ht
    rcases List.mem_cons.1 ht with rfl | ht
    · exact ⟨hr, hlt⟩
    · rcases List.mem_append.1 ht with ht | ht
      · exact h6 t ht
      · exact g6 t ht
  have hm : m ∈ s :: (l1 ++ l2) := by
    have : s :: (l1 ++ l2) = b ++ m :: a := by simpa using k1
    rw [this]; simp
  have hcover : ∀ level, level < c.n → ∃ t ∈ s :: (l1 ++ l2), t.idx2lvl i = level := by
    intro level hlv
    by_cases e : level = s.idx2lvl i
    · exact ⟨s, by simp, e.symm⟩
    · by_cases e2 : s.idx2lvl i < level
      · obtain ⟨t, ht, e3⟩ := h7 level e2 hlv
        exact ⟨t, by simp [ht], e3⟩
      · obtain ⟨t, ht, e3⟩ := g7 level (by omega)
        exact ⟨t, by simp [ht], e3⟩
  have hmlt : pl2.optLevel < c.n := by
    rw [← k3]
    exact (hall m hm).2
  refine (siftRestore_full hdom hi hmlt c.n pl2.level s2 g1 (by omega) (by omega) (by omega) g3).mono ?_
  rintro _ s3 ⟨d1, d2, d3, back, d4⟩
  refine ⟨d1, l1 ++ l2, s2, back, h4.append g4, d4, hcover, b, m, a, by simpa using k1,
    fun t ht => by rw [k2]; exact k4 t ht, fun t ht => by rw [k2]; exact k5 t ht, ?_⟩
  exact d3.unique (hall m hm).1 (by rw [d2, k3])

theorem siftVariables_placed {s : Mgr} (h : Sane c ext s) (hdom : ∀ k, k < c.n → 0 < c.dom k) :
    Ok (siftVariables c) s (fun _ s' => ∃ t, PlacedAll c (siftOrder c s) s t ∧
      s' = { t with deferred := false }) := by
  have key : ∀ (is : List Nat) (s : Mgr), (∀ i ∈ is, i < c.n) → Sane c ext s →
      Ok (forL (placeVariable c) is) s (fun _ s' => PlacedAll c is s s') := by
    intro is
    induction is with
    | nil => intro s _ _; exact Ok.pure .nil
    | cons i is ih =>
        intro s h1 h2
        refine Ok.bind (placeVariable_placed h2 hdom (h1 i (by simp))) ?_
        rintro _ t ⟨h3, h4⟩
        refine (ih t (fun k hk => h1 k (by simp [hk])) h3).mono ?_
        intro _ u hu
        exact .cons h4 hu
  unfold siftVariables
  refine Ok.bindGet ?_
  refine Ok.bind (key _ s siftOrder_lt h) ?_
  intro _ t ht
  exact Ok.of_eq (modify_run _ _) ⟨t, ht, rfl⟩

/-- The order in which variables are sifted lists each variable once, those with more nodes first. -/
theorem siftOrder_sorted (s : Mgr) :
    (siftOrder c s).Perm (List.range c.n) ∧
      (siftOrder c s).Pairwise fun a b => (s.tables b).size ≤ (s.tables a).size := by
  have hsw : StrictWeak (fun (a b : Nat × Nat) => decide (a.2 > b.2)) :=
    ⟨fun a b h => by simp at h ⊢; omega, fun a b d h1 h2 => by simp at h1 h2 ⊢; omega⟩
  obtain ⟨h0, π, h1, h2⟩ := SortLemmas.heapSort_spec hsw c.n (fun i => (i, (s.tables i).size))
  have hlt : ∀ k, k < c.n → π k < c.n := by
    intro k hk
    by_contra hc
    have h3 := h1 (π k) (by omega)
    have := π.injective h3
    omega
  have e : siftOrder c s = (List.range c.n).map π := by
    unfold siftOrder
    refine List.map_congr_left fun k hk => ?_
    rw [h2 k]
  constructor
  · rw [e]
    refine (List.perm_ext_iff_of_nodup (List.nodup_range.map π.injective) List.nodup_range).2 fun k => ?_
    rw [List.mem_map, List.mem_range]
    constructor
    · rintro ⟨j, hj, rfl⟩
      exact hlt j (List.mem_range.1 hj)
    · intro hk
      refine ⟨π.symm k, List.mem_range.2 ?_, π.apply_symm_apply k⟩
      by_contra hc
      have h3 := h1 (π.symm k) (by omega)
      rw [π.apply_symm_apply] at h3
      omega
  · rw [e, List.pairwise_map]
    refine List.Pairwise.imp_of_mem ?_ (List.pairwise_lt_range)
    intro a b ha hb hab
    have := h0 a b hab (List.mem_range.1 hb)
    rw [h2 a, h2 b] at this
    simpa using this

end

end Teddy
