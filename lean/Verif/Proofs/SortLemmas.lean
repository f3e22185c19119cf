import Verif.Sort
import Mathlib.Logic.Equiv.Basic
import Mathlib.Data.List.Perm.Basic
import Mathlib.Data.List.Nodup
import Mathlib.Data.List.Range

/-!
# Heapsort
-/

namespace Teddy

variable {α : Type} {cmp : α → α → Bool}

/-- `cmp` is a strict weak order. -/
structure StrictWeak (cmp : α → α → Bool) : Prop where
  asymm : ∀ a b, cmp a b = true → cmp b a = false
  trans : ∀ a b c, cmp a b = false → cmp b c = false → cmp a c = false

namespace SortLemmas

/-- `ys` is `xs` with the positions below `n` permuted. -/
def PermOn (n : Nat) (ys xs : Nat → α) : Prop :=
  ∃ π : Equiv.Perm Nat, (∀ k, n ≤ k → π k = k) ∧ ∀ k, ys k = xs (π k)

theorem PermOn.refl {n : Nat} (xs : Nat → α) : PermOn n xs xs := 
  ⟨Equiv.refl _, fun _ _ => rfl, fun _ => rfl⟩

theorem PermOn.trans {n : Nat} {xs ys zs : Nat → α} (h : PermOn n zs ys) (h' : PermOn n ys xs) :
    PermOn n zs xs := by
  obtain ⟨π, h1, h2⟩ := h
  obtain ⟨ρ, h3, h4⟩ := h'
  refine ⟨π.trans ρ, fun k hk => ?_, fun k => ?_⟩
  · rw [Equiv.trans_apply, h1 k hk, h3 k hk]
  · rw [h2, h4, Equiv.trans_apply]

theorem PermOn.mono {n m : Nat} (hnm : n ≤ m) {xs ys : Nat → α} (h : PermOn n ys xs) :
    PermOn m ys xs := by
  obtain ⟨π, h1, h2⟩ := h
  exact ⟨π, fun k hk => h1 k (by omega), h2⟩

theorem PermOn.swap {n i j : Nat} (hi : i < n) (hj : j < n) (xs : Nat → α) :
    PermOn n (swapAt xs i j) xs := by
  refine ⟨Equiv.swap i j, fun k hk => ?_, fun k => ?_⟩
  · exact Equiv.swap_apply_of_ne_of_ne (by omega) (by omega)
  · unfold swapAt
    rw [Equiv.swap_apply_def]
    split_ifs <;> rfl

theorem perm_lt {π : Equiv.Perm Nat} {n : Nat} (h : ∀ k, n ≤ k → π k = k) {k : Nat} (hk : k < n) :
    π k < n := by
  by_contra hc
  have := h (π k) (by omega)
  have := π.injective this
  omega

theorem PermOn.list {n : Nat} {xs ys : Nat → α} (h : PermOn n ys xs) :
    ((List.range n).map ys).Perm ((List.range n).map xs) := by
  obtain ⟨π, h1, h2⟩ := h
  have e : (List.range n).map ys = ((List.range n).map π).map xs := by
    rw [List.map_map]
    exact List.map_congr_left fun k _ => h2 k
  rw [e]
  refine List.Perm.map _ ?_
  refine (List.perm_ext_iff_of_nodup (List.nodup_range.map π.injective) List.nodup_range).2 ?_
  intro a
  simp only [List.mem_map, List.mem_range]
  constructor
  · rintro ⟨k, hk, rfl⟩
    exact perm_lt h1 hk
  · intro ha
    refine ⟨π.symm a, ?_, by simp⟩
    refine perm_lt (π := π.symm) ?_ ha
    intro k hk
    rw [Equiv.symm_apply_eq, h1 k hk]

/-- Every node from `k` on is not smaller than its children below `size`. -/
def HeapFrom (cmp : α → α → Bool) (k size : Nat) (xs : Nat → α) : Prop :=
  ∀ i c, k ≤ i → (c = 2 * i + 1 ∨ c = 2 * i + 2) → c < size → cmp (xs i) (xs c) = false

/-- As `HeapFrom`, but the subtree of `p` may violate at its root. -/
structure Hole (cmp : α → α → Bool) (k size p : Nat) (xs : Nat → α) : Prop where
  heap : ∀ i c, k ≤ i → i ≠ p → (c = 2 * i + 1 ∨ c = 2 * i + 2) → c < size →
    cmp (xs i) (xs c) = false
  above : ∀ g c, k ≤ g → (p = 2 * g + 1 ∨ p = 2 * g + 2) → (c = 2 * p + 1 ∨ c = 2 * p + 2) →
    c < size → cmp (xs g) (xs c) = false

/-- What `siftPick` chooses. -/
theorem siftPick_spec (hc : StrictWeak cmp) (xs : Nat → α) {p size : Nat} (hl : 2 * p + 1 < size) :
    (siftPick cmp xs p size = p ∧ ∀ c, (c = 2 * p + 1 ∨ c = 2 * p + 2) → c < size →
      cmp (xs p) (xs c) = false) ∨
    ((siftPick cmp xs p size = 2 * p + 1 ∨ siftPick cmp xs p size = 2 * p + 2) ∧
      siftPick cmp xs p size < size ∧ cmp (xs p) (xs (siftPick cmp xs p size)) = true ∧
      ∀ c, (c = 2 * p + 1 ∨ c = 2 * p + 2) → c < size →
        cmp (xs (siftPick cmp xs p size)) (xs c) = false) := by
  have irr : ∀ a, cmp a a = false := fun a => by
    cases h : cmp a a
    · rfl
    · have := hc.asymm a a h
      rw [h] at this
      cases this
  unfold siftPick
  dsimp only
  by_cases h1 : cmp (xs p) (xs (2 * p + 1)) = true
  · rw [if_pos h1]
    by_cases h2 : (decide (2 * p + 1 + 1 < size) && cmp (xs (2 * p + 1)) (xs (2 * p + 1 + 1))) = true
    · rw [if_pos h2]
      simp only [Bool.and_eq_true, decide_eq_true_eq] at h2
      right
      refine ⟨.inr rfl, h2.1, ?_, ?_⟩
      · cases h : cmp (xs p) (xs (2 * p + 1 + 1))
        · have := hc.trans _ _ _ h (hc.asymm _ _ h2.2)
          rw [h1] at this
          cases this
        · rfl
      · rintro c (rfl | rfl) hcs
        · exact hc.asymm _ _ h2.2
        · exact irr _
    · rw [if_neg h2]
      right
      refine ⟨.inl rfl, hl, h1, ?_⟩
      rintro c (rfl | rfl) hcs
      · exact irr _
      · simp only [Bool.and_eq_true, decide_eq_true_eq, not_and, Bool.not_eq_true] at h2
        exact h2 hcs
  · rw [if_neg h1]
    simp only [Bool.not_eq_true] at h1
    by_cases h2 : (decide (2 * p + 1 + 1 < size) && cmp (xs p) (xs (2 * p + 1 + 1))) = true
    · rw [if_pos h2]
      simp only [Bool.and_eq_true, decide_eq_true_eq] at h2
      right
      refine ⟨.inr rfl, h2.1, h2.2, ?_⟩
      rintro c (rfl | rfl) hcs
      · exact hc.trans _ _ _ (hc.asymm _ _ h2.2) h1
      · exact irr _
    · rw [if_neg h2]
      left
      refine ⟨rfl, ?_⟩
      rintro c (rfl | rfl) hcs
      · exact h1
      · simp only [Bool.and_eq_true, decide_eq_true_eq, not_and, Bool.not_eq_true] at h2
        exact h2 hcs

theorem swapAt_left (xs : Nat → α) (i j : Nat) : swapAt xs i j i = xs j := by simp [swapAt]

theorem swapAt_right (xs : Nat → α) {i j : Nat} (h : j ≠ i) : swapAt xs i j j = xs i := by
  simp [swapAt, h]

theorem swapAt_other (xs : Nat → α) {i j k : Nat} (h : k ≠ i) (h' : k ≠ j) :
    swapAt xs i j k = xs k := by
  simp [swapAt, h, h']

theorem siftDown_spec (hc : StrictWeak cmp) {k size : Nat} :
    ∀ (f : Nat) (xs : Nat → α) (p : Nat), k ≤ p → size ≤ f + p → Hole cmp k size p xs →
      HeapFrom cmp k size (siftDown cmp f xs p size) ∧ PermOn size (siftDown cmp f xs p size) xs := by
  intro f
  induction f with
  | zero =>
      intro xs p hk hf H
      refine ⟨fun i c hi hic hcs => ?_, PermOn.refl _⟩
      exact H.heap i c hi (by omega) hic hcs
  | succ f ih =>
      intro xs p hk hf H
      unfold siftDown
      by_cases hl : 2 * p + 1 < size
      · rw [if_pos hl]
        dsimp only
        rcases siftPick_spec hc xs hl with ⟨e, h⟩ | ⟨hs, hss, hps, hbest⟩
        · rw [if_pos e]
          refine ⟨fun i c hi hic hcs => ?_, PermOn.refl _⟩
          by_cases hip : i = p
          · subst hip; exact h c hic hcs
          · exact H.heap i c hi hip hic hcs
        · generalize siftPick cmp xs p size = s at *
          have hsp : s ≠ p := by omega
          rw [if_neg hsp]
          have H' : Hole cmp k size s (swapAt xs p s) := by
            constructor
            · intro i c hi his hic hcs
              by_cases hip : i = p
              · subst hip
                rw [swapAt_left]
                by_cases hcs' : c = s
                · subst hcs'
                  rw [swapAt_right _ hsp]
                  exact hc.asymm _ _ hps
                · rw [swapAt_other _ (by omega) hcs']
                  exact hbest c hic hcs
              · rw [swapAt_other _ hip his]
                by_cases hcp : c = p
                · subst hcp
                  rw [swapAt_left]
                  exact H.above i s hi hic hs hss
                · rw [swapAt_other _ hcp (by omega)]
                  exact H.heap i c hi hip hic hcs
            · intro g c hg hgs hcc hcs
              have : g = p := by omega
              subst this
              rw [swapAt_left, swapAt_other _ (by omega) (by omega)]
              exact H.heap s c (by omega) hsp hcc hcs
          obtain ⟨h1, h2⟩ := ih _ s (by omega) (by omega) H'
          exact ⟨h1, h2.trans (PermOn.swap (by omega) hss xs)⟩
      · rw [if_neg hl]
        refine ⟨fun i c hi hic hcs => ?_, PermOn.refl _⟩
        exact H.heap i c hi (by omega) hic hcs

theorem makeHeap_spec (hc : StrictWeak cmp) {size : Nat} :
    ∀ (i : Nat) (xs : Nat → α), HeapFrom cmp i size xs →
      HeapFrom cmp 0 size (makeHeap cmp size i xs) ∧ PermOn size (makeHeap cmp size i xs) xs := by
  intro i
  induction i with
  | zero => intro xs h; exact ⟨h, PermOn.refl _⟩
  | succ i ih =>
      intro xs h
      unfold makeHeap
      obtain ⟨h1, h2⟩ := siftDown_spec hc (k := i) (size := size) size xs i (Nat.le_refl _) (by omega)
        ⟨fun j c hj hji hjc hcs => h j c (by omega) hjc hcs, fun g c hg hgi hcc hcs => by omega⟩
      obtain ⟨h3, h4⟩ := ih _ h1
      exact ⟨h3, h4.trans h2⟩

theorem heap_root (hc : StrictWeak cmp) {size : Nat} {xs : Nat → α} (h : HeapFrom cmp 0 size xs) :
    ∀ i, i < size → cmp (xs 0) (xs i) = false := by
  intro i
  induction i using Nat.strong_induction_on with
  | _ i ih =>
      intro hi
      by_cases h0 : i = 0
      · subst h0
        cases e : cmp (xs 0) (xs 0)
        · rfl
        · have := hc.asymm _ _ e
          rw [e] at this
          cases this
      · refine hc.trans _ _ _ (ih ((i - 1) / 2) (by omega) (by omega)) ?_
        exact h ((i - 1) / 2) i (Nat.zero_le _) (by omega) hi

theorem popHeap_spec (hc : StrictWeak cmp) {n : Nat} :
    ∀ (last : Nat) (xs : Nat → α), last < n → HeapFrom cmp 0 (last + 1) xs →
      (∀ i j, last < j → i < j → j < n → cmp (xs j) (xs i) = false) →
      (∀ i j, i < j → j < n → cmp (popHeap cmp last xs j) (popHeap cmp last xs i) = false) ∧
        PermOn n (popHeap cmp last xs) xs := by
  intro last
  induction last with
  | zero =>
      intro xs _ _ hs
      exact ⟨fun i j hij hj => hs i j (by omega) hij hj, PermOn.refl _⟩
  | succ last ih =>
      intro xs hn H hs
      unfold popHeap
      obtain ⟨h1, h2⟩ := siftDown_spec hc (k := 0) (size := last + 1) (last + 1)
        (swapAt xs (last + 1) 0) 0 (Nat.le_refl _) (by omega)
        ⟨fun i c _ hi hic hcs => by
          rw [swapAt_other _ (by omega) hi, swapAt_other _ (by omega) (by omega)]
          exact H i c (Nat.zero_le _) hic (by omega),
         fun g c _ hg _ _ => by omega⟩
      have hroot := heap_root hc H
      obtain ⟨π, hπ, hy⟩ := h2
      have hy_ge : ∀ k, last + 1 < k → siftDown cmp (last + 1) (swapAt xs (last + 1) 0) 0 (last + 1) k
          = xs k := fun k hk => by
        rw [hy, hπ k (by omega), swapAt_other _ (by omega) (by omega)]
      have hy_eq : siftDown cmp (last + 1) (swapAt xs (last + 1) 0) 0 (last + 1) (last + 1) = xs 0 := by
        rw [hy, hπ _ (by omega), swapAt_left]
      have hy_lt : ∀ k, k < last + 1 → ∃ m, m ≤ last + 1 ∧
          siftDown cmp (last + 1) (swapAt xs (last + 1) 0) 0 (last + 1) k = xs m := fun k hk => by
        have hlt := perm_lt hπ hk
        by_cases hz : π k = 0
        · exact ⟨last + 1, by omega, by rw [hy, hz, swapAt_right _ (by omega)]⟩
        · exact ⟨π k, by omega, by rw [hy, swapAt_other _ (by omega) hz]⟩
      obtain ⟨h3, h4⟩ := ih _ (by omega) h1 (by
        intro i j hj hij hjn
        by_cases hje : j = last + 1
        · subst hje
          obtain ⟨m, hm, e⟩ := hy_lt i hij
          rw [hy_eq, e]
          exact hroot m (by omega)
        · rw [hy_ge j (by omega)]
          by_cases hi : i < last + 1
          · obtain ⟨m, hm, e⟩ := hy_lt i hi
            rw [e]
            exact hs m j (by omega) (by omega) hjn
          · by_cases hie : i = last + 1
            · subst hie
              rw [hy_eq]
              exact hs 0 j (by omega) (by omega) hjn
            · rw [hy_ge i (by omega)]
              exact hs i j (by omega) hij hjn)
      exact ⟨h3, h4.trans ((PermOn.mono (by omega) ⟨π, hπ, hy⟩).trans
        (PermOn.swap (by omega) (by omega) xs))⟩

theorem heapSort_spec (hc : StrictWeak cmp) (n : Nat) (xs : Nat → α) :
    (∀ i j, i < j → j < n → cmp (heapSort cmp n xs j) (heapSort cmp n xs i) = false) ∧
      PermOn n (heapSort cmp n xs) xs := by
  unfold heapSort
  by_cases h : n = 0
  · rw [if_pos h]
    exact ⟨fun i j _ hj => by omega, PermOn.refl _⟩
  · rw [if_neg h]
    obtain ⟨h1, h2⟩ := makeHeap_spec hc (size := n) (n / 2 + 1) xs (fun i c hi hic hcs => by omega)
    obtain ⟨h3, h4⟩ := popHeap_spec hc (n := n) (n - 1) _ (by omega)
      (by rw [Nat.sub_add_cancel (by omega)]; exact h1) (fun i j hj _ hjn => by omega)
    exact ⟨h3, h4.trans h2⟩

end SortLemmas
end Teddy
