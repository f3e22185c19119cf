import Verif.Bits
import Mathlib.Tactic.Ring

namespace Teddy
namespace Bits

theorem flag_iff (b : Word) (k : Nat) (hk : k < 32) :
    (b &&& (1#32 <<< k) != 0) = b.getLsbD k := by
  have key : (b &&& (1#32 <<< k) = 0) ↔ b.getLsbD k = false := by
    constructor
    · intro h
      have := congrArg (fun x : Word => x.getLsbD k) h
      simpa [hk] using this
    · intro h
      ext i hi
      simp only [BitVec.getElem_and, BitVec.getElem_shiftLeft]
      by_cases e : i = k
      · subst e
        rw [← BitVec.getLsbD_eq_getElem, h]; simp
      · by_cases l : i < k
        · simp [l]
        · have : i - k ≠ 0 := by omega
          simp [l, BitVec.getElem_one, this]
  cases hb : b.getLsbD k
  · simpa using key.2 hb
  · have : ¬ (b &&& (1#32 <<< k) = 0) := fun h => by rw [key.1 h] at hb; cases hb
    simpa using this

theorem isMarked_eq (b : Word) : isMarked b = b.getLsbD 31 := flag_iff b 31 (by decide)
theorem isUsed_eq (b : Word) : isUsed b = b.getLsbD 30 := flag_iff b 30 (by decide)
theorem leaf_eq (b : Word) : (!isOrWasInternal b) = b.getLsbD 29 := by
  unfold isOrWasInternal
  rw [Bool.not_not]
  exact flag_iff b 29 (by decide)

theorem refs_eq (b : Word) : getRefCount b = (b.toNat % 2 ^ 29 : Nat) := by
  have hM : RefsM.toNat = 2 ^ 29 - 1 := by decide
  have : (b &&& RefsM).toNat = b.toNat % 2 ^ 29 := by
    rw [BitVec.toNat_and, hM, Nat.and_two_pow_sub_one_eq_mod]
  unfold getRefCount
  rw [BitVec.toInt_eq_toNat_of_lt, this]
  rw [this]; omega

/-- The fields in terms of the number. -/
theorem view_eq (b : Word) : view b = ⟨b.toNat.testBit 31, b.toNat.testBit 30, b.toNat.testBit 29,
    (b.toNat % 2 ^ 29 : Nat)⟩ := by
  unfold view
  rw [isMarked_eq, isUsed_eq, leaf_eq, refs_eq]
  rfl

theorem view_congr {b c : Word} (h1 : ∀ k, 29 ≤ k → k < 32 → b.toNat.testBit k = c.toNat.testBit k) :
    (view b).mark = (view c).mark ∧ (view b).used = (view c).used ∧ (view b).leaf = (view c).leaf := by
  rw [view_eq, view_eq]
  exact ⟨h1 31 (by decide) (by decide), h1 30 (by decide) (by decide), h1 29 (by decide) (by decide)⟩

/-- The reference count depends on the low 29 bits. -/
theorem refs_congr {b c : Word} (h : ∀ k, k < 29 → b.getLsbD k = c.getLsbD k) :
    getRefCount b = getRefCount c := by
  rw [refs_eq, refs_eq]
  congr 1
  apply Nat.eq_of_testBit_eq
  intro i
  rw [Nat.testBit_mod_two_pow, Nat.testBit_mod_two_pow]
  by_cases hi : i < 29
  · have := h i hi
    simp only [BitVec.getLsbD] at this
    rw [this]
  · simp [hi]

theorem testBit_high {a b k : Nat} (h : a / 2 ^ 29 = b / 2 ^ 29) (hk : 29 ≤ k) :
    a.testBit k = b.testBit k := by
  obtain ⟨j, rfl⟩ := Nat.exists_eq_add_of_le hk
  rw [Nat.add_comm, ← Nat.testBit_div_two_pow, ← Nat.testBit_div_two_pow, h]

theorem getLsbD_mask (k j : Nat) (hj : j < 32) : (1#32 <<< k).getLsbD j = decide (j = k) := by
  rw [BitVec.getLsbD_shiftLeft]
  by_cases h : j < k
  · have : j ≠ k := by omega
    simp [h, this]
  · simp only [h, hj, decide_true, Bool.not_false, Bool.true_and, decide_false]
    rw [BitVec.getLsbD_one]
    by_cases e : j = k
    · simp [e]
    · have : j - k ≠ 0 := by omega
      simp [this, e]

theorem step_view (A : Bool) (o : NodeOp) (b : Word) (h0 : 0 ≤ ((view b).step o).refs)
    (h1 : ((view b).step o).refs < 2 ^ 29) :
    ∃ b', step A o b = .ok b' ∧ view b' = (view b).step o := by
  have hmM : ∀ j (h : j < 32), MarkM[j] = decide (j = 31) := fun j h => by
    rw [← BitVec.getLsbD_eq_getElem]; exact getLsbD_mask 31 j h
  have hmU : ∀ j (h : j < 32), UsedM[j] = decide (j = 30) := fun j h => by
    rw [← BitVec.getLsbD_eq_getElem]; exact getLsbD_mask 30 j h
  have ext4 : ∀ c : Word, ∀ f : Fields, c.getLsbD 31 = f.mark → c.getLsbD 30 = f.used →
      c.getLsbD 29 = f.leaf → getRefCount c = f.refs → view c = f := by
    rintro c ⟨m, u, l, r⟩ h1 h2 h3 h4
    unfold view
    rw [isMarked_eq, isUsed_eq, leaf_eq, h1, h2, h3, h4]
  cases o with
  | setUnused =>
    refine ⟨_, rfl, ext4 _ _ ?_ ?_ ?_ ?_⟩
    · simp [view, Fields.step, isMarked_eq, hmU]
    · simp [Fields.step, hmU]
    · simp [view, Fields.step, leaf_eq, hmU]
    · exact refs_congr fun k hk => by
        have : k < 32 := by omega
        have h2 : k ≠ 30 := by omega
        simp [hmU k this, this, h2]
  | setMarked =>
    refine ⟨_, rfl, ext4 _ _ ?_ ?_ ?_ ?_⟩
    · simp [Fields.step, hmM]
    · simp [view, Fields.step, isUsed_eq, hmM]
    · simp [view, Fields.step, leaf_eq, hmM]
    · exact refs_congr fun k hk => by
        have : k < 32 := by omega
        have h2 : k ≠ 31 := by omega
        simp [show MarkM.getLsbD k = decide (k = 31) from getLsbD_mask 31 k this, h2]
  | setNotmarked =>
    refine ⟨_, rfl, ext4 _ _ ?_ ?_ ?_ ?_⟩
    · simp [Fields.step, hmM]
    · simp [view, Fields.step, isUsed_eq, hmM]
    · simp [view, Fields.step, leaf_eq, hmM]
    · exact refs_congr fun k hk => by
        have : k < 32 := by omega
        have h2 : k ≠ 31 := by omega
        simp [hmM k this, this, h2]
  | toggleMarked =>
    refine ⟨_, rfl, ext4 _ _ ?_ ?_ ?_ ?_⟩
    · simp [view, Fields.step, isMarked_eq, hmM]
    · simp [view, Fields.step, isUsed_eq, hmM]
    · simp [view, Fields.step, leaf_eq, hmM]
    · exact refs_congr fun k hk => by
        have : k < 32 := by omega
        have h2 : k ≠ 31 := by omega
        simp [show MarkM.getLsbD k = decide (k = 31) from getLsbD_mask 31 k this, h2]
  | incRefCount =>
    have hr := refs_eq b
    have hc : getRefCount b < RefsMax.toInt := by
      rw [hr, show RefsMax.toInt = 2 ^ 29 by decide]; omega
    refine ⟨b + 1, by simp [step, hc], ?_⟩
    have h1' : getRefCount b + 1 < 2 ^ 29 := h1
    rw [hr] at h1'
    have hb := b.isLt
    have hn : (b + 1).toNat = b.toNat + 1 := by
      rw [BitVec.toNat_add]
      show (b.toNat + 1) % 2 ^ 32 = _
      omega
    have hd : (b + 1).toNat / 2 ^ 29 = b.toNat / 2 ^ 29 := by rw [hn]; omega
    obtain ⟨e1, e2, e3⟩ := view_congr (b := b + 1) (c := b) fun k hk _ => testBit_high hd hk
    refine ext4 _ _ ?_ ?_ ?_ ?_
    · rw [← isMarked_eq]; exact e1
    · rw [← isUsed_eq]; exact e2
    · rw [← leaf_eq]; exact e3
    · rw [refs_eq, hn]
      show _ = getRefCount b + 1
      rw [hr]; omega
  | decRefCount =>
    have hr := refs_eq b
    have h0' : 0 ≤ getRefCount b - 1 := h0
    have hc : getRefCount b > 0 := by omega
    refine ⟨b - 1, by simp [step, hc], ?_⟩
    rw [hr] at h0'
    have hb := b.isLt
    have hn : (b - 1).toNat = b.toNat - 1 := by
      rw [BitVec.toNat_sub]
      show (2 ^ 32 - 1 + b.toNat) % 2 ^ 32 = _
      omega
    have hd : (b - 1).toNat / 2 ^ 29 = b.toNat / 2 ^ 29 := by rw [hn]; omega
    obtain ⟨e1, e2, e3⟩ := view_congr (b := b - 1) (c := b) fun k hk _ => testBit_high hd hk
    refine ext4 _ _ ?_ ?_ ?_ ?_
    · rw [← isMarked_eq]; exact e1
    · rw [← isUsed_eq]; exact e2
    · rw [← leaf_eq]; exact e3
    · rw [refs_eq, hn]
      show _ = getRefCount b - 1
      rw [hr]; omega

theorem steps_view (A : Bool) (os : List NodeOp) (b : Word) (h : (view b).Counts os) :
    ∃ b', steps A os b = .ok b' ∧ view b' = os.foldl (fun f o => f.step o) (view b) := by
  induction os generalizing b with
  | nil => exact ⟨b, rfl, rfl⟩
  | cons o os ih =>
    obtain ⟨h0, h1, h2⟩ := h
    obtain ⟨b', e, hv⟩ := step_view A o b h0 h1
    rw [← hv] at h2
    obtain ⟨b'', e', hv'⟩ := ih b' h2
    refine ⟨b'', ?_, ?_⟩
    · rw [steps, e]; exact e'
    · rw [hv', hv]; rfl

/-- Counting up `k` times adds `k` to the word. -/
theorem steps_inc (A : Bool) (k : Nat) (b : Word) :
    steps A (List.replicate k .incRefCount) b = .ok (b + BitVec.ofNat 32 k) := by
  induction k generalizing b with
  | zero => simp [steps]
  | succ k ih =>
    have hc : getRefCount b < RefsMax.toInt := by
      rw [refs_eq, show RefsMax.toInt = 2 ^ 29 by decide]; omega
    have e : step A .incRefCount b = .ok (b + 1) := by simp [step, hc]
    rw [List.replicate_succ, steps, e]
    refine (ih (b + 1)).trans (congrArg _ ?_)
    apply BitVec.eq_of_toNat_eq
    simp only [BitVec.toNat_add, BitVec.toNat_ofNat]
    show ((b.toNat + 1) % 2 ^ 32 + k % 2 ^ 32) % 2 ^ 32 = (b.toNat + (k + 1) % 2 ^ 32) % 2 ^ 32
    omega

end Bits
end Teddy
