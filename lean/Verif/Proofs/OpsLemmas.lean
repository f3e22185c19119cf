import Verif.ApiSpec
import Mathlib.Tactic.SplitIfs
import Mathlib.Tactic.IntervalCases

/-! The shipped operations are usable in `apply`. -/

namespace Teddy

/-- Terminal values below the two special ones. -/
def Vals (c : Cfg) (A : Int → Prop) : Prop := ∀ a, A a → TermOK c a ∧ a < Nondetermined

/-- Only 0 and 1. -/
def Bits (A : Int → Prop) : Prop := ∀ a, A a → a = 0 ∨ a = 1

section
variable {c : Cfg} {A B : Int → Prop}

theorem nd_val : Nondetermined = 2147483646 := rfl
theorem und_val : Undefined = 2147483647 := rfl

/-- A way to prove `OpOK` when the operation is a total function. -/
theorem OpOK.of_total {op : BinOp} (f : Int → Int → Int) (hf : ∀ a b, op.fn a b = .ok (f a b))
    (ndA : ∀ a, A a → a ≠ Nondetermined) (ndB : ∀ b, B b → b ≠ Nondetermined)
    (h1 : ∀ a' b', (A a' ∨ a' = Nondetermined) → (B b' ∨ b' = Nondetermined) →
      f a' b' = Nondetermined → a' = Nondetermined ∨ b' = Nondetermined)
    (h2 : ∀ a' b', (A a' ∨ a' = Nondetermined) → (B b' ∨ b' = Nondetermined) →
      f a' b' ≠ Nondetermined → TermOK c (f a' b'))
    (h3 : ∀ b' a b, A a → B b → (B b' ∨ b' = Nondetermined) → (b' = Nondetermined ∨ b = b') →
      f Nondetermined b' ≠ Nondetermined → f a b = f Nondetermined b')
    (h4 : ∀ a b, A a → B b → f a Nondetermined ≠ Nondetermined → f a b = f a Nondetermined)
    (hcomm : op.comm = true → ∀ a b, f a b = f b a) : OpOK c op A B where
  ndA := ndA
  ndB := ndB
  total := by
    intro a' b' ha hb
    refine ⟨f a' b', hf a' b', h1 a' b' ha hb, fun hv => ⟨h2 a' b' ha hb hv, ?_⟩⟩
    intro a b hA hB e1 e2
    rw [hf]
    congr 1
    rcases e1 with rfl | rfl
    · exact h3 b' a b hA hB hb e2 hv
    · rcases e2 with rfl | rfl
      · exact h4 a b hA hB hv
      · rfl
  comm := by
    intro hc a b _ _
    rw [hf, hf, hcomm hc]

theorem TermOK.of_le {a v : Int} (h : TermOK c a) (h0 : 0 ≤ v) (h1 : v ≤ a) : TermOK c v :=
  ⟨h0, fun ha m e => by have := h.2 ha m e; omega⟩

theorem Vals.ne (h : Vals c A) : ∀ a, A a → a ≠ Nondetermined := by
  intro a ha e
  have := (h a ha).2
  omega

theorem Bits.vals (h1 : TermOK c 1) (h : Bits A) : Vals c A := by
  intro a ha
  rcases h a ha with rfl | rfl
  · exact ⟨h1.of_le (by omega) (by omega), by rw [nd_val]; omega⟩
  · exact ⟨h1, by rw [nd_val]; omega⟩

theorem Vals.cases (h : Vals c A) {a : Int} (ha : A a ∨ a = Nondetermined) :
    (TermOK c a ∧ 0 ≤ a ∧ a < 2147483646) ∨ a = 2147483646 := by
  rcases ha with ha | rfl
  · exact Or.inl ⟨(h a ha).1, (h a ha).1.1, (h a ha).2⟩
  · exact Or.inr rfl

theorem Vals.rng (h : Vals c A) {a : Int} (ha : A a) : 0 ≤ a ∧ a < 2147483646 :=
  ⟨(h a ha).1.1, (h a ha).2⟩

/-- Operations whose value is one of the operands. -/
theorem OpOK.of_select {op : BinOp} (f : Int → Int → Int) (hf : ∀ a b, op.fn a b = .ok (f a b))
    (hA : Vals c A) (hB : Vals c B)
    (h1 : ∀ a b, f a b = a ∨ f a b = b)
    (h3 : ∀ a b, 0 ≤ a → 0 ≤ b → A a → B b →
      f Nondetermined b ≠ Nondetermined → f a b = f Nondetermined b)
    (h4 : ∀ a b, 0 ≤ a → 0 ≤ b → A a → B b →
      f a Nondetermined ≠ Nondetermined → f a b = f a Nondetermined)
    (hcomm : op.comm = true → ∀ a b, f a b = f b a) : OpOK c op A B := by
  refine OpOK.of_total f hf hA.ne hB.ne ?_ ?_ ?_ ?_ hcomm
  · intro a b _ _ e
    rcases h1 a b with h | h
    · exact Or.inl (h.symm.trans e)
    · exact Or.inr (h.symm.trans e)
  · intro a b ha hb hv
    rcases h1 a b with h | h
    · rw [h] at hv ⊢
      rcases ha with ha | ha
      · exact (hA a ha).1
      · exact absurd ha hv
    · rw [h] at hv ⊢
      rcases hb with hb | hb
      · exact (hB b hb).1
      · exact absurd hb hv
  · intro b' a b hA' hB' hb' e hv
    rcases e with rfl | rfl
    · rcases h1 Nondetermined Nondetermined with h | h <;> exact absurd h hv
    · exact h3 a b (hA.rng hA').1 (hB.rng hB').1 hA' hB' hv
  · intro a b hA' hB' hv
    exact h4 a b (hA.rng hA').1 (hB.rng hB').1 hA' hB' hv

theorem opOK_AND (hA : Vals c A) (hB : Vals c B) : OpOK c Op.AND A B := by
  refine OpOK.of_select (fun l r => if min32 l r = 0 then min32 l r else max32 l r)
    (fun _ _ => rfl) hA hB ?_ ?_ ?_ ?_
  · intro a b; simp only [min32, max32]; split_ifs <;> omega
  · intro a b ha hb hA' hB'
    have := hA.rng hA'; have := hB.rng hB'
    simp only [min32, max32, nd_val]; split_ifs <;> omega
  · intro a b ha hb hA' hB'
    have := hA.rng hA'; have := hB.rng hB'
    simp only [min32, max32, nd_val]; split_ifs <;> omega
  · intro _ a b; simp only [min32, max32]; split_ifs <;> omega

theorem opOK_MIN (hA : Vals c A) (hB : Vals c B) : OpOK c Op.MIN A B := by
  refine OpOK.of_select (fun l r => if min32 l r = 0 ∨ max32 l r ≠ Nondetermined then min32 l r
    else max32 l r) (fun _ _ => rfl) hA hB ?_ ?_ ?_ ?_
  · intro a b; simp only [min32, max32]; split_ifs <;> omega
  · intro a b ha hb hA' hB'
    have := hA.rng hA'; have := hB.rng hB'
    simp only [min32, max32, nd_val]; split_ifs <;> omega
  · intro a b ha hb hA' hB'
    have := hA.rng hA'; have := hB.rng hB'
    simp only [min32, max32, nd_val]; split_ifs <;> omega
  · intro _ a b; simp only [min32, max32]; split_ifs <;> omega

theorem opOK_MAX (hA : Vals c A) (hB : Vals c B) : OpOK c Op.MAX A B := by
  refine OpOK.of_select max32 (fun _ _ => rfl) hA hB ?_ ?_ ?_ ?_
  · intro a b; simp only [max32]; split_ifs <;> omega
  · intro a b ha hb hA' hB'
    have := hA.rng hA'; have := hB.rng hB'
    simp only [max32, nd_val]; split_ifs <;> omega
  · intro a b ha hb hA' hB'
    have := hA.rng hA'; have := hB.rng hB'
    simp only [max32, nd_val]; split_ifs <;> omega
  · intro _ a b; simp only [max32]; split_ifs <;> omega

/-- The bounded maximum, on values below the bound. -/
theorem opOK_MAXB {M : Int} (hA : Vals c A) (hB : Vals c B)
    (hAM : ∀ a, A a → a < M) (hBM : ∀ b, B b → b < M) (hM : M ≤ Nondetermined)
    : OpOK c (Op.MAXB M) A B := by
  refine OpOK.of_select (fun l r => if l = M - 1 ∨ r = M - 1 then M - 1 else max32 l r)
    (fun _ _ => rfl) hA hB ?_ ?_ ?_ ?_
  · intro a b; simp only [max32]; split_ifs <;> omega
  · intro a b ha hb hA' hB'
    have := hA.rng hA'; have := hB.rng hB'; have := hAM a hA'; have := hBM b hB'
    simp only [nd_val] at hM
    simp only [max32, nd_val]; split_ifs <;> omega
  · intro a b ha hb hA' hB'
    have := hA.rng hA'; have := hB.rng hB'; have := hAM a hA'; have := hBM b hB'
    simp only [nd_val] at hM
    simp only [max32, nd_val]; split_ifs <;> omega
  · intro _ a b; simp only [max32]; split_ifs <;> omega

theorem opOK_OR (h1 : TermOK c 1) (hA : Bits A) (hB : Bits B) : OpOK c Op.OR A B := by
  refine OpOK.of_select (fun l r => if min32 l r = 0 then max32 l r else min32 l r)
    (fun _ _ => rfl) (hA.vals h1) (hB.vals h1) ?_ ?_ ?_ ?_
  · intro a b; simp only [min32, max32]; split_ifs <;> omega
  · intro a b ha hb hA' hB'
    have := hA a hA'; have := hB b hB'
    simp only [min32, max32, nd_val]; split_ifs <;> omega
  · intro a b ha hb hA' hB'
    have := hA a hA'; have := hB b hB'
    simp only [min32, max32, nd_val]; split_ifs <;> omega
  · intro _ a b; simp only [min32, max32]; split_ifs <;> omega

/-- Comparisons: 0 or 1 once both operands are known. -/
theorem OpOK.of_compare {op : BinOp} (g : Int → Int → Bool)
    (hf : ∀ a b, op.fn a b = .ok (if max32 a b = Nondetermined then Nondetermined else b2i (g a b)))
    (h1 : TermOK c 1) (hA : Vals c A) (hB : Vals c B)
    (hcomm : op.comm = true → ∀ a b, g a b = g b a) : OpOK c op A B := by
  have hb : ∀ b, b2i b = 0 ∨ b2i b = 1 := by intro b; cases b <;> simp [b2i]
  refine OpOK.of_total _ hf hA.ne hB.ne ?_ ?_ ?_ ?_ ?_
  · intro a b ha hb' e
    have hg := hb (g a b)
    simp only [max32, nd_val] at e ⊢
    split_ifs at e <;> omega
  · intro a b ha hb' hv
    have hg := hb (g a b)
    simp only [nd_val] at hv ⊢
    split_ifs at hv ⊢
    · omega
    · exact h1.of_le (by omega) (by omega)
  · intro b' a b hA' hB' hb' _ hv
    exfalso
    have := hB.cases hb'
    simp only [max32, nd_val] at hv
    split_ifs at hv <;> omega
  · intro a b hA' hB' hv
    exfalso
    have := hA.rng hA'
    simp only [max32, nd_val] at hv
    split_ifs at hv <;> omega
  · intro hc a b
    rw [hcomm hc a b]
    have : max32 a b = max32 b a := by simp only [max32]; split_ifs <;> omega
    rw [this]

theorem ite_nd {p : Int} {x : Int} : (if p = Nondetermined then p else x) =
    (if p = Nondetermined then Nondetermined else x) := by
  split_ifs with h
  · exact h
  · rfl

theorem opOK_XNOR (h1 : TermOK c 1) (hA : Vals c A) (hB : Vals c B) : OpOK c Op.XNOR A B :=
  .of_compare (fun l r => l == r) (fun a b => congrArg _ ite_nd) h1 hA hB
    (fun _ a b => by simp [Bool.beq_comm])

theorem opOK_EQUAL_TO (h1 : TermOK c 1) (hA : Vals c A) (hB : Vals c B) : OpOK c Op.EQUAL_TO A B :=
  .of_compare (fun l r => l == r) (fun a b => congrArg _ ite_nd) h1 hA hB
    (fun _ a b => by simp [Bool.beq_comm])

theorem opOK_NOT_EQUAL_TO (h1 : TermOK c 1) (hA : Vals c A) (hB : Vals c B) :
    OpOK c Op.NOT_EQUAL_TO A B :=
  .of_compare (fun l r => l != r) (fun a b => congrArg _ ite_nd) h1 hA hB
    (fun _ a b => by simp [bne, Bool.beq_comm])

theorem opOK_LESS (h1 : TermOK c 1) (hA : Vals c A) (hB : Vals c B) : OpOK c Op.LESS A B :=
  .of_compare (fun l r => decide (l < r)) (fun a b => congrArg _ ite_nd) h1 hA hB
    (fun h => by simp [Op.LESS] at h)

theorem opOK_LESS_EQUAL (h1 : TermOK c 1) (hA : Vals c A) (hB : Vals c B) :
    OpOK c Op.LESS_EQUAL A B :=
  .of_compare (fun l r => decide (l ≤ r)) (fun a b => congrArg _ ite_nd) h1 hA hB
    (fun h => by simp [Op.LESS_EQUAL] at h)

theorem opOK_GREATER (h1 : TermOK c 1) (hA : Vals c A) (hB : Vals c B) : OpOK c Op.GREATER A B :=
  .of_compare (fun l r => decide (l > r)) (fun a b => congrArg _ ite_nd) h1 hA hB
    (fun h => by simp [Op.GREATER] at h)

theorem opOK_GREATER_EQUAL (h1 : TermOK c 1) (hA : Vals c A) (hB : Vals c B) :
    OpOK c Op.GREATER_EQUAL A B :=
  .of_compare (fun l r => decide (l ≥ r)) (fun _ _ => rfl) h1 hA hB
    (fun h => by simp [Op.GREATER_EQUAL] at h)

theorem opOK_IMPLIES (h1 : TermOK c 1) (hA : Vals c A) (hB : Vals c B) : OpOK c Op.IMPLIES A B := by
  have hb : ∀ b, b2i b = 0 ∨ b2i b = 1 := by intro b; cases b <;> simp [b2i]
  refine OpOK.of_total (fun l r => if l = 0 then 1 else if max32 l r = Nondetermined then
    Nondetermined else b2i (l == 0 || r != 0)) (fun _ _ => rfl) hA.ne hB.ne ?_ ?_ ?_ ?_ ?_
  · intro a b ha hb' e
    have hg := hb (a == 0 || b != 0)
    simp only [max32, nd_val] at e ⊢
    split_ifs at e <;> omega
  · intro a b ha hb' hv
    have hg := hb (a == 0 || b != 0)
    simp only [nd_val] at hv ⊢
    split_ifs at hv ⊢
    · exact h1
    · omega
    · exact h1.of_le (by omega) (by omega)
  · intro b' a b hA' hB' hb' _ hv
    exfalso
    have := hB.cases hb'
    simp only [max32, nd_val] at hv
    split_ifs at hv <;> omega
  · intro a b hA' hB' hv
    have := hA.rng hA'
    by_cases h0 : a = 0
    · simp [h0]
    · exfalso
      rw [if_neg h0] at hv
      simp only [max32, nd_val] at hv
      split_ifs at hv <;> omega
  · intro h; simp [Op.IMPLIES] at h

/-- Operations on 0 and 1: a finite table. -/
theorem OpOK.of_bits {op : BinOp} (h1 : TermOK c 1) (hA : Bits A) (hB : Bits B)
    (ht : ∀ a' ∈ [0, 1, Nondetermined], ∀ b' ∈ [0, 1, Nondetermined],
      ∃ v ∈ [0, 1, Nondetermined], op.fn a' b' = .ok v ∧
        (v = Nondetermined → a' = Nondetermined ∨ b' = Nondetermined) ∧
        (v ≠ Nondetermined → ∀ a ∈ [0, 1], ∀ b ∈ [0, 1], (a' = Nondetermined ∨ a = a') →
          (b' = Nondetermined ∨ b = b') → op.fn a b = .ok v))
    (hc : ∀ a ∈ [0, 1], ∀ b ∈ [0, 1], op.fn a b = op.fn b a) : OpOK c op A B where
  ndA := (hA.vals h1).ne
  ndB := (hB.vals h1).ne
  total := by
    have mA : ∀ a, (A a ∨ a = Nondetermined) → a ∈ [0, 1, Nondetermined] := by
      rintro a (ha | rfl)
      · rcases hA a ha with rfl | rfl <;> simp
      · simp
    have mB : ∀ a, (B a ∨ a = Nondetermined) → a ∈ [0, 1, Nondetermined] := by
      rintro a (ha | rfl)
      · rcases hB a ha with rfl | rfl <;> simp
      · simp
    intro a' b' ha hb
    obtain ⟨v, hv, e, h2, h3⟩ := ht a' (mA a' ha) b' (mB b' hb)
    refine ⟨v, e, h2, fun hne => ⟨?_, ?_⟩⟩
    · simp only [List.mem_cons, List.not_mem_nil, or_false] at hv
      rcases hv with rfl | rfl | rfl
      · exact h1.of_le (by omega) (by omega)
      · exact h1
      · exact absurd rfl hne
    · intro a b hA' hB' e1 e2
      refine h3 hne a ?_ b ?_ e1 e2
      · rcases hA a hA' with rfl | rfl <;> simp
      · rcases hB b hB' with rfl | rfl <;> simp
  comm := by
    intro _ a b hA' hB'
    refine hc a ?_ b ?_
    · rcases hA a hA' with rfl | rfl <;> simp
    · rcases hB b hB' with rfl | rfl <;> simp

instance : DecidableEq (Except Err Int) := fun a b =>
  match a, b with
  | .ok x, .ok y => if h : x = y then isTrue (by rw [h]) else isFalse (by simpa using h)
  | .error x, .error y => if h : x = y then isTrue (by rw [h]) else isFalse (by simpa using h)
  | .ok _, .error _ => isFalse (by simp)
  | .error _, .ok _ => isFalse (by simp)

theorem opOK_XOR (h1 : TermOK c 1) (hA : Bits A) (hB : Bits B) : OpOK c Op.XOR A B :=
  .of_bits h1 hA hB (by decide +kernel) (by decide +kernel)

theorem opOK_NAND (h1 : TermOK c 1) (hA : Bits A) (hB : Bits B) : OpOK c Op.NAND A B :=
  .of_bits h1 hA hB (by decide +kernel) (by decide +kernel)

theorem opOK_NOR (h1 : TermOK c 1) (hA : Bits A) (hB : Bits B) : OpOK c Op.NOR A B :=
  .of_bits h1 hA hB (by decide +kernel) (by decide +kernel)

/-- `PI_CONJ` on 0, 1 and the special value `Undefined`. -/
theorem opOK_PI_CONJ (h1 : TermOK c 1) (hU : TermOK c Undefined)
    (hA : ∀ a, A a → a = 0 ∨ a = 1 ∨ a = Undefined)
    (hB : ∀ a, B a → a = 0 ∨ a = 1 ∨ a = Undefined) : OpOK c Op.PI_CONJ A B := by
  have z : TermOK c 0 := h1.of_le (by omega) (by omega)
  refine OpOK.of_total (fun l r => if min32 l r = 0 then min32 l r else
    if max32 l r = Undefined then min32 l r else max32 l r) (fun _ _ => rfl) ?_ ?_ ?_ ?_ ?_ ?_ ?_
  · intro a ha e; have := hA a ha; simp only [nd_val, und_val] at *; omega
  · intro a ha e; have := hB a ha; simp only [nd_val, und_val] at *; omega
  · intro a b ha hb e
    simp only [min32, max32, nd_val, und_val] at *
    split_ifs at e <;> omega
  · intro a b ha hb hv
    have ha' : a = 0 ∨ a = 1 ∨ a = Undefined ∨ a = Nondetermined := by
      rcases ha with ha | ha
      · have := hA a ha; tauto
      · tauto
    have hb' : b = 0 ∨ b = 1 ∨ b = Undefined ∨ b = Nondetermined := by
      rcases hb with hb | hb
      · have := hB b hb; tauto
      · tauto
    rcases ha' with rfl | rfl | rfl | rfl <;> rcases hb' with rfl | rfl | rfl | rfl <;>
      simp [min32, max32, nd_val, und_val] at hv ⊢ <;> first | exact z | exact h1 | exact hU
  · intro b' a b hA' hB' hb' e hv
    have h := hA a hA'; have h' := hB b hB'
    have hb'' : b' = 0 ∨ b' = 1 ∨ b' = Undefined ∨ b' = Nondetermined := by
      rcases hb' with hb | hb
      · have := hB b' hb; tauto
      · tauto
    rcases h with rfl | rfl | rfl <;> rcases h' with rfl | rfl | rfl <;>
      rcases hb'' with rfl | rfl | rfl | rfl <;>
      simp [min32, max32, nd_val, und_val] at hv e ⊢
  · intro a b hA' hB' hv
    have h := hA a hA'; have h' := hB b hB'
    rcases h with rfl | rfl | rfl <;> rcases h' with rfl | rfl | rfl <;>
      simp [min32, max32, nd_val, und_val] at hv ⊢
  · intro _ a b; simp only [min32, max32]; split_ifs <;> omega

theorem wrap32_eq {v : Int} (h0 : 0 ≤ v) (h1 : v < 2147483648) : wrap32 v = v := by
  unfold wrap32
  rw [BitVec.toInt_ofInt]
  exact Int.bmod_eq_of_le (by norm_num; omega) (by norm_num; omega)

/-- `PLUS<M>` with wrap-around arithmetic. -/
theorem opOK_PLUSwrap {M : Int} (hM : 0 < M) (hM' : M ≤ 1073741824) (ht : TermOK c (M - 1))
    (hA : ∀ a, A a → 0 ≤ a ∧ a < M) (hB : ∀ b, B b → 0 ≤ b ∧ b < M) :
    OpOK c (Op.PLUSwrap M) A B := by
  have hsum : ∀ a b, A a → B b → 0 ≤ Int.tmod (wrap32 (a + b)) M ∧
      Int.tmod (wrap32 (a + b)) M < M := by
    intro a b ha hb
    have := hA a ha; have := hB b hb
    rw [wrap32_eq (by omega) (by omega)]
    exact ⟨Int.tmod_nonneg _ (by omega), Int.tmod_lt_of_pos _ hM⟩
  refine OpOK.of_total (fun l r => if max32 l r = Nondetermined then max32 l r else
    Int.tmod (wrap32 (l + r)) M) (fun _ _ => rfl) ?_ ?_ ?_ ?_ ?_ ?_ ?_
  · intro a ha e; have := hA a ha; rw [nd_val] at e; omega
  · intro a ha e; have := hB a ha; rw [nd_val] at e; omega
  · intro a b ha hb e
    rcases ha with ha | ha
    · rcases hb with hb | hb
      · have := hsum a b ha hb
        have := hA a ha; have := hB b hb
        rw [if_neg (by simp only [max32, nd_val]; split_ifs <;> omega), nd_val] at e
        omega
      · exact Or.inr hb
    · exact Or.inl ha
  · intro a b ha hb hv
    rcases ha with ha | rfl
    · rcases hb with hb | rfl
      · have := hsum a b ha hb
        have := hA a ha; have := hB b hb
        rw [if_neg (by simp only [max32, nd_val]; split_ifs <;> omega)]
        exact ht.of_le (by omega) (by omega)
      · have := hA a ha
        exact absurd (by simp only [max32, nd_val]; split_ifs <;> omega) hv
    · rcases hb with hb | rfl
      · have := hB b hb
        exact absurd (by simp only [max32, nd_val]; split_ifs <;> omega) hv
      · exact absurd (by simp [max32]) hv
  · intro b' a b ha hb hb' _ hv
    refine absurd ?_ hv
    rcases hb' with hb' | rfl
    · have := hB b' hb'
      simp only [max32, nd_val]; split_ifs <;> omega
    · simp [max32]
  · intro a b ha hb hv
    refine absurd ?_ hv
    have := hA a ha
    simp only [max32, nd_val]; split_ifs <;> omega
  · intro _ a b
    have : max32 a b = max32 b a := by simp only [max32]; split_ifs <;> omega
    rw [this, Int.add_comm]

/-- `MULTIPLIES<M>` with wrap-around arithmetic. -/
theorem opOK_MULTIPLIESwrap {M : Int} (hM : 0 < M) (hM' : M ≤ 46341) (ht : TermOK c (M - 1))
    (hA : ∀ a, A a → 0 ≤ a ∧ a < M) (hB : ∀ b, B b → 0 ≤ b ∧ b < M) :
    OpOK c (Op.MULTIPLIESwrap M) A B := by
  have hprod : ∀ a b, A a → B b → 0 ≤ Int.tmod (wrap32 (a * b)) M ∧
      Int.tmod (wrap32 (a * b)) M < M := by
    intro a b ha hb
    have := hA a ha; have := hB b hb
    have h1 : 0 ≤ a * b := Int.mul_nonneg (by omega) (by omega)
    have h2 : a * b ≤ 46340 * 46340 := Int.mul_le_mul (by omega) (by omega) (by omega) (by omega)
    rw [wrap32_eq h1 (by omega)]
    exact ⟨Int.tmod_nonneg _ h1, Int.tmod_lt_of_pos _ hM⟩
  have z : TermOK c 0 := ht.of_le (by omega) (by omega)
  refine OpOK.of_total (fun l r => if min32 l r = 0 then 0 else if max32 l r = Nondetermined then
    Nondetermined else Int.tmod (wrap32 (l * r)) M) (fun _ _ => rfl) ?_ ?_ ?_ ?_ ?_ ?_ ?_
  · intro a ha e; have := hA a ha; rw [nd_val] at e; omega
  · intro a ha e; have := hB a ha; rw [nd_val] at e; omega
  · intro a b ha hb e
    rcases ha with ha | ha
    · rcases hb with hb | hb
      · have := hprod a b ha hb
        have := hA a ha; have := hB b hb
        rw [if_neg (c := max32 a b = Nondetermined)
          (by simp only [max32, nd_val]; split_ifs <;> omega), nd_val] at e
        split_ifs at e <;> omega
      · exact Or.inr hb
    · exact Or.inl ha
  · intro a b ha hb hv
    by_cases h0 : min32 a b = 0
    · rw [if_pos h0]; exact z
    · rw [if_neg h0] at hv ⊢
      by_cases h1 : max32 a b = Nondetermined
      · rw [if_pos h1] at hv; exact absurd rfl hv
      · rw [if_neg h1]
        rcases ha with ha | rfl
        · rcases hb with hb | rfl
          · have := hprod a b ha hb
            exact ht.of_le (by omega) (by omega)
          · have := hA a ha
            exact absurd (by simp only [max32, nd_val]; split_ifs <;> omega) h1
        · rcases hb with hb | rfl
          · have := hB b hb
            exact absurd (by simp only [max32, nd_val]; split_ifs <;> omega) h1
          · exact absurd (by simp [max32]) h1
  · intro b' a b ha hb hb' e hv
    have hmin : min32 Nondetermined b' = 0 := by
      by_contra hc
      rw [if_neg hc, if_pos] at hv
      · exact hv rfl
      · rcases hb' with hb' | rfl
        · have := hB b' hb'
          simp only [max32, nd_val]; split_ifs <;> omega
        · simp [max32]
    have hb0 : b' = 0 := by
      simp only [min32, nd_val] at hmin; split_ifs at hmin <;> omega
    have : b = 0 := by
      rcases e with e | e
      · rw [hb0, nd_val] at e; omega
      · rw [e, hb0]
    have h3 := hA a ha
    rw [if_pos hmin, if_pos (by simp only [min32]; split_ifs <;> omega)]
  · intro a b ha hb hv
    have h3 := hA a ha; have h4 := hB b hb
    have hmin : min32 a Nondetermined = 0 := by
      by_contra hc
      rw [if_neg hc, if_pos] at hv
      · exact hv rfl
      · simp only [max32, nd_val]; split_ifs <;> omega
    have ha0 : a = 0 := by
      simp only [min32, nd_val] at hmin; split_ifs at hmin <;> omega
    rw [if_pos hmin, if_pos (by simp only [min32]; split_ifs <;> omega)]
  · intro _ a b
    have h1 : max32 a b = max32 b a := by simp only [max32]; split_ifs <;> omega
    have h2 : min32 a b = min32 b a := by simp only [min32]; split_ifs <;> omega
    rw [h1, h2, Int.mul_comm]

/-- An operation usable in `apply` on a set of values closed under it is usable in `apply_n`. -/
theorem NOpOK.of_op {op : BinOp} {D : Int → Prop} (h : OpOK c op D D) (hne : ∃ a, D a)
    (hcl : ∀ a b v, D a → D b → op.fn a b = .ok v → D v) (hD : ∀ a, D a → TermOK c a) :
    ∀ {As : List (Int → Prop)}, As ≠ [] → (∀ A ∈ As, ∀ a, A a → D a) →
      NOpOK c op.nary As := by
  intro As hAs hsub
  refine ⟨fun A hA a ha => h.ndA a (hsub A hA a ha), ?_⟩
  suffices hm : ∀ vs', List.Forall₂ (fun A v => A v ∨ v = Nondetermined) As vs' →
      ∃ v, op.nary vs' = .ok v ∧ (v = Nondetermined ∨ D v) ∧ (v = Nondetermined → Nondetermined ∈ vs') ∧
      (v ≠ Nondetermined → ∀ ws, List.Forall₂ (fun A w => A w) As ws →
        List.Forall₂ (fun v' w => v' = Nondetermined ∨ w = v') vs' ws → op.nary ws = .ok v) by
    intro vs' hvs
    obtain ⟨v, e1, e2, e3, e4⟩ := hm vs' hvs
    refine ⟨v, e1, e3, fun hv => ⟨hD v (e2.resolve_left hv), e4 hv⟩⟩
  obtain ⟨d, hd⟩ := hne
  have hmem : ∀ {Bs : List (Int → Prop)} {ws : List Int}, List.Forall₂ (fun A w => A w) Bs ws →
      ∀ w ∈ ws, ∃ A ∈ Bs, A w := by
    intro Bs ws hf
    induction hf with
    | nil => intro w hw; simp at hw
    | cons h1 _ ih =>
        intro w hw
        rcases List.mem_cons.1 hw with rfl | hw
        · exact ⟨_, List.mem_cons_self, h1⟩
        · obtain ⟨A, hA, hw⟩ := ih w hw
          exact ⟨A, List.mem_cons_of_mem _ hA, hw⟩
  have himp : ∀ {Bs : List (Int → Prop)} {ws : List Int}, List.Forall₂ (fun A w => A w) Bs ws →
      List.Forall₂ (fun A v => A v ∨ v = Nondetermined) Bs ws := by
    intro Bs ws hf
    induction hf with
    | nil => exact .nil
    | cons h1 _ ih => exact .cons (Or.inl h1) ih
  induction As with
  | nil => exact absurd rfl hAs
  | cons A As ih =>
      intro vs' hvs
      cases hvs with
      | @cons _ t _ ts ht hts =>
          have ht' : D t ∨ t = Nondetermined := ht.imp (hsub A List.mem_cons_self t) id
          cases As with
          | nil =>
              cases hts
              refine ⟨t, rfl, ht'.symm, fun e => by rw [e]; exact List.mem_cons_self, ?_⟩
              intro hv ws hw hvw
              cases hw with
              | @cons _ w _ ws hw hws =>
                  cases hws
                  cases hvw with
                  | cons e _ => rw [e.resolve_left hv]; rfl
          | cons A' As =>
              obtain ⟨r, e1, e2, e3, e4⟩ := ih (by simp)
                (fun B hB => hsub B (List.mem_cons_of_mem _ hB)) ts hts
              obtain ⟨v, f1, f2, f3⟩ := h.total t r ht' e2.symm
              have hn : op.nary (t :: ts) = .ok v := by
                cases ts with
                | nil => cases hts
                | cons t' ts =>
                    show (do let r ← op.nary (t' :: ts); op.fn t r) = _
                    rw [e1]; exact f1
              refine ⟨v, hn, ?_, ?_, ?_⟩
              · by_cases hv : v = Nondetermined
                · exact Or.inl hv
                · right
                  have key : ∀ y : Int, (D y ∨ y = Nondetermined) →
                      ∃ a, D a ∧ (y = Nondetermined ∨ a = y) := by
                    intro y hy
                    rcases hy with hy | hy
                    · exact ⟨y, hy, Or.inr rfl⟩
                    · exact ⟨d, hd, Or.inl hy⟩
                  obtain ⟨a, ha, ha'⟩ := key t ht'
                  obtain ⟨b, hb, hb'⟩ := key r e2.symm
                  exact hcl a b v ha hb ((f3 hv).2 a b ha hb ha' hb')
              · intro hv
                rcases f2 hv with h1 | h1
                · rw [h1]; exact List.mem_cons_self
                · exact List.mem_cons_of_mem _ (e3 h1)
              · intro hv ws hw hvw
                cases hw with
                | @cons _ w _ ws hw hws =>
                    cases hvw with
                    | cons htw hvw =>
                        obtain ⟨r', g1, g2, g3, _⟩ := ih (by simp)
                          (fun B hB => hsub B (List.mem_cons_of_mem _ hB)) ws
                          (himp hws)
                        have hr' : r' ≠ Nondetermined := by
                          intro hc
                          obtain ⟨B, hB, hb⟩ := hmem hws _ (g3 hc)
                          exact h.ndA _ (hsub B (List.mem_cons_of_mem _ hB) _ hb) rfl
                        have hrr : r = Nondetermined ∨ r' = r := by
                          by_cases hr : r = Nondetermined
                          · exact Or.inl hr
                          · right
                            have := e4 hr ws hws hvw
                            rw [g1] at this
                            cases this; rfl
                        have := (f3 hv).2 w r' (hsub A List.mem_cons_self w hw)
                          (g2.resolve_left hr') htw hrr
                        cases ws with
                        | nil => cases hws
                        | cons w' ws =>
                            show (do let r ← op.nary (w' :: ws); op.fn w r) = _
                            rw [g1]; exact this

end

end Teddy
