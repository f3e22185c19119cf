import Verif.Demo
import Verif.Proofs.ApplyCongr

/-!
# The shipped operations
-/

namespace Teddy
namespace Properties

open SM Spec

variable {P : Setup} {w : World} {σ : SState}

/-! ### C21 operations

`OpOK c op A B` (ApiSpec.lean) says that the operation is defined on all values of `A` × `B`, also when
one or both are replaced by `Nondetermined`, that it answers early only if all completions agree,
that answers are valid terminal values, and that it is commutative if flagged so. -/

/-- Operations on arbitrary values. -/
theorem C21_values_partial {c : Cfg} {A B : Int → Prop} (h1 : TermOK c 1)
    (hA : ∀ a, A a → TermOK c a ∧ a < Nondetermined)
    (hB : ∀ b, B b → TermOK c b ∧ b < Nondetermined) :
    OpOK c Op.AND A B ∧ OpOK c Op.MIN A B ∧ OpOK c Op.MAX A B ∧ OpOK c Op.XNOR A B ∧
    OpOK c Op.EQUAL_TO A B ∧ OpOK c Op.NOT_EQUAL_TO A B ∧ OpOK c Op.LESS A B ∧
    OpOK c Op.LESS_EQUAL A B ∧ OpOK c Op.GREATER A B ∧ OpOK c Op.GREATER_EQUAL A B ∧
    OpOK c Op.IMPLIES A B :=
  ⟨opOK_AND hA hB, opOK_MIN hA hB, opOK_MAX hA hB, opOK_XNOR h1 hA hB, opOK_EQUAL_TO h1 hA hB,
    opOK_NOT_EQUAL_TO h1 hA hB, opOK_LESS h1 hA hB, opOK_LESS_EQUAL h1 hA hB, opOK_GREATER h1 hA hB,
    opOK_GREATER_EQUAL h1 hA hB, opOK_IMPLIES h1 hA hB⟩

/-- Logical operations on 0 and 1. -/
theorem C21_bits_partial {c : Cfg} {A B : Int → Prop} (h1 : TermOK c 1)
    (hA : ∀ a, A a → a = 0 ∨ a = 1) (hB : ∀ b, B b → b = 0 ∨ b = 1) :
    OpOK c Op.OR A B ∧ OpOK c Op.XOR A B ∧ OpOK c Op.NAND A B ∧ OpOK c Op.NOR A B :=
  ⟨opOK_OR h1 hA hB, opOK_XOR h1 hA hB, opOK_NAND h1 hA hB, opOK_NOR h1 hA hB⟩

/-- `PI_CONJ` on 0, 1 and `Undefined`. -/
theorem C21_pi_conj_partial {c : Cfg} {A B : Int → Prop} (h1 : TermOK c 1) (hU : TermOK c Undefined)
    (hA : ∀ a, A a → a = 0 ∨ a = 1 ∨ a = Undefined)
    (hB : ∀ a, B a → a = 0 ∨ a = 1 ∨ a = Undefined) : OpOK c Op.PI_CONJ A B :=
  opOK_PI_CONJ h1 hU hA hB

/-- `MAXB<M>` on values below `M`. -/
theorem C21_maxb_partial {c : Cfg} {A B : Int → Prop} {M : Int} (hM : M ≤ Nondetermined)
    (hA : ∀ a, A a → TermOK c a ∧ a < Nondetermined ∧ a < M)
    (hB : ∀ b, B b → TermOK c b ∧ b < Nondetermined ∧ b < M) : OpOK c (Op.MAXB M) A B :=
  opOK_MAXB (fun a h => ⟨(hA a h).1, (hA a h).2.1⟩) (fun a h => ⟨(hB a h).1, (hB a h).2.1⟩)
    (fun a h => (hA a h).2.2) (fun a h => (hB a h).2.2) hM

/-- `PLUS<M>` and `MULTIPLIES<M>` if signed arithmetic wraps around (it is undefined behaviour in the
standard, see `C21_plus_overflows`). -/
theorem C21_modular_partial {c : Cfg} {A B : Int → Prop} {M : Int} (hM : 0 < M)
    (ht : TermOK c (M - 1)) (hA : ∀ a, A a → 0 ≤ a ∧ a < M) (hB : ∀ b, B b → 0 ≤ b ∧ b < M) :
    (M ≤ 1073741824 → OpOK c (Op.PLUSwrap M) A B) ∧
    (M ≤ 46341 → OpOK c (Op.MULTIPLIESwrap M) A B) :=
  ⟨fun h => opOK_PLUSwrap hM h ht hA hB, fun h => opOK_MULTIPLIESwrap hM h ht hA hB⟩

/-- The hypotheses are met in the Boolean manager `bdd3` by the sets of all its values. -/
example : OpOK bdd3.c Op.IMPLIES (fun a => a = 0 ∨ a = 1) (fun a => a = 0 ∨ a = 1) ∧
    OpOK bdd3.c Op.XOR (fun a => a = 0 ∨ a = 1) (fun a => a = 0 ∨ a = 1) := by
  have hb : ∀ a : Int, (a = 0 ∨ a = 1) → TermOK bdd3.c a ∧ a < Nondetermined := fun a h =>
    Bits.vals term1_bdd3 (fun _ h => h) a h
  exact ⟨(C21_values_partial term1_bdd3 hb hb).2.2.2.2.2.2.2.2.2.2,
    (C21_bits_partial term1_bdd3 (fun _ h => h) (fun _ h => h)).2.1⟩

/-- What the logical operations compute on truth values. -/
theorem C21_boolean_tables (a b : Bool) :
    Op.AND.val (b2i a) (b2i b) = b2i (a && b) ∧ Op.OR.val (b2i a) (b2i b) = b2i (a || b) ∧
    Op.XOR.val (b2i a) (b2i b) = b2i (a ^^ b) ∧ Op.NAND.val (b2i a) (b2i b) = b2i (!(a && b)) ∧
    Op.NOR.val (b2i a) (b2i b) = b2i (!(a || b)) ∧ Op.XNOR.val (b2i a) (b2i b) = b2i (a == b) ∧
    Op.IMPLIES.val (b2i a) (b2i b) = b2i (!a || b) := by
  cases a <;> cases b <;> decide +kernel

/-- What the comparisons, minimum and maximum compute. -/
theorem C21_integer_tables {a b : Int} (ha : 0 ≤ a) (ha' : a < Nondetermined) (hb : 0 ≤ b)
    (hb' : b < Nondetermined) :
    Op.MIN.val a b = min a b ∧ Op.MAX.val a b = max a b ∧
    Op.EQUAL_TO.val a b = (if a = b then 1 else 0) ∧
    Op.NOT_EQUAL_TO.val a b = (if a = b then 0 else 1) ∧
    Op.LESS.val a b = (if a < b then 1 else 0) ∧ Op.LESS_EQUAL.val a b = (if a ≤ b then 1 else 0) ∧
    Op.GREATER.val a b = (if a > b then 1 else 0) ∧
    Op.GREATER_EQUAL.val a b = (if a ≥ b then 1 else 0) := by
  have hm : max32 a b ≠ Nondetermined := by simp only [max32]; split_ifs <;> omega
  refine ⟨?_, ?_, ?_, ?_, ?_, ?_, ?_, ?_⟩
  · simp only [BinOp.val, Op.MIN, min32]; split_ifs <;> omega
  · simp only [BinOp.val, Op.MAX, max32]; split_ifs <;> omega
  all_goals simp [BinOp.val, Op.EQUAL_TO, Op.NOT_EQUAL_TO, Op.LESS, Op.LESS_EQUAL, Op.GREATER,
    Op.GREATER_EQUAL, hm, b2i]

/-- What `PLUS` and `MULTIPLIES` compute. -/
theorem C21_modular_tables {a b M : Int} (hM : 0 < M) (hM' : M ≤ 46341) (ha : 0 ≤ a) (ha' : a < M)
    (hb : 0 ≤ b) (hb' : b < M) :
    (Op.PLUS M).val a b = (a + b) % M ∧ (Op.MULTIPLIES M).val a b = (a * b) % M := by
  have hm : max32 a b ≠ Nondetermined := by simp only [max32, nd_val]; split_ifs <;> omega
  have h1 : 0 ≤ a * b := Int.mul_nonneg ha hb
  have h2 : a * b ≤ 46340 * 46340 := Int.mul_le_mul (by omega) (by omega) (by omega) (by omega)
  constructor
  · have : chk32 (a + b) = .ok (a + b) := if_pos ⟨by omega, by omega⟩
    simp only [BinOp.val, Op.PLUS, this, bind, Except.bind, if_neg hm]
    rw [Int.tmod_eq_emod_of_nonneg (by omega)]
  · have : chk32 (a * b) = .ok (a * b) := if_pos ⟨by omega, by omega⟩
    simp only [BinOp.val, Op.MULTIPLIES, this, bind, Except.bind, if_neg hm]
    rw [Int.tmod_eq_emod_of_nonneg h1]
    split_ifs with h0
    · have : a = 0 ∨ b = 0 := by simp only [min32] at h0; split_ifs at h0 <;> omega
      rcases this with rfl | rfl <;> simp
    · rfl

/-- **Violation of C21.** Combining two inner nodes evaluates the operation on two unknown operands;
`PLUS` and `MULTIPLIES` then overflow a signed integer. -/
theorem C21_plus_overflows (M : Int) :
    (Op.PLUS M).fn Nondetermined Nondetermined = .error .overflow ∧
    (Op.MULTIPLIES M).fn Nondetermined Nondetermined = .error .overflow := ⟨rfl, rfl⟩

/-- `apply<PLUS<M>>` and `apply<MULTIPLIES<M>>` with a second operand that is constantly 0 or 1: nothing overflows, and the
results are right.  (`P.Γ` fixes one modulus for each operation, see C20.) -/
theorem C21_constant_partial (hP : P.OK) (h : Reachable P w σ) (hauto : σ.auto = false) (hcache : σ.cacheOK = true)
    (hcanon : σ.canon = true) {M v : Int} (hM : 0 < M) (ht : TermOK P.c (M - 1)) (hv : v = 0 ∨ v = 1) (hvM : v < M) {a b : Nat}
    {f : Asg → Int} (ha : Denotes P w a f) (hf : ∀ x, InDomain P.c.n P.c.dom x → 0 ≤ f x ∧ f x < M)
    (hb : Denotes P w b fun _ => v) :
    (M ≤ 1073741824 → P.Γ 17 = Op.PLUSwrap M → Makes P w (.apply (Op.PLUS M) a b) (fun x => (f x + v) % M)) ∧
    (M ≤ 46341 → P.Γ 18 = Op.MULTIPLIESwrap M → Makes P w (.apply (Op.MULTIPLIES M) a b) (fun x => (f x * v) % M)) := by
  have R := reachable_rel hP h
  obtain ⟨f', hf', e1⟩ := R.of_denotes ha
  obtain ⟨g', hg', e2⟩ := R.of_denotes hb
  have hA : ∀ u, Range P.c f' u → 0 ≤ u ∧ u < M := by
    rintro u ⟨x, hx, rfl⟩
    rw [e1 x hx]; exact hf x hx
  have hB : ∀ u, Range P.c g' u → 0 ≤ u ∧ u < M := by
    rintro u ⟨x, hx, rfl⟩
    rw [e2 x hx]; dsimp only; omega
  have key {op op' : BinOp} {r : Asg → Int} (hid : op.id = op'.id) (hco : op.comm = op'.comm) (hne : op'.id ≠ Op.MAX.id)
      (hΓ : P.Γ op'.id = op') (hop : OpOK P.c op' (Range P.c f') (Range P.c g'))
      (hfn : ∀ u, (0 ≤ u ∧ u < M) ∨ u = Nondetermined → op.fn u v = op'.fn u v)
      (hr : ∀ x, InDomain P.c.n P.c.dom x → op'.fn (f x) v = .ok (r x)) : Makes P w (.apply op a b) r := by
    have ho : opType P.c op' = op' := by
      unfold opType
      cases P.c.fixedDom with
      | none => rfl
      | some m => simp [hne]
    have e := exec_apply_congr R hcanon hcache hid hco (by rw [hid]; exact hne) hΓ hf' hg' (fun x hx => e2 x hx) hop
      (fun u hu => hfn u (hu.imp_left (hA u)))
    have m : Makes P w (.apply op' a b) r := by
      refine makes (k := .apply op' a b) hP h ⟨hcache, by rw [ho]; exact hΓ, f', g', hf', hg', by rw [ho]; exact hop⟩ rfl ?_
      intro x hx
      dsimp only
      rw [ho, hf'.fn, hg'.fn, e1 x hx, e2 x hx]
      exact BinOp.val_of (hr x hx)
    unfold Makes at m ⊢
    rw [e]
    exact m
  constructor
  · intro hM' hΓ
    refine key (op' := Op.PLUSwrap M) rfl rfl (show 17 ≠ 15 by decide) hΓ (opOK_PLUSwrap hM hM' ht hA hB) ?_ ?_
    · intro u hu
      have hu : 0 ≤ u + v ∧ u + v < 2147483648 := by
        rcases hu with hu | rfl
        · omega
        · rw [nd_val]; omega
      have : chk32 (u + v) = .ok (u + v) := if_pos ⟨by omega, by omega⟩
      simp only [Op.PLUS, Op.PLUSwrap, this, bind, Except.bind, wrap32_eq hu.1 hu.2]
    · intro x hx
      have := hf x hx
      simp only [Op.PLUSwrap]
      rw [if_neg (by simp only [max32, nd_val]; split_ifs <;> omega), wrap32_eq (by omega) (by omega),
        Int.tmod_eq_emod_of_nonneg (by omega)]
  · intro hM' hΓ
    refine key (op' := Op.MULTIPLIESwrap M) rfl rfl (show 18 ≠ 15 by decide) hΓ (opOK_MULTIPLIESwrap hM hM' ht hA hB) ?_ ?_
    · intro u hu
      have hu : 0 ≤ u * v ∧ u * v < 2147483648 := by
        rcases hv with rfl | rfl <;> rcases hu with hu | rfl <;> first | omega | (rw [nd_val]; omega)
      have : chk32 (u * v) = .ok (u * v) := if_pos ⟨by omega, by omega⟩
      simp only [Op.MULTIPLIES, Op.MULTIPLIESwrap, this, bind, Except.bind, wrap32_eq hu.1 hu.2]
    · intro x hx
      have := hf x hx
      have hm : max32 (f x) v ≠ Nondetermined := by simp only [max32, nd_val]; split_ifs <;> omega
      have h0 : 0 ≤ f x * v ∧ f x * v < 2147483648 := by rcases hv with rfl | rfl <;> omega
      simp only [Op.MULTIPLIESwrap, if_neg hm]
      rw [wrap32_eq h0.1 h0.2, Int.tmod_eq_emod_of_nonneg h0.1]
      congr 1
      split_ifs with hz
      · have : f x = 0 ∨ v = 0 := by simp only [min32] at hz; split_ifs at hz <;> omega
        rcases this with e | e <;> simp [e]
      · rfl

/-- x1 + 1 and x1 · 1 modulo 3, in a manager whose variable 1 has three values. -/
example : ∃ w σ, Reachable mdd3 w σ ∧ Makes mdd3 w (.apply (Op.PLUS 3) 0 1) (fun x => ((x 1 : Int) + 1) % 3) ∧
    Makes mdd3 w (.apply (Op.MULTIPLIES 3) 0 1) (fun x => ((x 1 : Int) * 1) % 3) := by
  obtain ⟨w, h⟩ := Reachable.build mdd3_ok (Reachable.build mdd3_ok (Reachable.start mdd3_ok) (.variableD 1)
    (show 1 < 3 by decide) (fun _ => rfl)) (.constant 1) ⟨by decide, nofun⟩ (fun _ => rfl)
  have R := reachable_rel mdd3_ok h
  have hc := C21_constant_partial (M := 3) (v := 1) (a := 0) (b := 1) mdd3_ok h rfl rfl rfl (by decide) ⟨by decide, nofun⟩
    (.inr rfl) (by decide) (R.denotes rfl) (fun x hx => ⟨by omega, by have : x 1 < 3 := hx 1 (by decide); omega⟩) (R.denotes rfl)
  exact ⟨w, _, h, hc.1 (by decide) rfl, hc.2 (by decide) rfl⟩

/-! ### C48 MAX in fixed-domain managers -/

/-- `apply<MAX>` on a manager with fixed domain `M` (where `MAXB<M>` is substituted) evaluates to the
maximum. -/
theorem C48_max (hP : P.OK) (h : Reachable P w σ) (hauto : σ.auto = false) (hcache : σ.cacheOK = true) {M : Nat}
    (hM : P.c.fixedDom = some M) (hM' : (M : Int) ≤ Nondetermined) (hΓ : P.Γ 16 = Op.MAXB M)
    {a b : Nat} {f g : Asg → Int} (ha : Denotes P w a f) (hb : Denotes P w b g)
    (hf : ∀ x, InDomain P.c.n P.c.dom x → 0 ≤ f x ∧ f x < M)
    (hg : ∀ x, InDomain P.c.n P.c.dom x → 0 ≤ g x ∧ g x < M) :
    Makes P w (.apply Op.MAX a b) (fun x => max (f x) (g x)) := by
  have hot : opType P.c Op.MAX = Op.MAXB M := by simp [opType, hM, Op.MAX]
  have hv : ∀ {k : Asg → Int}, (∀ x, InDomain P.c.n P.c.dom x → 0 ≤ k x ∧ k x < M) →
      Vals P.c (Range P.c k) := by
    rintro k hk v ⟨x, hx, rfl⟩
    have := hk x hx
    refine ⟨⟨this.1, fun _ m hm => ?_⟩, by omega⟩
    rw [hM] at hm; cases hm; exact this.2
  have hv' : ∀ {k : Asg → Int}, (∀ x, InDomain P.c.n P.c.dom x → 0 ≤ k x ∧ k x < M) →
      ∀ v, Range P.c k v → v < (M : Int) := by
    rintro k hk v ⟨x, hx, rfl⟩
    exact (hk x hx).2
  have R := reachable_rel hP h
  obtain ⟨f', hf', e1⟩ := R.of_denotes ha
  obtain ⟨g', hg', e2⟩ := R.of_denotes hb
  refine makes (k := .apply Op.MAX a b) hP h ⟨hcache, ?_, f', g', hf', hg', ?_⟩ rfl ?_
  · rw [hot]; exact hΓ
  · rw [hot, e1.range, e2.range]
    exact opOK_MAXB (hv hf) (hv hg) (hv' hf) (hv' hg) hM'
  · intro x hx
    dsimp only
    rw [hot, hf'.fn, hg'.fn, e1 x hx, e2 x hx]
    have := hf x hx
    have := hg x hx
    simp only [BinOp.val, Op.MAXB, max32]
    split_ifs <;> omega

example : ∃ w σ, Reachable bdd3 w σ ∧
    Makes bdd3 w (.apply Op.MAX 0 1) (fun x => max (x 0 : Int) (x 1)) := by
  obtain ⟨w, h⟩ := bdd3_world
  have R := reachable_rel bdd3_ok h
  refine ⟨w, _, h, C48_max (M := 2) bdd3_ok h rfl rfl rfl (by decide) rfl (R.denotes rfl) (R.denotes rfl)
    ?_ ?_⟩ <;>
  · intro x hx
    have h0 : x 0 < 2 := hx 0 (by decide)
    have h1 : x 1 < 2 := hx 1 (by decide)
    constructor <;> omega

/-! ### C20 operations do not share cached results -/

/-- The shipped operations without a parameter have different ids; so a history that uses only them,
and one modulus each for `MAXB`, `PLUS` and `MULTIPLIES`, meets the hypothesis `P.Γ op.id = op` of
C01. -/
theorem C20_ids_partial : ([Op.AND, Op.OR, Op.XOR, Op.PI_CONJ, Op.NAND, Op.NOR, Op.XNOR, Op.EQUAL_TO,
    Op.NOT_EQUAL_TO, Op.LESS, Op.LESS_EQUAL, Op.GREATER, Op.GREATER_EQUAL, Op.MIN, Op.MAX, Op.MAXB 2,
    Op.PLUS 2, Op.MULTIPLIES 2, Op.IMPLIES].map BinOp.id).Nodup := by decide

/-- Two different operations on the same operands, in either order: each gives its own result, and the
second call does not disturb the first result. -/
theorem C20_two_operations_partial (hP : P.OK) (h : Reachable P w σ) (hauto : σ.auto = false) (hcache : σ.cacheOK = true)
    {op op' : BinOp} (hΓ : P.Γ (opType P.c op).id = opType P.c op)
    (hΓ' : P.Γ (opType P.c op').id = opType P.c op') {a b : Nat} {f g : Asg → Int}
    (ha : Denotes P w a f) (hb : Denotes P w b g)
    (hop : OpOK P.c (opType P.c op) (Range P.c f) (Range P.c g))
    (hop' : OpOK P.c (opType P.c op') (Range P.c f) (Range P.c g)) :
    ∃ r r' w' w'', exec P.c (.apply op a b) w = .ok (.slot r, w') ∧
      exec P.c (.apply op' a b) w' = .ok (.slot r', w'') ∧
      Denotes P w'' r (fun x => (opType P.c op).val (f x) (g x)) ∧
      Denotes P w'' r' (fun x => (opType P.c op').val (f x) (g x)) := by
  have R := reachable_rel hP h
  obtain ⟨f', hf, e1⟩ := R.of_denotes ha
  obtain ⟨g', hg, e2⟩ := R.of_denotes hb
  have hk : Adm P σ (.apply op a b) :=
    ⟨hcache, hΓ, f', g', hf, hg, by rw [e1.range, e2.range]; exact hop⟩
  have same : SameOn P.c.n P.c.dom (fun x => (opType P.c op).val (σ.fn a x) (σ.fn b x))
      (fun x => (opType P.c op).val (f x) (g x)) := by
    intro x hx
    dsimp only
    rw [hf.fn, hg.fn, e1 x hx, e2 x hx]
  obtain ⟨w', x1, x2, x3⟩ := makes (k := .apply op a b) hP h hk rfl same
  have h' := Reachable.step h hk x1
  have R' := reachable_rel hP h'
  obtain ⟨f'', hf', e1'⟩ := R'.of_denotes (x3 a f ha)
  obtain ⟨g'', hg', e2'⟩ := R'.of_denotes (x3 b g hb)
  have hk' : Adm P (next P.c σ (.apply op a b) (.slot w.slots.length)) (.apply op' a b) :=
    ⟨hcache, hΓ', f'', g'', hf', hg', by rw [e1'.range, e2'.range]; exact hop'⟩
  obtain ⟨w'', y1, y2, y3⟩ := makes (k := .apply op' a b) hP h' hk' rfl fun _ _ => rfl
  refine ⟨_, _, w', w'', x1, y1, y3 _ _ x2, y2.congr ?_⟩
  intro x hx
  dsimp only
  rw [hf'.fn, hg'.fn, e1' x hx, e2' x hx]

example : ∃ w σ, Reachable bdd3 w σ ∧
    ∃ r r' w' w'', exec bdd3.c (.apply Op.XOR 0 1) w = .ok (.slot r, w') ∧
      exec bdd3.c (.apply Op.NOR 0 1) w' = .ok (.slot r', w'') ∧
      Denotes bdd3 w'' r (fun x => Op.XOR.val (x 0) (x 1)) ∧
      Denotes bdd3 w'' r' (fun x => Op.NOR.val (x 0) (x 1)) := by
  obtain ⟨w, h⟩ := bdd3_world
  have R := reachable_rel bdd3_ok h
  exact ⟨w, _, h, C20_two_operations_partial bdd3_ok h rfl rfl rfl rfl (R.denotes rfl) (R.denotes rfl)
    (opOK_XOR term1_bdd3 (bits_x (by decide) rfl) (bits_x (by decide) rfl))
    (opOK_NOR term1_bdd3 (bits_x (by decide) rfl) (bits_x (by decide) rfl))⟩

end Properties
end Teddy
