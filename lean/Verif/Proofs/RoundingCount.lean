import Verif.Proofs.Rounding

/-!
# Lemmas on counts in floating point that are not exact
-/

namespace Teddy

open SM Spec

theorem roundEven_nearest (z : Rat) (m : Int) : |(roundEven z : Rat) - z| ≤ |m - z| ∧
    (m ≠ roundEven z → |(roundEven z : Rat) - z| = |m - z| → roundEven z % 2 = 0) := by
  have h1 := Int.floor_le z
  have h2 := Int.lt_floor_add_one z
  have h0 : z - ⌊z⌋ = z - ⌊z⌋ := rfl
  unfold roundEven
  generalize ⌊z⌋ = f at *
  have cast_le : ∀ {a b : Int}, a ≤ b → (a : Rat) ≤ b := fun h => by exact_mod_cast h
  rcases lt_trichotomy m f with hm | rfl | hm
  · have e := cast_le (show m + 1 ≤ f by omega)
    push_cast at e
    rw [abs_of_nonpos (show (m : Rat) - z ≤ 0 by linarith)]
    split_ifs with c1 c2 c3 <;> push_cast
    · rw [abs_of_nonpos (by linarith)]
      exact ⟨by linarith, fun _ h => by linarith⟩
    · rw [abs_of_nonneg (by linarith)]
      exact ⟨by linarith, fun _ h => by linarith⟩
    · rw [abs_of_nonpos (by linarith)]
      exact ⟨by linarith, fun _ h => by linarith⟩
    · rw [abs_of_nonneg (by linarith)]
      exact ⟨by linarith, fun _ h => by omega⟩
  · rw [abs_of_nonpos (show (m : Rat) - z ≤ 0 by linarith)]
    split_ifs with c1 c2 c3 <;> push_cast
    · rw [abs_of_nonpos (by linarith)]
      exact ⟨by linarith, fun h => absurd rfl h⟩
    · rw [abs_of_nonneg (by linarith)]
      exact ⟨by linarith, fun _ h => by linarith⟩
    · rw [abs_of_nonpos (by linarith)]
      exact ⟨by linarith, fun _ _ => c3⟩
    · rw [abs_of_nonneg (by linarith)]
      exact ⟨by linarith, fun _ _ => by omega⟩
  · have e := cast_le (show f + 1 ≤ m by omega)
    push_cast at e
    rw [abs_of_nonneg (show 0 ≤ (m : Rat) - z by linarith)]
    split_ifs with c1 c2 c3 <;> push_cast
    · rw [abs_of_nonpos (by linarith)]
      exact ⟨by linarith, fun _ h => by linarith⟩
    · rw [abs_of_nonneg (by linarith)]
      refine ⟨by linarith, fun hne h => ?_⟩
      have : (m : Rat) = ((f + 1 : Int) : Rat) := by push_cast; linarith
      exact absurd (Int.cast_injective this) hne
    · rw [abs_of_nonpos (by linarith)]
      exact ⟨by linarith, fun _ _ => c3⟩
    · rw [abs_of_nonneg (by linarith)]
      exact ⟨by linarith, fun _ _ => by omega⟩

/-- `double x` is a double, no double is nearer to `x`, and if another one is as near then the last digit of
`double x` is even. -/
theorem double_nearest {x : Rat} (h : 0 ≤ x) : IsDouble (double x) ∧
    ∀ y, IsDouble y → |double x - x| ≤ |y - x| ∧
      (y ≠ double x → |double x - x| = |y - x| → ∃ k : Int, double x = (2 * k : Int) * 2 ^ lastPlace x) := by
  have hp := two_zpow_pos (lastPlace x)
  rcases h.eq_or_lt with rfl | hx
  · rw [double_zero]
    refine ⟨⟨0, 0, by norm_num, by norm_num, by simp⟩, fun y _ => ⟨by simp, fun _ _ => ⟨0, by simp⟩⟩⟩
  have hl : Int.log 2 |x| - 52 ≤ lastPlace x := le_max_left _ _
  have ht : -1074 ≤ lastPlace x := le_max_right _ _
  have hk0 := roundEven_nonneg (div_nonneg h hp.le)
  have hk1 : roundEven (x / 2 ^ lastPlace x) ≤ 2 ^ 53 := by
    have h1 : x < 2 ^ (lastPlace x + (53 : Nat)) := by
      have := Int.lt_zpow_succ_log_self (b := 2) (by norm_num) |x|
      rw [abs_of_pos hx] at this
      refine lt_of_lt_of_le this (two_zpow_le ?_)
      rw [abs_of_pos hx] at hl
      omega
    rw [two_zpow_mul, two_zpow_nat] at h1
    have h2 : x / 2 ^ lastPlace x < 2 ^ 53 := by rw [div_lt_iff₀ hp]; linarith
    have h3 := (abs_le.1 (roundEven_near (x / 2 ^ lastPlace x))).2
    have h4 : (roundEven (x / 2 ^ lastPlace x) : Rat) < ((2 ^ 53 + 1 : Int) : Rat) := by push_cast; linarith
    have := Int.cast_lt.1 h4
    omega
  refine ⟨⟨_, _, by rw [abs_of_nonneg hk0]; exact hk1, ht, rfl⟩, ?_⟩
  have grid : ∀ m : Int, |double x - x| ≤ |(m : Rat) * 2 ^ lastPlace x - x| ∧
      ((m : Rat) * 2 ^ lastPlace x ≠ double x → |double x - x| = |(m : Rat) * 2 ^ lastPlace x - x| →
        ∃ k : Int, double x = (2 * k : Int) * 2 ^ lastPlace x) := by
    intro m
    have e1 : ∀ m : Int, |(m : Rat) * 2 ^ lastPlace x - x| = |(m : Rat) - x / 2 ^ lastPlace x| * 2 ^ lastPlace x := by
      intro m
      rw [← abs_of_pos hp, ← abs_mul, abs_of_pos hp, sub_mul, div_mul_cancel₀ _ hp.ne']
    obtain ⟨n1, n2⟩ := roundEven_nearest (x / 2 ^ lastPlace x) m
    have e2 : |double x - x| = |(roundEven (x / 2 ^ lastPlace x) : Rat) - x / 2 ^ lastPlace x| *
        2 ^ lastPlace x := e1 _
    rw [e1, e2]
    refine ⟨mul_le_mul_of_nonneg_right n1 hp.le, fun hne he => ?_⟩
    have he := mul_right_cancel₀ hp.ne' he
    have hev := n2 (fun e => hne (by rw [e]; rfl)) he
    refine ⟨roundEven (x / 2 ^ lastPlace x) / 2, ?_⟩
    rw [show 2 * (roundEven (x / 2 ^ lastPlace x) / 2) = roundEven (x / 2 ^ lastPlace x) by omega]
    rfl
  rintro y ⟨k, e, hk, he, rfl⟩
  rcases le_or_gt (lastPlace x) e with hle | hlt
  · obtain ⟨d, hd⟩ := Int.eq_ofNat_of_zero_le (show 0 ≤ e - lastPlace x by omega)
    have : (k : Rat) * 2 ^ e = ((k * 2 ^ d : Int) : Rat) * 2 ^ lastPlace x := by
      rw [show e = d + lastPlace x by omega, two_zpow_mul, two_zpow_nat]
      push_cast
      ring
    rw [this]
    exact grid _
  · -- below the binade of `x`
    have hL : lastPlace x = Int.log 2 |x| - 52 := by
      unfold lastPlace at hlt ⊢
      omega
    have b : (2 : Rat) ^ (lastPlace x + (52 : Nat)) ≤ x := by
      rw [hL, show Int.log 2 |x| - 52 + ((52 : Nat) : Int) = Int.log 2 |x| by omega]
      exact log_le hx
    have hy : (k : Rat) * 2 ^ e ≤ 2 ^ (lastPlace x + (52 : Nat)) := by
      have h1 : (k : Rat) ≤ 2 ^ 53 := by exact_mod_cast (le_abs_self k).trans hk
      have h2 : (2 : Rat) ^ e ≤ 2 ^ (lastPlace x - 1) := two_zpow_le (by omega)
      have h3 := mul_le_mul h1 h2 (two_zpow_pos e).le (by positivity)
      refine h3.trans (le_of_eq ?_)
      rw [← two_zpow_nat, ← two_zpow_mul]
      congr 1
      push_cast
      omega
    obtain ⟨g1, g2⟩ := grid (2 ^ 52)
    have eg : (((2 : Int) ^ 52 : Int) : Rat) * 2 ^ lastPlace x = 2 ^ (lastPlace x + (52 : Nat)) := by
      rw [two_zpow_mul, two_zpow_nat]
      push_cast
      ring
    rw [eg] at g1 g2
    rw [abs_of_nonpos (show (2 : Rat) ^ (lastPlace x + (52 : Nat)) - x ≤ 0 by linarith)] at g1 g2
    rw [abs_of_nonpos (show (k : Rat) * 2 ^ e - x ≤ 0 by linarith)]
    refine ⟨by linarith, fun hne heq => ?_⟩
    have same : (k : Rat) * 2 ^ e = 2 ^ (lastPlace x + (52 : Nat)) := by linarith
    rw [same] at hne heq
    exact g2 hne heq

example : double (2 ^ 53 + 1) = 2 ^ 53 ∧ double (2 ^ 53 + 3) = 2 ^ 53 + 4 := by decide +kernel

/-- Doubles that are not tiny have a relative error only. -/
theorem double_relative {x : Rat} (h : 2 ^ (-1022 : Int) ≤ x) : |double x - x| ≤ unitRoundoff * x := by
  have hu : (0 : Rat) ≤ unitRoundoff := by unfold unitRoundoff; positivity
  have hx : 0 < x := lt_of_lt_of_le (two_zpow_pos _) h
  refine (double_near x).trans ?_
  unfold lastPlace
  have hl : -1022 ≤ Int.log 2 |x| := by
    rw [abs_of_pos hx]
    exact (Int.zpow_le_iff_le_log (b := 2) (by norm_num) hx).1 h
  rw [max_eq_left (by omega), sub_eq_add_neg, two_zpow_mul, show (-52 : Int) = -((52 : Nat) : Int) from rfl,
    two_zpow_neg]
  have e : (2 : Rat) ^ Int.log 2 |x| * (1 / 2 ^ 52) / 2 = unitRoundoff * 2 ^ Int.log 2 |x| := by
    unfold unitRoundoff
    ring
  rw [e]
  exact mul_le_mul_of_nonneg_left (log_le hx) hu

/-- Natural numbers round to natural numbers. -/
theorem double_nat (k : Nat) : ∃ m : Nat, double k = m := by
  by_cases h : k ≤ 2 ^ 53
  · exact ⟨k, double_int h⟩
  · obtain ⟨m, hm⟩ := double_even (k := k) (by omega)
    have h0 := double_nonneg (x := (k : Rat)) (by positivity)
    refine ⟨(2 * m).toNat, ?_⟩
    have h1 : 0 ≤ 2 * m := by
      rw [hm] at h0
      exact_mod_cast h0
    rw [hm]
    have : (((2 * m).toNat : Int) : Rat) = ((2 * m : Int) : Rat) := by rw [Int.toNat_of_nonneg h1]
    push_cast at this
    rw [this]

/-- An operation that rounds natural numbers to natural numbers with relative error `u`. -/
structure RoundsNat (u : Rat) (rnd : Rat → Rat) : Prop where
  u0 : 0 ≤ u
  u1 : u ≤ 1
  nat : ∀ k : Nat, ∃ m : Nat, rnd k = m
  le : ∀ k : Nat, rnd k ≤ (1 + u) * k
  ge : ∀ k : Nat, (1 - u) * k ≤ rnd k

theorem double_roundsNat : RoundsNat unitRoundoff double := by
  have key : ∀ k : Nat, |double k - k| ≤ unitRoundoff * k := by
    intro k
    rcases Nat.eq_zero_or_pos k with rfl | h0
    · simp [double_zero]
    · refine double_relative ?_
      have h1 : (1 : Rat) ≤ k := by exact_mod_cast h0
      have h2 : (2 : Rat) ^ (-1022 : Int) ≤ 2 ^ (0 : Int) := two_zpow_le (by omega)
      rw [zpow_zero] at h2
      exact h2.trans h1
  refine ⟨double_rounds.u0, double_rounds.u1, double_nat, fun k => ?_, fun k => ?_⟩ <;>
  · have := abs_le.1 (key k)
    linarith

/-- `v` is a natural number that differs from `V` by at most `t` roundings. -/
def Rounded (u : Rat) (t : Nat) (V : Nat) (v : Rat) : Prop :=
  (∃ m : Nat, v = m) ∧ v ≤ (1 + u) ^ t * V ∧ (1 - u) ^ t * V ≤ v

section
variable {u : Rat} {rnd : Rat → Rat}

theorem Rounded.refl (V : Nat) : Rounded u 0 V V := ⟨⟨V, rfl⟩, by simp, by simp⟩

theorem Rounded.mono (r : RoundsNat u rnd) {t t' V : Nat} {v : Rat} (h : Rounded u t V v) (ht : t ≤ t') :
    Rounded u t' V v := by
  obtain ⟨h0, h1, h2⟩ := h
  have a := r.u0
  have b := r.u1
  have hV : (0 : Rat) ≤ V := by positivity
  refine ⟨h0, h1.trans (mul_le_mul_of_nonneg_right (pow_le_pow_right₀ (by linarith) ht) hV),
    (mul_le_mul_of_nonneg_right (pow_le_pow_of_le_one (by linarith) (by linarith) ht) hV).trans h2⟩

theorem Rounded.round (r : RoundsNat u rnd) {t V : Nat} {v : Rat} (h : Rounded u t V v) :
    Rounded u (t + 1) V (rnd v) := by
  obtain ⟨⟨m, rfl⟩, h1, h2⟩ := h
  have a := r.u0
  have b := r.u1
  refine ⟨r.nat m, (r.le m).trans ?_, le_trans ?_ (r.ge m)⟩
  · rw [pow_succ]
    nlinarith
  · rw [pow_succ]
    nlinarith

theorem Rounded.add {t V W : Nat} {v w : Rat} (h : Rounded u t V v) (k : Rounded u t W w) :
    Rounded u t (V + W) (v + w) := by
  obtain ⟨⟨m, rfl⟩, h1, h2⟩ := h
  obtain ⟨⟨l, rfl⟩, k1, k2⟩ := k
  refine ⟨⟨m + l, by push_cast; rfl⟩, ?_, ?_⟩ <;> push_cast <;> linarith

theorem Rounded.mul (r : RoundsNat u rnd) {t s V W : Nat} {v w : Rat} (h : Rounded u t V v) (k : Rounded u s W w) :
    Rounded u (t + s) (V * W) (v * w) := by
  obtain ⟨⟨m, rfl⟩, h1, h2⟩ := h
  obtain ⟨⟨l, rfl⟩, k1, k2⟩ := k
  have a := r.u0
  have b := r.u1
  have p1 : 0 ≤ (1 + u) ^ t := pow_nonneg (by linarith) _
  have p2 : 0 ≤ (1 - u) ^ t := pow_nonneg (by linarith) _
  have p3 : 0 ≤ (1 - u) ^ s := pow_nonneg (by linarith) _
  have hV : (0 : Rat) ≤ V := by positivity
  have hW : (0 : Rat) ≤ W := by positivity
  refine ⟨⟨m * l, by push_cast; rfl⟩, ?_, ?_⟩
  · have := mul_le_mul h1 k1 (by positivity) (mul_nonneg p1 hV)
    refine this.trans (le_of_eq ?_)
    push_cast
    rw [pow_add]
    ring
  · have := mul_le_mul h2 k2 (mul_nonneg p3 hW) (by positivity)
    refine le_trans (le_of_eq ?_) this
    push_cast
    rw [pow_add]
    ring

/-- The relative error after `t` roundings. -/
theorem Rounded.error (r : RoundsNat u rnd) {t V : Nat} {v : Rat} (h : Rounded u t V v) (ht : t * u ≤ 1 / 2) :
    |v - V| ≤ 2 * (t * u) * V := by
  obtain ⟨_, h1, h2⟩ := h
  have hV : (0 : Rat) ≤ V := by positivity
  have hu := mul_nonneg (Nat.cast_nonneg (α := Rat) t) r.u0
  have g := pow_growth (a := t) (b := 0) r.u0 (le_refl 0) (by push_cast; linarith)
  have d := pow_decay (a := t) (b := 0) r.u0 r.u1 (le_refl 0) (by norm_num) (by push_cast; linarith)
  simp only [pow_zero, mul_one, Nat.cast_zero, zero_mul, add_zero] at g d
  have t1 := mul_le_mul_of_nonneg_right g hV
  have t2 := mul_le_mul_of_nonneg_right d hV
  rw [abs_le]
  constructor <;> nlinarith

end

section
variable {u : Rat} {rnd : Rat → Rat}

/-- `satisfy_count` is right up to `D + 2` roundings for each level. -/
theorem satisfyCountDataR_near (r : RoundsNat u rnd) (g : Good E ext S)
    (hp : S.used root = true) (hcl : CleanBelow S root) (hf : CountFits E.c) {D : Nat}
    (hD : ∀ i, i < E.c.n → E.c.dom i ≤ D) (hs : ((E.c.n * (D + 2) : Nat) : Rat) * u ≤ 1 / 4)
    (hN : (allAsg E.c.n E.c.dom).length ≤ 2 ^ 62) {f : Asg → Int} (hd : Den E.c S root f) {v : Int}
    (hv : ∀ m, E.c.fixedDom = some m → E.c.asserts = true → v < m) :
    Ok (satisfyCountDataR rnd E.c v root) S (fun k s' => ∃ m : Nat, k = (m : Int) ∧
      Rounded u (E.c.n * (D + 2)) (countValue E.c.n E.c.dom f v) m ∧ DSt S s') := by
  have h := g.inv
  have ho := g.ord
  have hc := g.cfg
  have B : Below E.c S root := Below.of h ho hp
  rw [total_eq h.order] at hN
  unfold satisfyCountDataR
  refine Ok.bindEq (assertValue_ok hv) ?_
  let Right := fun (d : Ptr → Option Rat) q => ∃ x, d q = some x ∧
    Rounded u ((E.c.n - S.levelOf E.c q) * (D + 2)) (cnt E.c S v (S.levelOf E.c q) q) x
  refine Ok.bind (traversePost_ok (I := fun ds (_ : Unit) d => ∀ q ∈ ds, Right d q) B hcl (by simp) ?_) ?_
  · rintro vs ds p _ s hT hm hr hpd hsons
    have hup := B.used p hr
    have hus : s.used p = true := by rw [hT.used]; exact hup
    unfold satCountDataVisitR
    refine Ok.bindEq (getKind_ok hus) ?_
    rw [hT.kind]
    have fin : ∀ s', TSt S S.mark true vs s' → (∀ q, q ≠ p → s'.data q = s.data q) →
        Right s'.data p → (TSt S S.mark true vs s' ∧ ∀ q ∈ ds ++ [p], Right s'.data q) := by
      intro s' hT' hoth hpp
      refine ⟨hT', fun q hq => ?_⟩
      by_cases e : q = p
      · rw [e]; exact hpp
      · show ∃ x, s'.data q = some x ∧ _
        rw [hoth q e]
        rcases List.mem_append.1 hq with hq | hq
        · exact hm q hq
        · simp at hq; contradiction
    cases hk : S.kind p with
    | leaf a =>
        refine Ok.of_eq (setData_ok hus _) (fin _ (hT.setData _) ?_ ⟨_, by dsimp only; rw [upd_same], ?_⟩)
        · intro q hq
          simp [upd_apply, hq]
        · have : S.levelOf E.c p = E.c.n := by simp [Mgr.levelOf, hk]
          rw [this, Nat.sub_self, Nat.zero_mul]
          have e : cnt E.c S v E.c.n p = if a = v then 1 else 0 := by
            unfold cnt
            rw [nodeSum_leaf hk]
          rw [e]
          split
          · exact_mod_cast Rounded.refl 1
          · exact_mod_cast Rounded.refl 0
    | inner i ss =>
        dsimp only
        have hlev : S.levelOf E.c p = S.idx2lvl i := by simp [Mgr.levelOf, hk]
        have hin := h.sons p i ss hup hk
        have hlt := h.order.i2l_lt i hin.1
        have hlen : ss.length ≤ D := by rw [hin.2.1]; exact hD i hin.1
        refine Ok.bindEq (setData_ok hus 0) ?_
        refine Ok.bindGet ?_
        refine (forL_rule (I := fun rest s' => TSt S S.mark true vs s' ∧
          (∀ q, q ≠ p → s'.data q = s.data q) ∧ ∃ done x, ss = done ++ rest ∧ s'.data p = some x ∧
          Rounded u ((E.c.n - (S.idx2lvl i + 1)) * (D + 2) + 2 + done.length)
            (done.map (cnt E.c S v (S.idx2lvl i + 1))).sum x) ?_ _ _
          ⟨hT.setData _, ?_, [], 0, by simp, by simp, ?_⟩).mono ?_
        · rintro q rest s' ⟨hT', hoth, done, x, hss, hpv, hx⟩
          have hqs : q ∈ ss := by rw [hss]; simp
          have hqu : S.used q = true := hin.2.2 q hqs
          have hqu' : s'.used q = true := by rw [hT'.used]; exact hqu
          have hpu' : s'.used p = true := by rw [hT'.used]; exact hup
          have hlq := ho p i ss q hup hk hqs
          have hqp : q ≠ p := by rintro rfl; omega
          have hqle := levelOf_le h hqu
          refine Ok.bindEq (getLevel_ok hqu') ?_
          have e1 : s'.levelOf E.c q = S.levelOf E.c q := by
            simp [Mgr.levelOf, hT'.kind, hT'.i2l]
          rw [e1]
          dsimp only
          rw [hT.i2l]
          refine Ok.bindEq (domainProduct_ok h.order hc hf hqle hT'.l2i) ?_
          obtain ⟨y, hmq, hy⟩ := hm q (hsons q (by rw [sonsOf_inner hk]; exact hqs))
          refine Ok.bindEq (getData_ok hqu' (by rw [hoth q hqp]; exact hmq)) ?_
          refine Ok.bindEq (getData_ok hpu' hpv) ?_
          refine Ok.of_eq (setData_ok hpu' _) ⟨hT'.setData _, ?_, done ++ [q], _, by simp [hss], by
            dsimp only; rw [upd_same], ?_⟩
          · intro q' hq'
            simp [upd_apply, hq', hoth q' hq']
          · simp only [List.map_append, List.sum_append, List.map_cons, List.map_nil, List.sum_cons,
              List.sum_nil, Nat.add_zero, List.length_append, List.length_cons, List.length_nil, Nat.zero_add]
            have hq1 : S.idx2lvl i + 1 ≤ S.levelOf E.c q := by omega
            have r1 := ((hy.mul r (Rounded.refl (u := u)
              (prodBetween E.c S (S.idx2lvl i + 1) (S.levelOf E.c q))|>.round r)).round r)
            rw [Nat.mul_comm (cnt _ _ _ _ _), ← cnt_skip h ho hc hqu hq1] at r1
            have le : (E.c.n - S.levelOf E.c q) * (D + 2) ≤ (E.c.n - (S.idx2lvl i + 1)) * (D + 2) :=
              Nat.mul_le_mul_right _ (by omega)
            have r2 := (hx.add (r1.mono r (t' := (E.c.n - (S.idx2lvl i + 1)) * (D + 2) + 2 + done.length)
              (by omega))).round r
            exact r2
        · intro q hq
          simp [upd_apply, hq]
        · have := (Rounded.refl (u := u) 0).mono r (Nat.zero_le ((E.c.n - (S.idx2lvl i + 1)) * (D + 2) + 2))
          simpa using this
        · rintro _ s' ⟨hT', hoth, done, x, hss, hpv, hx⟩
          simp only [List.append_nil] at hss
          refine fin s' hT' hoth ⟨x, hpv, ?_⟩
          rw [hlev, cnt_inner h ho hc hup hk, hss]
          refine hx.mono r ?_
          rw [show E.c.n - S.idx2lvl i = E.c.n - (S.idx2lvl i + 1) + 1 from by omega, Nat.add_mul, ← hss]
          omega
  · rintro _ s' ⟨vs, _, hvs, e, hm⟩
    have Ds : DSt S s' := e
    have hp' : s'.used root = true := by rw [Ds.used]; exact hp
    refine Ok.bindEq (getLevel_ok hp') ?_
    have e1 : s'.levelOf E.c root = S.levelOf E.c root := by
      simp [Mgr.levelOf, Ds.kind, Ds.i2l]
    rw [e1]
    have hle := levelOf_le h hp
    obtain ⟨x, hxd, hx⟩ := hm root ((hvs root).2 .refl)
    refine Ok.bindEq (getData_ok hp' hxd) ?_
    have hx := hx.mono r (t' := E.c.n * (D + 2)) (Nat.mul_le_mul_right _ (by omega))
    obtain ⟨m, rfl⟩ := hx.1
    have hfl : ((m : Rat)).floor = (m : Int) := by simp [Rat.floor]
    rw [hfl]
    have tot : ∀ {W : Nat} {y : Nat}, Rounded u (E.c.n * (D + 2)) W y → W ≤ prodBetween E.c S 0 E.c.n →
        y ≤ 9223372036854775807 := by
      intro W y hy hW
      have e := (abs_le.1 (hy.error r (by linarith))).2
      have hW' : (W : Rat) ≤ 2 ^ 62 := by exact_mod_cast hW.trans hN
      have hW0 : (0 : Rat) ≤ W := by positivity
      have : (y : Rat) ≤ 9223372036854775807 := by nlinarith
      exact_mod_cast this
    have hc1 : m ≤ 9223372036854775807 := tot hx ((cnt_le h).trans (prodBetween_le h.order hc (Nat.zero_le _) hle
      (Nat.le_refl _) (Nat.le_refl _)))
    refine Ok.bindEq (liftE_fit64 hc1) ?_
    refine Ok.bindEq (domainProduct_ok h.order hc hf hle Ds.l2i) ?_
    have hx2 := hx.mul r (Rounded.refl (u := u) (prodBetween E.c S 0 (S.levelOf E.c root)))
    rw [Nat.mul_comm (cnt _ _ _ _ _), ← cnt_skip h ho hc hp (Nat.zero_le _), Nat.add_zero] at hx2
    have hx3 : Rounded u (E.c.n * (D + 2)) (cnt E.c S v 0 root)
        ((m * prodBetween E.c S 0 (S.levelOf E.c root) : Nat) : Rat) := by
      push_cast
      exact hx2
    have hc2 := tot hx3 (cnt_le h)
    have e2 : (m : Int) * ((prodBetween E.c S 0 (S.levelOf E.c root) : Nat) : Int)
        = ((m * prodBetween E.c S 0 (S.levelOf E.c root) : Nat) : Int) := by push_cast; rfl
    rw [e2]
    refine Ok.of_eq (liftE_fit64 hc2) ⟨_, rfl, ?_, Ds⟩
    rw [← cnt_root h hc hd]
    exact hx3

/-- A quotient of natural numbers, both of which are rounded first. -/
theorem quotient_near (r : RoundsNat u rnd) (hrel : ∀ x, 2 ^ (-1022 : Int) ≤ x → |rnd x - x| ≤ u * x)
    (h0 : rnd 0 = 0) {t V N m : Nat} (hN : 0 < N) (hN' : N ≤ 2 ^ 62) (h : Rounded u t V m)
    (ht : ((t + 4 : Nat) : Rat) * u ≤ 1 / 2) :
    |rnd (rnd m / rnd N) - V / N| ≤ 2 * (((t + 4 : Nat) : Rat) * u) * (V / N) := by
  have u0 := r.u0
  have hu : u ≤ 1 / 8 := by
    push_cast at ht
    have : 0 ≤ (t : Rat) * u := by positivity
    linarith
  have hm := h.round r
  have hn := (Rounded.refl (u := u) N).round r
  obtain ⟨k, hk⟩ := hm.1
  obtain ⟨l, hl⟩ := hn.1
  rw [hk] at hm ⊢
  rw [hl] at hn ⊢
  have N1 : (1 : Rat) ≤ N := by exact_mod_cast hN
  have N2 : (N : Rat) ≤ 2 ^ 62 := by exact_mod_cast hN'
  obtain ⟨_, n1, n2⟩ := hn
  obtain ⟨_, m1, m2⟩ := hm
  simp only [Nat.zero_add, pow_one] at n1 n2
  have l0 : (0 : Rat) < l := by nlinarith
  have hV : (0 : Rat) ≤ V := by positivity
  rcases Nat.eq_zero_or_pos k with rfl | k0
  · have b : (0 : Rat) < (1 - u) ^ (t + 1) := pow_pos (by linarith) _
    have : (V : Rat) = 0 := by
      rcases hV.eq_or_lt with h | h
      · exact h.symm
      · have := mul_pos b h
        push_cast at m2
        linarith
    rw [this]
    simp [h0]
  · have k1 : (1 : Rat) ≤ k := by exact_mod_cast k0
    have l2 : (l : Rat) ≤ 2 ^ 63 := by nlinarith
    have big : (2 : Rat) ^ (-1022 : Int) ≤ k / l := by
      have e : (2 : Rat) ^ (-1022 : Int) ≤ 2 ^ (-((63 : Nat) : Int)) := two_zpow_le (by omega)
      rw [two_zpow_neg] at e
      refine e.trans ?_
      exact div_le_div₀ (by linarith) k1 l0 l2
    have hq := abs_le.1 (hrel _ big)
    have hq0 : (0 : Rat) ≤ k / l := by positivity
    have V0 : 0 ≤ (V : Rat) / N := by positivity
    have up : (k : Rat) / l ≤ (1 + u) ^ (t + 3) * (V / N) := by
      rw [div_le_iff₀ l0]
      have e1 : 1 ≤ (1 + u) ^ 2 * (1 - u) := by
        have : 0 ≤ u * (1 - u - u ^ 2) := mul_nonneg u0 (by nlinarith)
        linarith
      have e2 : (N : Rat) ≤ (1 + u) ^ 2 * l := by
        have := mul_le_mul_of_nonneg_left n2 (show 0 ≤ (1 + u) ^ 2 by positivity)
        nlinarith
      calc (k : Rat) ≤ (1 + u) ^ (t + 1) * V := m1
        _ = (1 + u) ^ (t + 1) * (V / N) * N := by field_simp
        _ ≤ (1 + u) ^ (t + 1) * (V / N) * ((1 + u) ^ 2 * l) := mul_le_mul_of_nonneg_left e2 (by positivity)
        _ = (1 + u) ^ (t + 3) * (V / N) * l := by ring
    have b0 : (0 : Rat) ≤ (1 - u) ^ (t + 1) := pow_nonneg (by linarith) _
    have lo : (1 - u) ^ (t + 2) * (V / N) ≤ k / l := by
      rw [le_div_iff₀ l0]
      have e2 : (1 - u) * l ≤ N := by nlinarith
      calc (1 - u) ^ (t + 2) * (V / N) * l = (1 - u) ^ (t + 1) * (V / N) * ((1 - u) * l) := by ring
        _ ≤ (1 - u) ^ (t + 1) * (V / N) * N := mul_le_mul_of_nonneg_left e2 (mul_nonneg b0 V0)
        _ = (1 - u) ^ (t + 1) * V := by field_simp
        _ ≤ k := m2
    have up' : rnd (k / l) ≤ (1 + u) ^ (t + 4) * (V / N) := by
      have := mul_le_mul_of_nonneg_left up (show 0 ≤ 1 + u by linarith)
      rw [show (1 + u) ^ (t + 4) = (1 + u) * (1 + u) ^ (t + 3) by ring]
      linarith
    have lo' : (1 - u) ^ (t + 4) * (V / N) ≤ rnd (k / l) := by
      have := mul_le_mul_of_nonneg_left lo (show 0 ≤ 1 - u by linarith)
      have e : (1 - u) ^ (t + 4) * ((V : Rat) / N) ≤ (1 - u) ^ (t + 3) * (V / N) :=
        mul_le_mul_of_nonneg_right (pow_le_pow_of_le_one (by linarith) (by linarith) (by omega)) V0
      rw [show (1 - u) ^ (t + 3) = (1 - u) * (1 - u) ^ (t + 2) by ring] at e
      linarith
    have g := pow_growth (a := t + 4) (b := 0) u0 (le_refl 0) (by push_cast at ht ⊢; linarith)
    have d := pow_decay (a := t + 4) (b := 0) u0 r.u1 (le_refl 0) (by norm_num) (by push_cast at ht ⊢; linarith)
    simp only [pow_zero, mul_one, Nat.cast_zero, zero_mul, add_zero] at g d
    have t1 := mul_le_mul_of_nonneg_right g V0
    have t2 := mul_le_mul_of_nonneg_right d V0
    have t3 : 0 ≤ ((t + 4 : Nat) : Rat) * u * (V / N) := mul_nonneg (mul_nonneg (by positivity) u0) V0
    rw [abs_le]
    constructor <;> linarith

theorem allAsg_pos {E : Env} (h : OrderOK E.c S) (hc : CfgOK E.c) : 0 < (allAsg E.c.n E.c.dom).length := by
  rw [total_eq h]
  exact prodBetween_pos h hc (Nat.le_refl _)

/-- `state_frequency` is right up to four more roundings. -/
theorem stateFrequencyR_near (r : RoundsNat u rnd) (hrel : ∀ x, 2 ^ (-1022 : Int) ≤ x → |rnd x - x| ≤ u * x)
    (h0 : rnd 0 = 0) (g : Good E ext S)
    (hp : S.used root = true) (hcl : CleanBelow S root) (hf : CountFits E.c) {D : Nat}
    (hD : ∀ i, i < E.c.n → E.c.dom i ≤ D) (hs : ((E.c.n * (D + 2) : Nat) : Rat) * u ≤ 1 / 4) (hu : u ≤ 1 / 16)
    (hN : (allAsg E.c.n E.c.dom).length ≤ 2 ^ 62) {f : Asg → Int} (hd : Den E.c S root f) {v : Int}
    (hv : ∀ m, E.c.fixedDom = some m → E.c.asserts = true → v < m) :
    Ok (stateFrequencyR rnd E.c v root) S (fun q s' =>
      |q - (countValue E.c.n E.c.dom f v : Rat) / ((allAsg E.c.n E.c.dom).length : Rat)| ≤
        2 * (((E.c.n * (D + 2) + 4 : Nat) : Rat) * u) *
          ((countValue E.c.n E.c.dom f v : Rat) / ((allAsg E.c.n E.c.dom).length : Rat)) ∧ DSt S s') := by
  unfold stateFrequencyR
  refine Ok.bindEq (domainProduct_ok g.inv.order g.cfg hf (Nat.le_refl _) rfl) ?_
  refine Ok.bind (satisfyCountDataR_near r g hp hcl hf hD hs hN hd hv) ?_
  rintro k s' ⟨m, rfl, hm, Ds⟩
  refine Ok.pure ⟨?_, Ds⟩
  rw [← total_eq g.inv.order]
  have := quotient_near r hrel h0 (allAsg_pos g.inv.order g.cfg) hN hm (by push_cast at hs ⊢; linarith)
  push_cast at this ⊢
  exact this

end

end Teddy
