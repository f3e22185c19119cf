import Verif.Proofs.Rounding

/-!
# Lemmas on rounding: the level-order computation
-/

namespace Teddy

open SM Spec

variable {c : Cfg} {ext : Ptr → Nat} {tmp : List Ptr} {S s : Mgr} {E : Env} {root : Ptr}

/-! ### The value of a node -/

/-- The sum a node stands for, computed without the variables that do not occur; `k` is fuel. -/
noncomputable def nodeVal (S : Mgr) (P : Nat → Nat → Rat) (G : Int → Rat) : Nat → Ptr → Rat
  | 0, _ => 0
  | k + 1, q =>
      match S.kind q with
      | .leaf a => G a
      | .inner i ss => ((ss.zip (List.range ss.length)).map fun e => nodeVal S P G k e.1 * P i e.2).sum

section
variable {P : Nat → Nat → Rat} {G : Int → Rat}

theorem nodeVal_fuel (h : Inv c ext tmp S) (ho : Ordered c S) {k : Nat} {q : Ptr} (hq : S.used q = true)
    (hk : c.n - S.levelOf c q < k) : nodeVal S P G k q = nodeVal S P G (k + 1) q := by
  induction k generalizing q with
  | zero => omega
  | succ k ih =>
      rw [nodeVal, nodeVal]
      cases hkd : S.kind q with
      | leaf a => rfl
      | inner i ss =>
          dsimp only
          congr 1
          refine List.map_congr_left ?_
          rintro ⟨r, j⟩ he
          have hr := (List.of_mem_zip he).1
          have hu := (h.sons q i ss hq hkd).2.2 r hr
          have hlt := ho q i ss r hq hkd hr
          have hle := levelOf_le h hu
          dsimp only
          rw [ih hu (by omega)]

/-- The value of a node. -/
noncomputable def valR (c : Cfg) (S : Mgr) (P : Nat → Nat → Rat) (G : Int → Rat) (q : Ptr) : Rat :=
  nodeVal S P G (c.n + 1) q

theorem valR_leaf {q : Ptr} {a : Int} (hk : S.kind q = .leaf a) : valR c S P G q = G a := by
  simp [valR, nodeVal, hk]

theorem valR_inner (h : Inv c ext tmp S) (ho : Ordered c S) {p : Ptr} {i : Nat} {ss : List Ptr}
    (hp : S.used p = true) (hk : S.kind p = .inner i ss) :
    valR c S P G p = ((ss.zip (List.range ss.length)).map fun e => valR c S P G e.1 * P i e.2).sum := by
  unfold valR
  conv => lhs; rw [nodeVal]
  rw [hk]
  dsimp only
  congr 1
  refine List.map_congr_left ?_
  rintro ⟨r, j⟩ he
  have hr := (List.of_mem_zip he).1
  have hu := (h.sons p i ss hp hk).2.2 r hr
  have hlt := ho p i ss r hp hk hr
  have hle := levelOf_le h hu
  dsimp only
  rw [nodeVal_fuel h ho hu (by omega)]

theorem used_induction (h : Inv c ext tmp S) (ho : Ordered c S) {K : Ptr → Prop}
    (leaf : ∀ q a, S.used q = true → S.kind q = .leaf a → K q)
    (inner : ∀ p i ss, S.used p = true → S.kind p = .inner i ss → (∀ q ∈ ss, K q) → K p) {q : Ptr}
    (hq : S.used q = true) : K q := by
  generalize hm : c.n - S.levelOf c q = m
  induction m using Nat.strongRecOn generalizing q with
  | _ m ih =>
      cases hk : S.kind q with
      | leaf a => exact leaf q a hq hk
      | inner i ss =>
          refine inner q i ss hq hk fun r hr => ?_
          have hu := (h.sons q i ss hq hk).2.2 r hr
          have hlt := ho q i ss r hq hk hr
          have hle := levelOf_le h hu
          exact ih _ (by omega) hu rfl

variable {δ : Rat}

theorem zip_row (h : Inv c ext tmp S) (hP : NearlySumsToOne δ c.n c.dom P) {p : Ptr} {i : Nat} {ss : List Ptr}
    (hp : S.used p = true) (hk : S.kind p = .inner i ss) :
    (∀ e ∈ ss.zip (List.range ss.length), e.1 ∈ ss ∧ 0 ≤ P i e.2) ∧
      ((ss.zip (List.range ss.length)).map fun e => P i e.2).sum ≤ 1 + δ := by
  obtain ⟨hi, hlen, hus⟩ := h.sons p i ss hp hk
  constructor
  · rintro ⟨q, k⟩ he
    obtain ⟨h1, h2⟩ := List.of_mem_zip he
    exact ⟨h1, (hP i hi).1 k (by rw [← hlen]; exact List.mem_range.1 h2)⟩
  · have e : ((ss.zip (List.range ss.length)).map fun e => P i e.2) = (List.range (c.dom i)).map (P i) := by
      refine List.ext_getElem (by simp [hlen]) ?_
      intro k h1 h2
      simp
    rw [e]
    have := (abs_le.1 (hP i hi).2).2
    linarith

theorem sum_mul_le {l : List (Ptr × Nat)} {a : Ptr → Rat} {b : Nat → Rat} {B : Rat}
    (h : ∀ e ∈ l, 0 ≤ a e.1 ∧ a e.1 ≤ B ∧ 0 ≤ b e.2) :
    0 ≤ (l.map fun e => a e.1 * b e.2).sum ∧
      (l.map fun e => a e.1 * b e.2).sum ≤ B * (l.map fun e => b e.2).sum := by
  induction l with
  | nil => simp
  | cons e l ih =>
      obtain ⟨i1, i2⟩ := ih fun e he => h e (by simp [he])
      obtain ⟨h1, h2, h3⟩ := h e (by simp)
      simp only [List.map_cons, List.sum_cons]
      have := mul_nonneg h1 h3
      have := mul_le_mul_of_nonneg_right h2 h3
      constructor <;> linarith

theorem valR_bounds (h : Inv c ext tmp S) (ho : Ordered c S) (δ0 : 0 ≤ δ) (hP : NearlySumsToOne δ c.n c.dom P)
    (hG : ∀ a, 0 ≤ G a ∧ G a ≤ 1) {q : Ptr} (hq : S.used q = true) :
    0 ≤ valR c S P G q ∧ valR c S P G q ≤ (1 + δ) ^ (c.n - S.levelOf c q) := by
  refine used_induction h ho (K := fun q => 0 ≤ valR c S P G q ∧ valR c S P G q ≤ (1 + δ) ^ (c.n - S.levelOf c q))
    ?_ ?_ hq
  · intro q a _ hk
    rw [valR_leaf hk]
    exact ⟨(hG a).1, (hG a).2.trans (one_le_pow₀ (by linarith))⟩
  · intro p i ss hp hk ih
    obtain ⟨z1, z2⟩ := zip_row h hP hp hk
    have hlev : S.levelOf c p = S.idx2lvl i := by simp [Mgr.levelOf, hk]
    have hlt := h.order.i2l_lt i (h.sons p i ss hp hk).1
    have s := sum_mul_le (l := ss.zip (List.range ss.length)) (a := valR c S P G) (b := P i)
      (B := (1 + δ) ^ (c.n - (S.idx2lvl i + 1))) (by
        intro e he
        obtain ⟨h1, h2⟩ := z1 e he
        have hlq := ho p i ss e.1 hp hk h1
        refine ⟨(ih _ h1).1, (ih _ h1).2.trans ?_, h2⟩
        exact pow_le_pow_right₀ (by linarith) (by omega))
    rw [valR_inner h ho hp hk]
    refine ⟨s.1, s.2.trans ?_⟩
    rw [hlev, show c.n - S.idx2lvl i = c.n - (S.idx2lvl i + 1) + 1 by omega, pow_succ]
    exact mul_le_mul_of_nonneg_left z2 (by positivity)

theorem accR_id (l : List (Rat × Rat)) : accR id l = accE l := by
  induction l using List.reverseRecOn with
  | nil => rfl
  | append_singleton l e ih => rw [accR_snoc, accE_snoc, ih]; rfl

theorem rounds_id : Rounds 0 0 id where
  u0 := le_refl _
  u1 := by norm_num
  η0 := le_refl _
  nonneg _ h := h
  error x _ := by simp

theorem valR_within (h : Inv c ext tmp S) (ho : Ordered c S) (hc : CfgOK c) (δ0 : 0 ≤ δ) (δ1 : δ ≤ 1 / 2)
    (hP : NearlySumsToOne δ c.n c.dom P) (hG : ∀ a, 0 ≤ G a) (hp : S.used root = true) :
    valR c S P G root ≤ (1 + 2 * δ) ^ c.n * nodeSum c S P G 0 root ∧
      (1 - δ) ^ c.n * nodeSum c S P G 0 root ≤ valR c S P G root := by
  obtain ⟨D, hD⟩ : ∃ D, ∀ i, i < c.n → c.dom i ≤ D :=
    ⟨((List.range c.n).map c.dom).sum, fun i hi =>
      List.single_le_sum (by simp) _ (List.mem_map.2 ⟨i, List.mem_range.2 hi, rfl⟩)⟩
  have F := factors (η := 0) (le_refl (0 : Rat)) (by norm_num) D δ0 δ1
  have T0 : (0 : Rat) ≤ 2 * D * 0 := by simp
  have key : ∀ q, S.used q = true → Within ((1 + 0) ^ (D + 1) * (1 + 2 * δ)) ((1 - 0) ^ (D + 1) * (1 - δ)) (2 * D * 0)
      (c.n - S.levelOf c q) (prOf c S P G q) (valR c S P G q) := by
    intro q hq
    refine used_induction h ho (K := fun q => Within ((1 + 0) ^ (D + 1) * (1 + 2 * δ)) ((1 - 0) ^ (D + 1) * (1 - δ))
      (2 * D * 0) (c.n - S.levelOf c q) (prOf c S P G q) (valR c S P G q)) ?_ ?_ hq
    · intro q a _ hk
      rw [prOf_leaf hk, valR_leaf hk]
      have e : S.levelOf c q = c.n := by simp [Mgr.levelOf, hk]
      rw [e]
      have := hG a
      refine ⟨this, ?_, ?_⟩ <;> simp
    · intro p i ss hu hk ih
      have := within_inner rounds_id F h ho hc hD hP hG hu hk ih
      rw [accR_id] at this
      rw [valR_inner h ho hu hk]
      unfold accE at this
      rw [List.map_map] at this
      exact this
  have := within_level h ho hc F T0 hP hG hp (key root hp) (Nat.zero_le _)
  obtain ⟨_, w1, w2⟩ := this
  simpa using And.intro w1 w2

/-! ### Mass -/

/-- What has not been passed on to the sons yet, in units of `vf`. -/
noncomputable def partV (S : Mgr) (ds : List Ptr) (vf : Ptr → Rat) (d : Ptr → Option Rat) (q : Ptr) : Rat :=
  if passed S ds q then 0 else (d q).getD 0 * vf q

noncomputable def massV (S : Mgr) (V ds : List Ptr) (vf : Ptr → Rat) (d : Ptr → Option Rat) : Rat :=
  (V.map (partV S ds vf d)).sum

variable {V ds : List Ptr} {vf : Ptr → Rat} {d : Ptr → Option Rat}

/-- The mass with the share of one node set apart. -/
theorem massV_split (hn : V.Nodup) {q : Ptr} (hq : q ∈ V) (hd : passed S ds q = false)
    (hd0 : ∀ r ∈ V, ∃ x, d r = some x ∧ 0 ≤ x) (hv : ∀ r ∈ V, 0 ≤ vf r) :
    ∃ R, 0 ≤ R ∧ ∀ y, massV S V ds vf (upd d q (some y)) = R + y * vf q := by
  refine ⟨massV S V ds vf (upd d q (some 0)), ?_, ?_⟩
  · refine List.sum_nonneg fun x hx => ?_
    obtain ⟨r, hr, rfl⟩ := List.mem_map.1 hx
    unfold partV
    split
    · exact le_refl _
    · refine mul_nonneg ?_ (hv r hr)
      simp only [upd_apply]
      split
      · simp
      · obtain ⟨x, hx, h0⟩ := hd0 r hr
        simp [hx, h0]
  · intro y
    unfold massV
    rw [sum_change hn hq (b := partV S ds vf (upd d q (some 0)))]
    · simp [partV, hd]
    · intro r _ hr
      simp only [partV, upd_apply, hr, if_false]

theorem massV_visit (hn : V.Nodup) {p : Ptr} (hp : p ∈ V) (hd : p ∉ ds) {i : Nat} {ss : List Ptr}
    (hk : S.kind p = .inner i ss) {x : Rat} (hx : d p = some x) :
    massV S V (ds ++ [p]) vf d + x * vf p = massV S V ds vf d := by
  unfold massV
  rw [sum_change hn hp (b := partV S ds vf d)]
  · simp only [partV, passed_not hd]
    simp [passed, hk, hx]
  · intro r _ hr
    simp only [partV, passed_append hr]

theorem massV_leaf {p : Ptr} {a : Int} (hk : S.kind p = .leaf a) :
    massV S V (ds ++ [p]) vf d = massV S V ds vf d := by
  unfold massV
  congr 1
  refine List.map_congr_left ?_
  intro q _
  by_cases e : q = p
  · subst e
    simp [partV, passed, hk]
  · simp only [partV, passed_append e]

end

/-! ### Errors of single steps -/

section
variable {u η B : Rat} {rnd : Rat → Rat}

/-- `M` is `A` after `k` steps with rounding errors. -/
def Near (u η B : Rat) (k : Nat) (A M : Rat) : Prop :=
  M ≤ (1 + u) ^ (2 * k) * (A + 2 * k * η * B) ∧ (1 - u) ^ (2 * k) * A - 2 * k * η * B ≤ M

theorem near_zero (A : Rat) : Near u η B 0 A A := by simp [Near]

theorem near_step (r : Rounds u η rnd) {k : Nat} {A R y z v : Rat} (hR : 0 ≤ R) (hy : 0 ≤ y) (hz : 0 ≤ z)
    (hv : 0 ≤ v) (hB : v ≤ B) (h : Near u η B k A (R + (y + z) * v)) :
    Near u η B (k + 1) A (R + rnd (y + rnd z) * v) := by
  have u0 := r.u0
  have u1 := r.u1
  have η0 := r.η0
  obtain ⟨h1, h2⟩ := h
  have z0 := r.nonneg z hz
  have z1 := r.le hz
  have z2 := r.ge hz
  have s0 : 0 ≤ y + rnd z := by linarith
  have y1 := r.le s0
  have y2 := r.ge s0
  generalize rnd (y + rnd z) = t at *
  generalize rnd z = s at *
  have B0 : 0 ≤ B := hv.trans hB
  have yz : 0 ≤ (y + z) * v := mul_nonneg (by linarith) hv
  have k0 : (0 : Rat) ≤ k := by positivity
  constructor
  · have a1 : t ≤ (1 + u) ^ 2 * (y + z) + 2 * (1 + u) ^ 2 * η := by
      have := mul_le_mul_of_nonneg_left z1 (show 0 ≤ 1 + u by linarith)
      have x1 : 0 ≤ u * y := mul_nonneg u0 hy
      have x2 : 0 ≤ u * (u * y) := mul_nonneg u0 x1
      have x3 : 0 ≤ u * η := mul_nonneg u0 η0
      have x4 : 0 ≤ u * (u * η) := mul_nonneg u0 x3
      nlinarith
    have a2 := mul_le_mul_of_nonneg_right a1 hv
    have a3 : 2 * (1 + u) ^ 2 * η * v ≤ 2 * (1 + u) ^ 2 * η * B := mul_le_mul_of_nonneg_left hB (by positivity)
    have a4 : R ≤ (1 + u) ^ 2 * R := by
      have := mul_le_mul_of_nonneg_right (one_le_pow₀ (show 1 ≤ 1 + u by linarith) (n := 2)) hR
      linarith
    have a5 := mul_le_mul_of_nonneg_left h1 (show 0 ≤ (1 + u) ^ 2 by positivity)
    have a6 : 2 * (1 + u) ^ 2 * η * B ≤ (1 + u) ^ (2 * (k + 1)) * (2 * η * B) := by
      have : (1 + u) ^ 2 ≤ (1 + u) ^ (2 * (k + 1)) := pow_le_pow_right₀ (by linarith) (by omega)
      have := mul_le_mul_of_nonneg_right this (show 0 ≤ 2 * η * B by positivity)
      linarith
    have e : (1 + u) ^ (2 * (k + 1)) * (A + 2 * (k + 1 : Nat) * η * B) =
        (1 + u) ^ 2 * ((1 + u) ^ (2 * k) * (A + 2 * k * η * B)) + (1 + u) ^ (2 * (k + 1)) * (2 * η * B) := by
      push_cast
      rw [show 2 * (k + 1) = 2 * k + 2 by ring, pow_add]
      ring
    rw [e]
    linarith
  · have v0 : 0 ≤ 1 - u := by linarith
    have q0 : 0 ≤ (1 - u) ^ 2 := by positivity
    have q1 : (1 - u) ^ 2 ≤ 1 := pow_le_one₀ v0 (by linarith)
    have a1 : (1 - u) ^ 2 * (y + z) - 2 * η ≤ t := by
      have := mul_le_mul_of_nonneg_left z2 v0
      have x1 : 0 ≤ u * (1 - u) * y := by positivity
      have x3 : 0 ≤ u * η := mul_nonneg u0 η0
      nlinarith
    have a2 := mul_le_mul_of_nonneg_right a1 hv
    have a3 : 2 * η * v ≤ 2 * η * B := mul_le_mul_of_nonneg_left hB (by positivity)
    have a4 : (1 - u) ^ 2 * R ≤ R := by
      have := mul_le_mul_of_nonneg_right q1 hR
      linarith
    have a5 := mul_le_mul_of_nonneg_left h2 q0
    have a6 : (1 - u) ^ 2 * (2 * k * η * B) ≤ 2 * k * η * B := by
      have := mul_le_mul_of_nonneg_right q1 (show 0 ≤ 2 * k * η * B by positivity)
      linarith
    have e : (1 - u) ^ (2 * (k + 1)) * A = (1 - u) ^ 2 * ((1 - u) ^ (2 * k) * A) := by
      rw [show 2 * (k + 1) = 2 * k + 2 by ring, pow_add]
      ring
    rw [e]
    push_cast
    linarith

theorem near_mono {k l : Nat} {A M : Rat} (u0 : 0 ≤ u) (u1 : u ≤ 1) (η0 : 0 ≤ η) (B0 : 0 ≤ B) (hA : 0 ≤ A)
    (hkl : k ≤ l) (h : Near u η B k A M) : Near u η B l A M := by
  have hkl' : (k : Rat) ≤ l := by exact_mod_cast hkl
  have hη : 2 * k * η * B ≤ 2 * l * η * B := by
    have := mul_le_mul_of_nonneg_right hkl' (mul_nonneg η0 B0)
    linarith
  have k0 : (0 : Rat) ≤ k := by positivity
  refine ⟨h.1.trans ?_, le_trans ?_ h.2⟩
  · exact mul_le_mul (pow_le_pow_right₀ (by linarith) (by omega)) (by linarith) (by positivity) (by positivity)
  · have := mul_le_mul_of_nonneg_right
      (pow_le_pow_of_le_one (a := 1 - u) (by linarith) (by linarith) (show 2 * k ≤ 2 * l by omega)) hA
    linarith

end

/-! ### The computation -/

/-- The weight of one value. -/
def only (a : Int) : Int → Rat := fun b => if decide (b = a) = true then 1 else 0

theorem only_bounds (a b : Int) : 0 ≤ only a b ∧ only a b ≤ 1 := by
  unfold only
  split <;> norm_num

/-- The level-order computation with rounding leaves a number near the probability of its value in every terminal. -/
theorem calculateProbabilitiesR_ok {u η δ B : Rat} {rnd : Rat → Rat} {P : Nat → Nat → Rat} {D N : Nat}
    (r : Rounds u η rnd) (g : Good E ext S) (hp : S.used root = true)
    (hcl : CleanBelow S root) (δ0 : 0 ≤ δ) (hP : NearlySumsToOne δ E.c.n E.c.dom P)
    (hD : ∀ i, i < E.c.n → E.c.dom i ≤ D) (hB : (1 + δ) ^ E.c.n ≤ B)
    (hN : ∀ V : List Ptr, V.Nodup → (∀ q ∈ V, Reach S.kind root q) → V.length ≤ N) :
    Ok (calculateProbabilitiesR rnd E.c P root) S (fun _ s' => DSt S s' ∧
      ∀ q a, S.used q = true → S.kind q = .leaf a → a ≠ Undefined →
        ∃ v, s'.data q = some v ∧ 0 ≤ v ∧ (¬ Reach S.kind root q → v = 0) ∧
          Near u η B (D * N) (valR E.c S P (only a) root) v) := by
  have h := g.inv
  have ho := g.ord
  have hc := g.cfg
  have B0 : Below E.c S root := Below.of h ho hp
  unfold calculateProbabilitiesR
  refine Ok.bind (traversePre_ok (I := fun vs (_ : Unit) d => ∀ q ∈ vs, d q = some 0) B0 hcl
    (by simp) ?_) ?_
  · rintro vs p _ s hT hI hr hpv
    have hus : s.used p = true := by rw [hT.used]; exact B0.used p hr
    refine Ok.of_eq (setData_ok hus 0) ⟨hT.setData _, ?_⟩
    intro q hq
    simp only [upd_apply]
    split
    · rfl
    · rename_i e
      rcases List.mem_append.1 hq with hq | hq
      · exact hI q hq
      · simp at hq; exact absurd hq e
  rintro _ s0 ⟨V, hVn, hV, e0, hz⟩
  have D0 : DSt S s0 := e0
  refine Ok.bind (resetTerminals_ok (D0.good g).inv) ?_
  rintro _ s1 ⟨D1, hd1⟩
  have D01 := D0.trans D1
  have hp1 : s1.used root = true := by rw [D01.used]; exact hp
  refine Ok.bindEq (setData_ok hp1 1) ?_
  generalize hs2 : ({ s1 with data := upd s1.data root (some 1) } : Mgr) = s2
  have Ds : DSt S s2 := by rw [← hs2]; exact D01.set _
  have g2 := Ds.good g
  have h2 := g2.inv
  have ho2 := g2.ord
  have hp2 : s2.used root = true := by rw [Ds.used]; exact hp
  have Bw : Below E.c s2 root := Below.of h2 ho2 hp2
  have hV2 : ∀ q, q ∈ V ↔ Reach s2.kind root q := by intro q; rw [Ds.kind]; exact hV q
  have hrV : root ∈ V := (hV2 root).2 .refl
  have hval : ∀ G q, valR E.c s2 P G q = valR E.c S P G q := by
    intro G q
    have : ∀ k q, nodeVal s2 P G k q = nodeVal S P G k q := by
      intro k
      induction k with
      | zero => intro q; rfl
      | succ k ih =>
          intro q
          rw [nodeVal, nodeVal, Ds.kind]
          cases S.kind q with
          | leaf a => rfl
          | inner i ss => simp only [ih]
    exact this _ _
  let vf : Int → Ptr → Rat := fun a => valR E.c s2 P (only a)
  have vf0 : ∀ a, ∀ q ∈ V, 0 ≤ vf a q := fun a q hq =>
    (valR_bounds h2 ho2 δ0 hP (only_bounds a) (Bw.used q ((hV2 q).1 hq))).1
  have vfB : ∀ a, ∀ q ∈ V, vf a q ≤ B := fun a q hq =>
    (valR_bounds h2 ho2 δ0 hP (only_bounds a) (Bw.used q ((hV2 q).1 hq))).2.trans
      ((pow_le_pow_right₀ (by linarith) (by omega)).trans hB)
  have z1 : ∀ q ∈ V, s1.data q = some 0 := by
    intro q hq
    rw [hd1]
    split
    · rfl
    · exact hz q hq
  have dat : ∀ q, s2.data q = if q = root then some 1 else s1.data q := by
    intro q
    rw [← hs2]
    simp only [upd_apply]
  have start : ∀ a, massV s2 V [] (vf a) s2.data = vf a root := by
    intro a
    unfold massV
    rw [sum_change hVn hrV (b := fun _ => 0), sum_zero]
    · simp [partV, passed_not, dat]
    · intro r hr hne
      simp [partV, passed_not, dat, hne, z1 r hr]
  refine (traverseLevel_ok (I := fun ds d => (∀ q ∈ V, ∃ x, d q = some x ∧ 0 ≤ x) ∧
    (∀ q, q ∉ V → d q = s2.data q) ∧
    ∃ k, k ≤ D * ds.length ∧ ∀ a, Near u η B k (vf a root) (massV s2 V ds (vf a) d)) Bw ?_
    ⟨?_, fun _ _ => rfl, 0, by simp, fun a => by rw [start]; exact near_zero _⟩ ?_).mono ?_
  · intro q hq
    rw [Ds.kind] at hq
    rw [Ds.mark]
    exact hcl q hq
  · intro q hq
    rw [dat]
    split
    · exact ⟨1, rfl, by norm_num⟩
    · exact ⟨0, z1 q hq, le_refl _⟩
  · rintro vs ds p s hT ⟨hsome, hout, k, hkl, hmass⟩ hr hpd hlev
    have hup := Bw.used p hr
    have hus : s.used p = true := by rw [hT.used]; exact hup
    have hpV := (hV2 p).2 hr
    unfold ntpsLevelVisitR
    refine Ok.bindEq (getKind_ok hus) ?_
    rw [hT.kind]
    cases hk : s2.kind p with
    | leaf a =>
        refine Ok.pure ⟨hT, hsome, hout, k, hkl.trans (Nat.mul_le_mul_left _ (by simp)), fun a => ?_⟩
        rw [massV_leaf hk]
        exact hmass a
    | inner i ss =>
        dsimp only
        obtain ⟨hi, hlen, hu⟩ := h2.sons p i ss hup hk
        obtain ⟨x, hx, x0⟩ := hsome p hpV
        refine (forL_rule (I := fun rest s' => TSt s2 s2.mark true vs s' ∧
          (∀ q ∈ V, ∃ x, s'.data q = some x ∧ 0 ≤ x) ∧ (∀ q, q ∉ V → s'.data q = s2.data q) ∧
          s'.data p = some x ∧ (∃ done, ss.zip (List.range ss.length) = done ++ rest) ∧
          ∃ j, j + rest.length ≤ k + ss.length ∧ ∀ a, Near u η B j (vf a root)
            (massV s2 V (ds ++ [p]) (vf a) s'.data + x * (rest.map fun e => vf a e.1 * P i e.2).sum)) ?_ _ _
          ⟨hT, hsome, hout, hx, ⟨[], by simp⟩, k, by simp, ?_⟩).mono ?_
        · rintro ⟨q, m⟩ rest s' ⟨hT', hsome', hout', hx', ⟨done, hz'⟩, j, hj, hm'⟩
          have hzq : (q, m) ∈ ss.zip (List.range ss.length) := by rw [hz']; simp
          have hq : q ∈ ss := (List.of_mem_zip hzq).1
          have hPm : 0 ≤ P i m := (hP i hi).1 m (by rw [← hlen]; exact List.mem_range.1 (List.of_mem_zip hzq).2)
          have hlt := ho2 p i ss q hup hk hq
          have hqp : q ≠ p := by rintro rfl; omega
          have hqd : q ∉ ds ++ [p] := fun hqd => by
            rcases List.mem_append.1 hqd with hqd | hqd
            · have := hlev q hqd; omega
            · exact hqp (by simpa using hqd)
          have hqV : q ∈ V := (hV2 q).2 (hr.snoc hk hq)
          have hqu : s'.used q = true := by rw [hT'.used]; exact hu q hq
          have hpu : s'.used p = true := by rw [hT'.used]; exact hup
          obtain ⟨y, hy, y0⟩ := hsome' q hqV
          have xP : 0 ≤ x * P i m := mul_nonneg x0 hPm
          refine Ok.bindEq (getData_ok hpu hx') ?_
          refine Ok.bindEq (getData_ok hqu hy) ?_
          refine Ok.of_eq (setData_ok hqu _) ⟨hT'.setData _, ?_, ?_, ?_, ⟨done ++ [(q, m)], by simp [hz']⟩,
            j + 1, ?_, ?_⟩
          · intro t ht
            simp only [upd_apply]
            split
            · exact ⟨_, rfl, r.nonneg _ (by have := r.nonneg _ xP; linarith)⟩
            · exact hsome' t ht
          · intro t ht
            have : t ≠ q := by rintro rfl; exact ht hqV
            simp only [upd_apply, this, if_false]
            exact hout' t ht
          · simp only [upd_apply, Ne.symm hqp, if_false]
            exact hx'
          · simp only [List.length_cons] at hj
            omega
          · intro a
            obtain ⟨R, R0, hR⟩ := massV_split (vf := vf a) hVn hqV (passed_not hqd) hsome' (vf0 a)
            have hself : upd s'.data q (some y) = s'.data := by
              funext t
              simp only [upd_apply]
              split
              · rename_i e; rw [e, hy]
              · rfl
            have hm := hm' a
            rw [← hself, hR y] at hm
            dsimp only
            rw [hR]
            simp only [List.map_cons, List.sum_cons] at hm
            have C0 : 0 ≤ x * (rest.map fun e => vf a e.1 * P i e.2).sum := by
              refine mul_nonneg x0 (List.sum_nonneg ?_)
              intro t ht
              obtain ⟨e, he, rfl⟩ := List.mem_map.1 ht
              have hze : e ∈ ss.zip (List.range ss.length) := by rw [hz']; simp [he]
              have h1 := List.of_mem_zip (a := e.1) (b := e.2) hze
              exact mul_nonneg (vf0 a _ ((hV2 _).2 (hr.snoc hk h1.1)))
                ((hP i hi).1 _ (by rw [← hlen]; exact List.mem_range.1 h1.2))
            have := near_step (R := R + x * (rest.map fun e => vf a e.1 * P i e.2).sum) (y := y) (z := x * P i m)
              (v := vf a q) (A := vf a root) (k := j) (B := B) r (by linarith) y0 xP (vf0 a q hqV) (vfB a q hqV) (by
                convert hm using 1
                ring)
            convert this using 1
            ring
        · intro a
          have := massV_visit (vf := vf a) hVn hpV hpd hk hx
          rw [show ((ss.zip (List.range ss.length)).map fun e => vf a e.1 * P i e.2).sum = vf a p from
            (valR_inner h2 ho2 hup hk).symm, this]
          exact hmass a
        · rintro _ s' ⟨hT', hsome', hout', hx', _, j, hj, hm'⟩
          refine ⟨hT', hsome', hout', j, ?_, fun a => ?_⟩
          · have := hD i hi
            simp only [List.length_nil, Nat.add_zero, List.length_append, List.length_singleton] at hj ⊢
            rw [Nat.mul_add]
            omega
          · have := hm' a
            simpa using this
  · rintro _ s3 ⟨ds, hdn, hds, e3, hsome, hout, k, hkl, hmass⟩
    have D3 : DSt s2 s3 := e3
    refine ⟨Ds.trans D3, ?_⟩
    intro t a htu htk ha
    rw [← Ds.used] at htu
    rw [← Ds.kind] at htk
    have hdsN : ds.length ≤ N := hN ds hdn fun q hq => by
      have := (hds q).1 hq
      rw [Ds.kind] at this
      exact this
    have near : Near u η B (D * N) (vf a root) (massV s2 V ds (vf a) s3.data) :=
      near_mono r.u0 r.u1 r.η0 ((vf0 a root hrV).trans (vfB a root hrV)) (vf0 a root hrV)
        (hkl.trans (Nat.mul_le_mul_left _ hdsN)) (hmass a)
    rw [← hval]
    have hpass : ∀ q ∈ V, passed s2 ds q = true ∨ ∃ b, s2.kind q = .leaf b := by
      intro q hq
      cases hk : s2.kind q with
      | leaf b => exact Or.inr ⟨b, rfl⟩
      | inner i ss =>
          refine Or.inl ?_
          simp [passed, hk, (hds q).2 ((hV2 q).1 hq)]
    have other : ∀ r ∈ V, r ≠ t → partV s2 ds (vf a) s3.data r = 0 := by
      intro r hr hne
      rcases hpass r hr with h | ⟨b, hb⟩
      · simp [partV, h]
      · have hba : b ≠ a := by
          rintro rfl
          exact hne (leaf_inj h2 (Bw.used r ((hV2 r).1 hr)) htu hb htk ha)
        have : vf a r = 0 := by
          show valR E.c s2 P (only a) r = 0
          rw [valR_leaf hb]
          simp [only, hba]
        simp [partV, this]
    by_cases htV : t ∈ V
    · obtain ⟨x, hx, x0⟩ := hsome t htV
      refine ⟨x, hx, x0, fun hn => absurd ((hV t).1 htV) hn, ?_⟩
      have e : massV s2 V ds (vf a) s3.data = x := by
        unfold massV
        rw [sum_change hVn htV (b := fun _ => 0) other, sum_zero]
        have : vf a t = 1 := by
          show valR E.c s2 P (only a) t = 1
          rw [valR_leaf htk]
          simp [only]
        simp [partV, passed, htk, hx, this]
      rw [e] at near
      exact near
    · have e : massV s2 V ds (vf a) s3.data = 0 := by
        unfold massV
        rw [List.map_congr_left (fun r hr => other r hr (by rintro rfl; exact htV hr)), sum_zero]
      rw [e] at near
      refine ⟨0, ?_, le_refl _, fun _ => rfl, near⟩
      rw [hout t htV, dat, if_neg (by rintro rfl; exact htV hrV), hd1]
      rw [Ds.used] at htu
      rw [Ds.kind] at htk
      obtain ⟨v, _, hv⟩ := leaf_place h htu htk ha
      rw [D0.terminals, if_pos (List.mem_of_getElem? hv)]

/-! ### The error of the result -/

theorem near_error {u η δ A W v : Rat} {K n : Nat} (u0 : 0 ≤ u) (u1 : u ≤ 1) (η0 : 0 ≤ η) (δ0 : 0 ≤ δ) (δ1 : δ ≤ 1)
    (hA : 0 ≤ A) (hs : 2 * K * u + 2 * (n * δ) ≤ 1 / 2) (hW : W ≤ (1 + 2 * δ) ^ n * A) (hW' : (1 - δ) ^ n * A ≤ W)
    (h : Near u η 2 K W v) : |v - A| ≤ 2 * (2 * K * u + 2 * (n * δ)) * A + 8 * K * η := by
  obtain ⟨h1, h2⟩ := h
  have nδ : 0 ≤ (n : Rat) * δ := by positivity
  have Ku : 0 ≤ (K : Rat) * u := by positivity
  have Kη : 0 ≤ (K : Rat) * η := by positivity
  have hg := pow_growth (a := 2 * K) (b := n) u0 (show 0 ≤ 2 * δ by linarith) (by push_cast; linarith)
  have hd := pow_decay (a := 2 * K) (b := n) u0 u1 δ0 δ1 (by push_cast; linarith)
  push_cast at hg hd
  have g1 : 0 ≤ (1 + u) ^ (2 * K) := by positivity
  have g0 : (1 + u) ^ (2 * K) ≤ 2 := by
    have := pow_growth (a := 2 * K) (b := 0) u0 (le_refl 0) (by push_cast; linarith)
    push_cast at this
    simp only [pow_zero, mul_one, mul_zero, add_zero] at this
    linarith
  have d1 : 0 ≤ (1 - u) ^ (2 * K) := pow_nonneg (by linarith) _
  have t1 := mul_le_mul_of_nonneg_left hW g1
  have t2 := mul_le_mul_of_nonneg_left hW' d1
  have t3 := mul_le_mul_of_nonneg_right hg hA
  have t4 := mul_le_mul_of_nonneg_right hd hA
  have t5 := mul_le_mul_of_nonneg_right g0 (show 0 ≤ 2 * K * η * 2 by positivity)
  have t6 : 0 ≤ (2 * K * u + 3 * (n * δ)) * A := by positivity
  rw [abs_le]
  constructor <;> linarith

/-- `calculate_probabilities` in floating point. -/
theorem levelError_ok {u η δ : Rat} {rnd : Rat → Rat} {P : Nat → Nat → Rat} {D N : Nat}
    (r : Rounds u η rnd) (g : Good E ext S) (hp : S.used root = true)
    (hcl : CleanBelow S root) {f : Asg → Int} (hd : Den E.c S root f)
    (hP : NearlySumsToOne δ E.c.n E.c.dom P) (hD : ∀ i, i < E.c.n → E.c.dom i ≤ D)
    (hN : ∀ V : List Ptr, V.Nodup → (∀ q ∈ V, Reach S.kind root q) → V.length ≤ N)
    (hs : 2 * (D * N : Nat) * u + 2 * (E.c.n * δ) ≤ 1 / 2) :
    Ok (calculateProbabilitiesR rnd E.c P root) S (fun _ s' => DSt S s' ∧
      ∀ q a, S.used q = true → S.kind q = .leaf a → a ≠ Undefined →
        ∃ v, s'.data q = some v ∧ 0 ≤ v ∧ (¬ Reach S.kind root q → v = 0) ∧
          |v - probability E.c.n E.c.dom P (fun x => decide (f x = a))| ≤
            2 * (2 * (D * N : Nat) * u + 2 * (E.c.n * δ)) * probability E.c.n E.c.dom P (fun x => decide (f x = a)) +
              8 * (D * N : Nat) * η) := by
  have h := g.inv
  have ho := g.ord
  have hc := g.cfg
  obtain ⟨ε, ε0, ε1, hPε, hε⟩ : ∃ ε : Rat, 0 ≤ ε ∧ ε ≤ 1 / 2 ∧ NearlySumsToOne ε E.c.n E.c.dom P ∧
      (E.c.n : Rat) * ε = E.c.n * δ := by
    by_cases hn : E.c.n = 0
    · exact ⟨0, le_refl _, by norm_num, fun i hi => absurd hi (by omega), by rw [hn]; simp⟩
    · have n1 : (1 : Rat) ≤ E.c.n := by exact_mod_cast Nat.one_le_iff_ne_zero.2 hn
      have δ0 : 0 ≤ δ := (abs_nonneg _).trans (hP 0 (by omega)).2
      have h1 : 0 ≤ 2 * ((D * N : Nat) : Rat) * u := by have := r.u0; positivity
      exact ⟨δ, δ0, by nlinarith, hP, rfl⟩
  rw [← hε] at hs ⊢
  have Ku : 0 ≤ 2 * ((D * N : Nat) : Rat) * u := by have := r.u0; positivity
  have nε : 0 ≤ (E.c.n : Rat) * ε := by positivity
  have hB : (1 + ε) ^ E.c.n ≤ 2 := by
    have := pow_growth (x := 0) (a := 0) (b := E.c.n) (le_refl _) ε0 (by push_cast; linarith)
    simp only [add_zero, one_pow, one_mul, Nat.cast_zero, mul_zero, zero_add] at this
    linarith
  refine (calculateProbabilitiesR_ok r g hp hcl ε0 hPε hD hB hN).mono ?_
  rintro _ s' ⟨Ds, hv⟩
  refine ⟨Ds, fun q a hq hk ha => ?_⟩
  obtain ⟨v, h1, h2, h3, h4⟩ := hv q a hq hk ha
  refine ⟨v, h1, h2, h3, ?_⟩
  obtain ⟨w1, w2⟩ := valR_within (G := only a) h ho hc ε0 ε1 hPε (fun b => (only_bounds a b).1) hp
  have e : nodeSum E.c S P (only a) 0 root = probability E.c.n E.c.dom P (fun x => decide (f x = a)) := by
    rw [probability_eq (varsFrom_zero_perm h.order)]
    unfold nodeSum
    refine wsum_congr (nodup_varsFrom h.order) ?_
    intro x h1 h2
    rw [valOf_eq (hd x (valid_of_vars hc h1 h2))]
    rfl
  rw [e] at w1 w2
  exact near_error r.u0 r.u1 r.η0 ε0 (by linarith) (probability_nearly hP _) hs w1 w2 h4

/-- Adding up the probabilities of the terminals, with rounding. -/
theorem sumTerminalsR_ok {u η ε τ : Rat} {rnd : Rat → Rat} {P : Nat → Nat → Rat} {N : Nat} (r : Rounds u η rnd)
    (hid : ∀ x, 0 ≤ x → rnd (rnd x) = rnd x) (hz : rnd 0 = 0) (g : Good E ext s) {f : Asg → Int}
    (hp : s.used root = true) (hd : Den E.c s root f)
    (hs : ∀ q a, s.used q = true → s.kind q = .leaf a → a ≠ Undefined →
      ∃ v, s.data q = some v ∧ 0 ≤ v ∧ (¬ Reach s.kind root q → v = 0) ∧
        |v - probability E.c.n E.c.dom P (fun x => decide (f x = a))| ≤
          ε * probability E.c.n E.c.dom P (fun x => decide (f x = a)) + τ)
    (τ0 : 0 ≤ τ) (hU : ∀ x, Valid E.c x → f x ≠ Undefined)
    (hN : ∀ V : List Ptr, V.Nodup → (∀ q ∈ V, Reach s.kind root q) → V.length ≤ N) (φ : Int → Bool) :
    Ok (sumTerminalsR rnd φ) s (fun v s' => s' = s ∧ ∃ X, 0 ≤ X ∧
      |X - probability E.c.n E.c.dom P (fun x => φ (f x))| ≤
        ε * probability E.c.n E.c.dom P (fun x => φ (f x)) + N * τ ∧
      v ≤ (1 + u) ^ N * (X + N * η) ∧ (1 - u) ^ N * X - N * η ≤ v) := by
  have h := g.inv
  have u0 := r.u0
  have u1 := r.u1
  have η0 := r.η0
  unfold sumTerminalsR
  refine Ok.bindGet ?_
  have place : ∀ x, Valid E.c x → ∃ (v : Nat) (p : Ptr), f x = v ∧ s.terminals[v]? = some (some p) := by
    intro x hx
    obtain ⟨q, hr, hk⟩ := (leafVal_iff g hp hd).2 ⟨x, hx, rfl⟩
    obtain ⟨v, h1, h2⟩ := leaf_place h (hr.used h hp) hk (hU x hx)
    exact ⟨v, q, h1, h2⟩
  refine (foldL_rule (I := fun rest (acc : Rat) s' => s' = s ∧ 0 ≤ acc ∧ rnd acc = acc ∧ ∃ (k : Nat) (V : List Ptr) (X : Rat),
    rest = s.terminals.drop k ∧ V.Nodup ∧ (∀ q ∈ V, Reach s.kind root q ∧ ∃ j : Nat, j < k ∧ s.kind q = .leaf j) ∧
    0 ≤ X ∧ |X - probability E.c.n E.c.dom P (fun x => φ (f x) && decide (f x < (k : Int)))| ≤
      ε * probability E.c.n E.c.dom P (fun x => φ (f x) && decide (f x < (k : Int))) + V.length * τ ∧
    acc ≤ (1 + u) ^ V.length * (X + V.length * η) ∧ (1 - u) ^ V.length * X - V.length * η ≤ acc)
    ?_ s.terminals 0 s ⟨rfl, le_refl _, hz, 0, [], 0, by simp, by simp, by simp, le_refl _, ?_, by simp, by simp⟩).mono ?_
  · rintro o rest acc s' ⟨rfl, a0, hacc, k, V, X, hr, hVn, hV, X0, hX, hi, lo⟩
    have hk : s'.terminals[k]? = some o := by
      rw [← List.head?_drop, ← hr]; rfl
    have hr' : rest = s'.terminals.drop (k + 1) := by
      rw [← List.tail_drop, ← hr]; rfl
    have hV' : ∀ q ∈ V, Reach s'.kind root q ∧ ∃ j : Nat, j < k + 1 ∧ s'.kind q = .leaf j := by
      intro q hq
      obtain ⟨h1, j, h2, h3⟩ := hV q hq
      exact ⟨h1, j, by omega, h3⟩
    have step : ∀ x, decide (f x < ((k + 1 : Nat) : Int)) = (decide (f x < (k : Int)) || decide (f x = k)) := by
      intro x
      rw [Bool.eq_iff_iff]
      simp
      omega
    have skip : (∀ x, Valid E.c x → φ (f x) = true → f x ≠ k) →
        probability E.c.n E.c.dom P (fun x => φ (f x) && decide (f x < (k : Int)))
          = probability E.c.n E.c.dom P (fun x => φ (f x) && decide (f x < ((k + 1 : Nat) : Int))) := by
      intro hno
      refine probability_congr h.order g.cfg ?_
      intro x hx
      rw [step]
      cases hφ : φ (f x) with
      | false => rfl
      | true => simp [hno x hx hφ]
    cases o with
    | none =>
        refine Ok.pure ⟨rfl, a0, hacc, k + 1, V, X, hr', hVn, hV', X0, ?_, hi, lo⟩
        rw [← skip]
        · exact hX
        · intro x hx _ e
          obtain ⟨v, p, h1, h2⟩ := place x hx
          rw [e] at h1
          cases Int.ofNat_inj.1 h1
          rw [hk] at h2
          cases h2
    | some p =>
        obtain ⟨hkind, hne⟩ := h.termKind k p hk
        have hu := h.termUsed hk
        dsimp only
        refine Ok.bindEq (getKind_ok hu) ?_
        rw [hkind]
        dsimp only
        by_cases hφ : φ (k : Int) = true
        · rw [if_pos hφ]
          obtain ⟨v, hv, v0, vz, verr⟩ := hs p _ hu hkind hne
          refine Ok.bindEq (getData_ok hu hv) ?_
          by_cases hreach : Reach s'.kind root p
          · have eA : probability E.c.n E.c.dom P (fun x => φ (f x) && decide (f x < ((k + 1 : Nat) : Int))) =
                probability E.c.n E.c.dom P (fun x => φ (f x) && decide (f x < (k : Int))) +
                  probability E.c.n E.c.dom P (fun x => decide (f x = k)) := by
              rw [← probability_or]
              · congr 1
                funext x
                rw [step]
                by_cases e : f x = k
                · simp [e, hφ]
                · simp [e]
              · intro x
                simp
                omega
            have s0 : 0 ≤ acc + v := by linarith
            refine Ok.pure ⟨rfl, r.nonneg _ s0, hid _ s0, k + 1, p :: V, X + v, hr', ?_, ?_, by linarith, ?_, ?_, ?_⟩
            · refine List.nodup_cons.2 ⟨fun hpV => ?_, hVn⟩
              obtain ⟨_, j, hj, hjk⟩ := hV p hpV
              rw [hkind] at hjk
              have : (k : Int) = j := by cases hjk; rfl
              omega
            · intro q hq
              rcases List.mem_cons.1 hq with rfl | hq
              · exact ⟨hreach, k, by omega, hkind⟩
              · exact hV' q hq
            · rw [eA]
              simp only [List.length_cons]
              push_cast
              have := abs_add_le (X - probability E.c.n E.c.dom P (fun x => φ (f x) && decide (f x < (k : Int))))
                (v - probability E.c.n E.c.dom P (fun x => decide (f x = k)))
              rw [show X + v - (probability E.c.n E.c.dom P (fun x => φ (f x) && decide (f x < (k : Int))) +
                  probability E.c.n E.c.dom P (fun x => decide (f x = k))) =
                  X - probability E.c.n E.c.dom P (fun x => φ (f x) && decide (f x < (k : Int))) +
                    (v - probability E.c.n E.c.dom P (fun x => decide (f x = k))) by ring]
              linarith
            · refine (r.le s0).trans ?_
              simp only [List.length_cons]
              push_cast
              have g1 : (1 : Rat) ≤ (1 + u) ^ V.length := one_le_pow₀ (by linarith)
              have m0 : (0 : Rat) ≤ V.length := by positivity
              have p1 : acc + v ≤ (1 + u) ^ V.length * (X + v + V.length * η) := by
                have := mul_le_mul_of_nonneg_right g1 v0
                linarith
              have p2 := mul_le_mul_of_nonneg_left p1 (show 0 ≤ 1 + u by linarith)
              have p3 : η ≤ (1 + u) ^ (V.length + 1) * η := by
                have := mul_le_mul_of_nonneg_right (one_le_pow₀ (show 1 ≤ 1 + u by linarith) (n := V.length + 1)) η0
                linarith
              have e : (1 + u) ^ (V.length + 1) * (X + v + (V.length + 1) * η) =
                  (1 + u) * ((1 + u) ^ V.length * (X + v + V.length * η)) + (1 + u) ^ (V.length + 1) * η := by
                rw [pow_succ]; ring
              rw [e]
              linarith
            · refine le_trans ?_ (r.ge s0)
              simp only [List.length_cons]
              push_cast
              have w0 : 0 ≤ 1 - u := by linarith
              have g1 : (1 - u) ^ V.length ≤ 1 := pow_le_one₀ w0 (by linarith)
              have m0 : (0 : Rat) ≤ V.length := by positivity
              have p1 : (1 - u) ^ V.length * (X + v) - V.length * η ≤ acc + v := by
                have := mul_le_mul_of_nonneg_right g1 v0
                linarith
              have p2 := mul_le_mul_of_nonneg_left p1 w0
              have p3 : 0 ≤ u * (V.length * η) := by positivity
              rw [pow_succ]
              linarith
          · rw [vz hreach, add_zero, hacc]
            refine Ok.pure ⟨rfl, a0, hacc, k + 1, V, X, hr', hVn, hV', X0, ?_, hi, lo⟩
            rw [← skip]
            · exact hX
            · intro x hx _ e
              obtain ⟨q, hq, hqk⟩ := (leafVal_iff g hp hd).2 ⟨x, hx, e⟩
              have : q = p := leaf_inj h (hq.used h hp) hu hqk hkind hne
              exact hreach (this ▸ hq)
        · rw [if_neg hφ]
          refine Ok.pure ⟨rfl, a0, hacc, k + 1, V, X, hr', hVn, hV', X0, ?_, hi, lo⟩
          rw [← skip]
          · exact hX
          · intro x _ h1 e
            rw [e] at h1
            exact hφ h1
  · have : probability E.c.n E.c.dom P (fun x => φ (f x) && decide (f x < ((0 : Nat) : Int))) = 0 := by
      rw [← probability_false (n := E.c.n) (dom := E.c.dom)]
      refine probability_congr h.order g.cfg ?_
      intro x hx
      obtain ⟨v, p, h1, h2⟩ := place x hx
      simp [h1]
    rw [this]
    simp
  · rintro acc s' ⟨rfl, a0, hacc, k, V, X, hr, hVn, hV, X0, hX, hi, lo⟩
    have e : probability E.c.n E.c.dom P (fun x => φ (f x) && decide (f x < (k : Int))) =
        probability E.c.n E.c.dom P (fun x => φ (f x)) := by
      refine probability_congr h.order g.cfg ?_
      intro x hx
      obtain ⟨v, p, h1, h2⟩ := place x hx
      have hv : v < s'.terminals.length := by
        by_contra hc
        rw [List.getElem?_eq_none (by omega)] at h2
        cases h2
      have : s'.terminals.length ≤ k := by
        have := congrArg List.length hr
        simp at this
        omega
      have : v < k := by omega
      simp [h1, this]
    rw [e] at hX
    have hl := hN V hVn fun q hq => (hV q hq).1
    have hl' : (V.length : Rat) ≤ N := by exact_mod_cast hl
    have m0 : (0 : Rat) ≤ V.length := by positivity
    refine ⟨rfl, X, X0, ?_, hi.trans ?_, le_trans ?_ lo⟩
    · have := mul_le_mul_of_nonneg_right hl' τ0
      linarith
    · have := mul_le_mul_of_nonneg_right hl' η0
      exact mul_le_mul (pow_le_pow_right₀ (by linarith) hl) (by linarith) (by positivity) (by positivity)
    · have := mul_le_mul_of_nonneg_right hl' η0
      have := mul_le_mul_of_nonneg_right
        (pow_le_pow_of_le_one (a := 1 - u) (by linarith) (by linarith) hl) X0
      linarith

theorem sum_error {u η ε τ A X v : Rat} {N : Nat} (u0 : 0 ≤ u) (u1 : u ≤ 1) (η0 : 0 ≤ η) (ε1 : ε ≤ 1)
    (τ0 : 0 ≤ τ) (hA : 0 ≤ A) (hs : N * u ≤ 1 / 2) (X0 : 0 ≤ X) (hX : |X - A| ≤ ε * A + N * τ)
    (hi : v ≤ (1 + u) ^ N * (X + N * η)) (lo : (1 - u) ^ N * X - N * η ≤ v) :
    |v - A| ≤ (ε + 4 * (N * u)) * A + 2 * N * (τ + η) := by
  obtain ⟨x1, x2⟩ := abs_le.1 hX
  have Nu : 0 ≤ (N : Rat) * u := by positivity
  have Nη : 0 ≤ (N : Rat) * η := by positivity
  have Nτ : 0 ≤ (N : Rat) * τ := by positivity
  have hg := pow_growth (a := N) (b := 0) u0 (le_refl 0) (by push_cast; linarith)
  have hd := pow_decay (a := N) (b := 0) u0 u1 (le_refl 0) (by norm_num) (by push_cast; linarith)
  simp only [pow_zero, mul_one, mul_zero, add_zero] at hg hd
  have t1 := mul_le_mul_of_nonneg_right hg (show 0 ≤ X + N * η by linarith)
  have t2 := mul_le_mul_of_nonneg_right hd X0
  have εA : ε * A ≤ A := by nlinarith
  have t3 : 2 * (N * u) * (X + N * η) ≤ 2 * (N * u) * (2 * A + N * τ + N * η) :=
    mul_le_mul_of_nonneg_left (by linarith) (by linarith)
  have t4 : 2 * (N * u) * (N * τ + N * η) ≤ 1 * (N * τ + N * η) :=
    mul_le_mul_of_nonneg_right (by linarith) (by linarith)
  have t5 : (N * u) * X ≤ (N * u) * (2 * A + N * τ) := mul_le_mul_of_nonneg_left (by linarith) Nu
  have t6 : N * u * (N * τ) ≤ 1 * (N * τ) := mul_le_mul_of_nonneg_right (by linarith) Nτ
  have t7 : 0 ≤ N * u * A := by positivity
  rw [abs_le]
  constructor <;> linarith

end Teddy
