import Verif.Demo

/-!
# Properties of diagrams

One theorem per property (see `properties.jsonl`), each followed by an example that meets its
hypotheses.  `Reachable P w σ` ranges over all histories of calls on a manager set up as `P`; the
statements talk about what calls return in `w`.
-/

namespace Teddy
namespace Properties

open SM Spec

variable {P : Setup} {w : World} {σ : SState}

/-! ### C01 apply is pointwise -/

/-- `apply<Op>(a, b)` evaluates to the operation applied to the values of `a` and `b`; all handles
evaluate as before.

Missing for the full property: histories in which `PLUS`, `MULTIPLIES` or the bounded maximum are used with different
parameters (`hΓ`; `C01_violated`), and sums and products that overflow (`hop`; C21). -/
theorem C01_apply_partial (hP : P.OK) (h : Reachable P w σ) (hauto : σ.auto = false) (hcache : σ.cacheOK = true) {op : BinOp}
    (hΓ : P.Γ (opType P.c op).id = opType P.c op) {a b : Nat} {f g : Asg → Int}
    (ha : Denotes P w a f) (hb : Denotes P w b g)
    (hop : OpOK P.c (opType P.c op) (Range P.c f) (Range P.c g)) :
    Makes P w (.apply op a b) (fun x => (opType P.c op).val (f x) (g x)) := by
  obtain ⟨f', hf, e1⟩ := (reachable_rel hP h).of_denotes ha
  obtain ⟨g', hg, e2⟩ := (reachable_rel hP h).of_denotes hb
  refine makes (k := .apply op a b) hP h ⟨hcache, hΓ, f', g', hf, hg, ?_⟩ rfl ?_
  · rw [e1.range, e2.range]; exact hop
  · intro x hx
    dsimp only
    rw [hf.fn, hg.fn, e1 x hx, e2 x hx]

/-- x0 xor x1, in a manager that already holds x0, x1 and x0 ∧ x1. -/
example : ∃ w σ, Reachable bdd3 w σ ∧
    Makes bdd3 w (.apply Op.XOR 0 1) (fun x => Op.XOR.val (x 0) (x 1)) := by
  obtain ⟨w, h⟩ := bdd3_world
  have R := reachable_rel bdd3_ok h
  exact ⟨w, _, h, C01_apply_partial bdd3_ok h rfl rfl rfl (R.denotes rfl) (R.denotes rfl)
    (opOK_XOR term1_bdd3 (bits_x (by decide) rfl) (bits_x (by decide) rfl))⟩

/-- `apply_n<Op>(as..., b)` evaluates to the right fold of the operation. -/
theorem C01_apply_n (hP : P.OK) (h : Reachable P w σ) (hauto : σ.auto = false) {op : BinOp} {as : List Nat} {b : Nat}
    {fs : List (Asg → Int)} {g : Asg → Int} (ha : List.Forall₂ (Denotes P w) as fs)
    (hb : Denotes P w b g)
    (hop : NOpOK P.c (opType P.c op).nary ((fs ++ [g]).map (Range P.c))) :
    Makes P w (.applyN op (as ++ [b]))
      (fun x => (fs.map fun f => f x).foldr (opType P.c op).val (g x)) := by
  obtain ⟨fs', hf, e⟩ := (reachable_rel hP h).of_denotesAll ha
  obtain ⟨g', hg, eg⟩ := (reachable_rel hP h).of_denotes hb
  have hr : (fs' ++ [g']).map (Range P.c) = (fs ++ [g]).map (Range P.c) := by
    simp only [List.map_append, List.map_cons, List.map_nil, eg.range]
    congr 1
    clear hf hop ha
    induction e with
    | nil => rfl
    | cons e1 _ ih => simp [e1.range, ih]
  have hall : σ.HasAll (as ++ [b]) (fs' ++ [g']) := by
    clear hop e ha hr
    unfold SState.HasAll at hf ⊢
    induction hf with
    | nil => exact .cons hg .nil
    | cons e1 _ ih => exact .cons e1 ih
  refine makes (k := .applyN op (as ++ [b])) hP h ⟨by simp, fs' ++ [g'], hall, by rw [hr]; exact hop⟩
    rfl ?_
  intro x hx
  dsimp only
  have h1 : ((as ++ [b]).map fun a => σ.fn a x) = (fs' ++ [g']).map fun f => f x := by
    rw [← hall.fn, List.map_map]; rfl
  have h2 : ((fs' ++ [g']).map fun f => f x) = (fs ++ [g]).map fun f => f x := by
    simp only [List.map_append, List.map_cons, List.map_nil, eg x hx]
    congr 1
    clear h1 hf hop ha hr hall
    induction e with
    | nil => rfl
    | cons e1 _ ih => simp [e1 x hx, ih]
  rw [h1, h2]
  have := nary_val hop hx
  rw [List.map_append] at this ⊢
  exact nary_foldr this

/-- max(x0, max(x1, max(x0, x1))) -/
example : ∃ w σ, Reachable mdd3 w σ ∧ Makes mdd3 w (.applyN Op.MAX [0, 1, 2])
    (fun x => Op.MAX.val (x 0) (Op.MAX.val (x 1) (Op.MAX.val (x 0) (x 1)))) := by
  obtain ⟨w, h⟩ := mdd3_world
  have R := reachable_rel mdd3_ok h
  refine ⟨w, _, h, C01_apply_n (as := [0, 1]) (b := 2) mdd3_ok h rfl
    (.cons (R.denotes rfl) (.cons (R.denotes rfl) .nil)) (R.denotes rfl) ?_⟩
  have hv : Vals mdd3.c (fun v => 0 ≤ v ∧ v < 3) := fun v hv =>
    ⟨⟨hv.1, fun hc => by cases hc⟩, by rw [nd_val]; omega⟩
  have hx : ∀ i x, i < 3 → Valid mdd3.c x → x i < 3 := by
    intro i x hi hx
    have h1 := hx i hi
    have h2 : mdd3.c.dom i ≤ 3 := by simp only [mdd3]; split <;> decide
    omega
  refine NOpOK.of_op (D := fun v => 0 ≤ v ∧ v < 3) (opOK_MAX hv hv) ⟨0, by decide⟩ ?_
    (fun a ha => (hv a ha).1) (by simp) ?_
  · rintro a b v ha hb e
    simp only [Op.MAX, max32, Except.ok.injEq] at e
    split_ifs at e <;> omega
  · intro A hA a ha
    simp only [List.map_cons, List.map_nil, List.cons_append, List.nil_append, List.mem_cons,
      List.not_mem_nil, or_false] at hA
    rcases hA with rfl | rfl | rfl <;> obtain ⟨x, hx', rfl⟩ := ha
    · have := hx 0 x (by decide) hx'; dsimp only; omega
    · have := hx 1 x (by decide) hx'; dsimp only; omega
    · have := hx 0 x (by decide) hx'
      have := hx 1 x (by decide) hx'
      simp only [Op.MAX, max32]
      split_ifs <;> omega

/-! ### C02 canonical equality -/

/-- Without reordering, two diagrams compare equal exactly when they evaluate equally. -/
theorem C02_equality (hP : P.OK) (h : Reachable P w σ) (hcanon : σ.canon = true) {a b : Nat}
    {f g : Asg → Int} (ha : Denotes P w a f) (hb : Denotes P w b g) :
    ∃ r, exec P.c (.equals a b) w = .ok (.bool r, w) ∧
      (r = true ↔ ∀ x, InDomain P.c.n P.c.dom x → f x = g x) := by
  obtain ⟨f', hf, e1⟩ := (reachable_rel hP h).of_denotes ha
  obtain ⟨g', hg, e2⟩ := (reachable_rel hP h).of_denotes hb
  obtain ⟨o, e, r, rfl, h1, h2⟩ := asks (k := .equals a b) hP h ⟨⟨f', hf⟩, g', hg⟩ rfl
  rw [hf.fn, hg.fn] at h1 h2
  refine ⟨r, e, ?_, ?_⟩
  · intro hr
    exact (e1.symm.trans (h1 hr)).trans e2
  · intro hr
    exact h2 hcanon ((e1.trans hr).trans e2.symm)

/-- x0 ∧ x1 and x0 are different diagrams. -/
example : ∃ w σ, Reachable bdd3 w σ ∧ exec bdd3.c (.equals 0 2) w = .ok (.bool false, w) := by
  obtain ⟨w, h⟩ := bdd3_world
  have R := reachable_rel bdd3_ok h
  obtain ⟨r, e, hr⟩ := C02_equality (a := 0) (b := 2) bdd3_ok h rfl (R.denotes rfl) (R.denotes rfl)
  refine ⟨w, _, h, ?_⟩
  have : r = false := by
    by_contra hc
    have := hr.1 (by simpa using hc) (fun i => if i = 0 then 1 else 0)
      (fun i _ => by simp only [bdd3]; split <;> decide)
    revert this
    decide
  rw [e, this]

/-! ### C03 evaluate -/

/-- `evaluate` ends normally on every live handle, changes nothing, and returns the value of the
function the history gives to the handle. -/
theorem C03_evaluate (hP : P.OK) (h : Reachable P w σ) {a : Nat} {f : Asg → Int}
    (ha : σ.slots[a]? = some (some f)) {x : Asg} (hx : InDomain P.c.n P.c.dom x) :
    exec P.c (.evaluate a x) w = .ok (.int (f x), w) :=
  (reachable_rel hP h).denotes ha x hx

/-- Every handle that was not destroyed or moved from can be evaluated. -/
theorem C03_total (hP : P.OK) (h : Reachable P w σ) {a : Nat} (ha : a < w.slots.length) :
    (∃ f, Denotes P w a f) ∨ w.slots[a]? = some none := by
  have R := reachable_rel hP h
  obtain ⟨o, t, h1, h2, h3⟩ := R.getSlot (a := a) (by rw [← R.len]; exact ha)
  cases t with
  | none => exact Or.inr (by rw [h1]; exact congrArg some h3)
  | some f => exact Or.inl ⟨f, R.denotes h2⟩

example : ∃ w σ, Reachable bdd3 w σ ∧
    exec bdd3.c (.evaluate 2 (fun _ => 1)) w = .ok (.int 1, w) := by
  obtain ⟨w, h⟩ := bdd3_world
  exact ⟨w, _, h, C03_evaluate (a := 2) bdd3_ok h rfl (fun _ _ => Nat.one_lt_two)⟩

/-! ### C04 constant and variable -/

theorem C04_constant (hP : P.OK) (h : Reachable P w σ) {v : Int} (hv : TermOK P.c v) :
    Makes P w (.constant v) (fun _ => v) :=
  makes (k := .constant v) hP h hv rfl (fun _ _ => rfl)

theorem C04_variable (hP : P.OK) (h : Reachable P w σ) {i : Nat} (hi : i < P.c.n) :
    Makes P w (.variableD i) (fun x => (x i : Int)) :=
  makes (k := .variableD i) hP h hi rfl (fun _ _ => rfl)

theorem C04_variable_not (hP : P.OK) (h : Reachable P w σ) {i : Nat} (hi : i < P.c.n)
    (hb : P.c.fixedDom = some 2) : Makes P w (.variableNot i) (fun x => 1 - (x i : Int)) :=
  makes (k := .variableNot i) hP h ⟨hi, hb⟩ rfl (fun _ _ => rfl)

example : ∃ w σ, Reachable bdd3 w σ ∧ Makes bdd3 w (.variableNot 2) (fun x => 1 - (x 2 : Int)) := by
  obtain ⟨w, h⟩ := bdd3_world
  exact ⟨w, _, h, C04_variable_not bdd3_ok h (by decide) rfl⟩

/-! ### C05 transform and negate -/

theorem C05_transform (hP : P.OK) (h : Reachable P w σ) (hauto : σ.auto = false) {a : Nat} {f : Asg → Int}
    (ha : Denotes P w a f) {t : Int → Int} (ht : ∀ v, Range P.c f v → TermOK P.c (t v)) :
    Makes P w (.transform t a) (fun x => t (f x)) := by
  obtain ⟨f', hf, e⟩ := (reachable_rel hP h).of_denotes ha
  refine makes (k := .transform t a) hP h ⟨f', hf, by rw [e.range]; exact ht⟩ rfl ?_
  intro x hx
  dsimp only
  rw [hf.fn, e x hx]

theorem C05_negate (hP : P.OK) (h : Reachable P w σ) (hauto : σ.auto = false) {a : Nat} {f : Asg → Int}
    (ha : Denotes P w a f) (ht : ∀ v, Range P.c f v → TermOK P.c (1 - v)) :
    Makes P w (.negate a) (fun x => 1 - f x) := by
  obtain ⟨f', hf, e⟩ := (reachable_rel hP h).of_denotes ha
  refine makes (k := .negate a) hP h ⟨f', hf, by rw [e.range]; exact ht⟩ rfl ?_
  intro x hx
  dsimp only
  rw [hf.fn, e x hx]

example : ∃ w σ, Reachable bdd3 w σ ∧ Makes bdd3 w (.negate 0) (fun x => 1 - (x 0 : Int)) := by
  obtain ⟨w, h⟩ := bdd3_world
  refine ⟨w, _, h, C05_negate bdd3_ok h rfl ((reachable_rel bdd3_ok h).denotes rfl) ?_⟩
  intro v hv
  rcases bits_x (P := bdd3) (i := 0) (by decide) rfl v hv with rfl | rfl
  · exact term1_bdd3
  · exact term1_bdd3.of_le (by decide) (by decide)

/-! ### C06 cofactor -/

/-- `get_cofactor(d, i, v)`, and the result does not depend on variable `i`. -/
theorem C06_cofactor (hP : P.OK) (h : Reachable P w σ) {a i v : Nat} {f : Asg → Int}
    (ha : Denotes P w a f) (hv : i < P.c.n → v < P.c.dom i) :
    Makes P w (.cofactor a i v) (fun x => f (upd x i v)) ∧
      ¬ DependsOn P.c.n P.c.dom (fun x => f (upd x i v)) i := by
  obtain ⟨f', hf, e⟩ := (reachable_rel hP h).of_denotes ha
  refine ⟨makes_cofactor (k := .cofactor a i v) hP h rfl ⟨⟨f', hf⟩, hv⟩ rfl ?_, ?_⟩
  · intro x hx
    dsimp only
    rw [hf.fn]
    exact e _ (valid_upd hx hv)
  · rintro ⟨x, k, _, _, hne⟩
    exact hne (by dsimp only; rw [upd_upd])

example : ∃ w σ, Reachable mdd3 w σ ∧
    Makes mdd3 w (.cofactor 2 1 2) (fun x => Op.MAX.val (x 0) 2) := by
  obtain ⟨w, h⟩ := mdd3_world
  exact ⟨w, _, h, (C06_cofactor (a := 2) (i := 1) (v := 2) mdd3_ok h
    ((reachable_rel mdd3_ok h).denotes rfl) (fun _ => by decide)).1⟩

/-! ### C07 cofactor by several variables -/

/-- `get_cofactor(d, vars)` evaluates like `d` with all those variables fixed. -/
theorem C07_cofactors (hP : P.OK) (h : Reachable P w σ) {a : Nat} {vars : List (Nat × Nat)}
    {f : Asg → Int} (ha : Denotes P w a f)
    (hv : ∀ v ∈ vars, v.1 < P.c.n → v.2 < P.c.dom v.1) :
    Makes P w (.cofactors a vars) (fun x => f (fixAll x vars)) := by
  obtain ⟨f', hf, e⟩ := (reachable_rel hP h).of_denotes ha
  refine makes_cofactor (k := .cofactors a vars) hP h rfl ⟨⟨f', hf⟩, hv⟩ rfl ?_
  intro x hx
  dsimp only
  rw [hf.fn, updAll_eq_fixAll]
  refine e _ ?_
  clear e hf
  induction vars with
  | nil => exact hx
  | cons v vars ih =>
      exact valid_upd (ih fun u hu => hv u (List.mem_cons_of_mem _ hu))
        (hv v List.mem_cons_self)

example : ∃ w σ, Reachable bdd3 w σ ∧ Makes bdd3 w (.cofactors 2 [(1, 1), (2, 0)])
    (fun x => Op.AND.val (x 0) 1) := by
  obtain ⟨w, h⟩ := bdd3_world
  exact ⟨w, _, h, C07_cofactors (a := 2) bdd3_ok h ((reachable_rel bdd3_ok h).denotes rfl)
    (by decide)⟩

end Properties
end Teddy
