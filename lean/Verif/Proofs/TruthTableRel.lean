import Verif.Proofs.TruthTable
import Mathlib.Data.Nat.Cast.Field

/-! Truth tables: probabilities, importance and minimal vectors. -/

namespace Teddy
namespace TT

open Spec

variable {dom : List Nat} {f : List Nat → Int} {t : Table} {asserts : Bool}
  {ps : List (List Rat)} {P : Nat → Nat → Rat}

/-! ### Sums -/

/-- Sum of `w` over the elements of `l` that satisfy `φ`. -/
def fsum {α : Type} (w : α → Rat) (φ : α → Bool) (l : List α) : Rat := ((l.filter φ).map w).sum

theorem fsum_cons {α : Type} (w : α → Rat) (φ : α → Bool) (x : α) (l : List α) :
    fsum w φ (x :: l) = (if φ x = true then w x else 0) + fsum w φ l := by
  unfold fsum
  cases h : φ x <;> simp [h]

theorem fsum_congr {α : Type} {w : α → Rat} {φ ψ : α → Bool} : ∀ {l : List α}, (∀ x ∈ l, φ x = ψ x) →
    fsum w φ l = fsum w ψ l
  | [], _ => rfl
  | x :: l, h => by
      rw [fsum_cons, fsum_cons, h x (by simp), fsum_congr (fun y hy => h y (by simp [hy]))]

theorem fsum_or {α : Type} {w : α → Rat} {φ ψ χ : α → Bool} : ∀ {l : List α},
    (∀ x ∈ l, χ x = (φ x || ψ x) ∧ (φ x && ψ x) = false) → fsum w χ l = fsum w φ l + fsum w ψ l
  | [], _ => by simp [fsum]
  | x :: l, h => by
      obtain ⟨h1, h2⟩ := h x (by simp)
      rw [fsum_cons, fsum_cons, fsum_cons, fsum_or (fun y hy => h y (by simp [hy])), h1]
      cases hp : φ x <;> cases hq : ψ x <;> simp [hp, hq] at h2 ⊢ <;> ring

theorem foldl_fsum {α : Type} (w : α → Rat) (φ : α → Bool) : ∀ (l : List α) (a : Rat),
    l.foldl (fun a x => if φ x = true then a + w x else a) a = a + fsum w φ l
  | [], a => by simp [fsum]
  | x :: l, a => by
      rw [List.foldl_cons, foldl_fsum w φ l, fsum_cons]
      cases φ x
      · simp
      · simp; ring

theorem tupleProb_eq (φ : List Nat → Bool) : tupleProb dom P φ = fsum (tupleWeight P 0) φ (tuples dom) := rfl

/-! ### Probability -/

/-- The matrix contains `P`. -/
def ProbOK (dom : List Nat) (ps : List (List Rat)) (P : Nat → Nat → Rat) : Prop :=
  ∀ i, i < dom.length → ∀ k, k < dom.getD i 0 → probAt ps i k = .ok (P i k)

theorem vectorProbFrom_ok : ∀ (x : List Nat) (i : Nat) (a : Rat),
    (∀ j, j < x.length → probAt ps (i + j) (x.getD j 0) = .ok (P (i + j) (x.getD j 0))) →
      vectorProbFrom ps i x a = .ok (a * tupleWeight P i x)
  | [], i, a, _ => by simp [vectorProbFrom, tupleWeight]
  | k :: x, i, a, h => by
      have h0 := h 0 (by simp)
      simp only [Nat.add_zero, List.getD_cons_zero] at h0
      simp only [vectorProbFrom, bind, Except.bind, h0]
      rw [vectorProbFrom_ok x (i + 1) _ (fun j hj => by
        have := h (j + 1) (by simpa using hj)
        rw [List.getD_cons_succ] at this
        rw [show i + 1 + j = i + (j + 1) by omega]
        exact this), tupleWeight, mul_assoc]

theorem vectorProbability_ok (hp : ProbOK dom ps P) {x : List Nat} (hx : IsTuple dom x) :
    vectorProbability ps x = .ok (tupleWeight P 0 x) := by
  unfold vectorProbability
  rw [vectorProbFrom_ok x 0 1 (fun j hj => by
    rw [Nat.zero_add]
    exact hp j (by rw [← hx.1]; exact hj) _ (hx.2 j (by rw [← hx.1]; exact hj))), one_mul]

theorem probability_ok (hd : DomOK dom) (h : VecOf dom f t) (hp : ProbOK dom ps P) (state : Int) :
    probability t ps state = .ok (tupleProb dom P fun x => decide (f x = state)) := by
  unfold probability
  rw [forEach_ok hd h (G := fun a x => if decide (f x = state) = true then a + tupleWeight P 0 x else a) ?_ 0,
    foldl_fsum, zero_add, tupleProb_eq]
  intro x hx a
  by_cases e : f x = state
  · rw [if_pos e, vectorProbability_ok hp hx, if_pos (by simpa using e)]
    rfl
  · rw [if_neg e, if_neg (by simpa using e)]

theorem availLoop_ok (hd : DomOK dom) (h : VecOf dom f t) (hp : ProbOK dom ps P) : ∀ (k : Nat) (s : Int) (a : Rat),
    availLoop t ps k s a = .ok (a + tupleProb dom P fun x => decide (s ≤ f x ∧ f x < s + k))
  | 0, s, a => by
      have : (tupleProb dom P fun x => decide (s ≤ f x ∧ f x < s + (0 : Nat))) = 0 := by
        rw [tupleProb_eq, fsum_congr (ψ := fun _ => false) (fun x _ => by
          simp only [decide_eq_false_iff_not]; omega)]
        simp [fsum]
      rw [this, add_zero]
      rfl
  | k + 1, s, a => by
      simp only [availLoop, bind, Except.bind, probability_ok hd h hp]
      rw [availLoop_ok hd h hp k, add_assoc]
      congr 2
      rw [tupleProb_eq, tupleProb_eq, tupleProb_eq]
      refine (fsum_or fun x _ => ⟨?_, ?_⟩).symm
      · rw [← Bool.decide_or]; exact decide_eq_decide.2 (by omega)
      · rw [← Bool.decide_and]; exact decide_eq_false (by omega)

theorem availability_ok (hd : DomOK dom) (h : Of dom f t) (hf : ∀ x, IsTuple dom x → f x ≤ Undefined)
    (hp : ProbOK dom ps P) (state : Int) : availability t ps state =
      .ok (tupleProb dom P fun x => decide (f x ≠ Undefined ∧ state ≤ f x)) := by
  unfold availability
  rw [availLoop_ok hd h.toVecOf hp, zero_add, tupleProb_eq, tupleProb_eq]
  congr 1
  refine fsum_congr fun x hx => decide_eq_decide.2 ?_
  have hx := mem_tuples.1 hx
  obtain ⟨y, hy, h1, h2⟩ := h.attained
  have h3 := hf y hy
  have h4 := h.le x hx
  constructor
  · rintro ⟨h5, h6⟩
    exact ⟨by omega, h5⟩
  · rintro ⟨h5, h6⟩
    have := h4 h5
    omega

theorem unavailLoop_ok (hd : DomOK dom) (h : VecOf dom f t) (hp : ProbOK dom ps P) : ∀ (k : Nat) (a : Rat),
    unavailLoop t ps k a = .ok (a + tupleProb dom P fun x => decide (0 ≤ f x ∧ f x < k))
  | 0, a => by
      have : (tupleProb dom P fun x => decide (0 ≤ f x ∧ f x < (0 : Nat))) = 0 := by
        rw [tupleProb_eq, fsum_congr (ψ := fun _ => false) (fun x _ => by
          simp only [decide_eq_false_iff_not]; omega)]
        simp [fsum]
      rw [this, add_zero]
      rfl
  | k + 1, a => by
      simp only [unavailLoop, bind, Except.bind, probability_ok hd h hp]
      rw [unavailLoop_ok hd h hp k, add_assoc]
      congr 2
      rw [tupleProb_eq, tupleProb_eq, tupleProb_eq]
      refine (fsum_or fun x _ => ⟨?_, ?_⟩).symm
      · rw [← Bool.decide_or]; exact decide_eq_decide.2 (by omega)
      · rw [← Bool.decide_and]; exact decide_eq_false (by omega)

theorem unavailability_ok (hd : DomOK dom) (h : VecOf dom f t) (hp : ProbOK dom ps P) (state : Int) :
    unavailability t ps state = .ok (tupleProb dom P fun x => decide (0 ≤ f x ∧ f x < state)) := by
  unfold unavailability
  rw [unavailLoop_ok hd h hp, zero_add, tupleProb_eq, tupleProb_eq]
  congr 1
  exact fsum_congr fun x hx => decide_eq_decide.2 (by omega)

/-! ### Structural importance -/

theorem filter_flatMap' {α β : Type} (p : β → Bool) (g : α → List β) : ∀ l : List α,
    ((l.flatMap g).filter p).length = (l.map fun x => ((g x).filter p).length).sum
  | [] => rfl
  | x :: l => by
      rw [List.flatMap_cons, List.filter_append, List.length_append, filter_flatMap' p g l]
      rfl

theorem dvd_sum {n : Nat} : ∀ {l : List Nat}, (∀ x ∈ l, n ∣ x) → n ∣ l.sum
  | [], _ => ⟨0, rfl⟩
  | x :: l, h => by
      rw [List.sum_cons]
      exact Nat.dvd_add (h x (by simp)) (dvd_sum fun y hy => h y (by simp [hy]))

/-- A function that does not depend on variable `i` has each value a multiple of the domain's size times. -/
theorem count_dvd : ∀ (dom : List Nat) (i : Nat) (p : List Nat → Bool),
    (∀ x k, IsTuple dom x → k < dom.getD i 0 → p (x.set i k) = p x) → i < dom.length →
      dom.getD i 0 ∣ ((tuples dom).filter p).length
  | [], i, p, _, hi => by simp at hi
  | d :: ds, 0, p, h, _ => by
      rw [tuples, filter_flatMap']
      simp only [List.getD_cons_zero] at h ⊢
      cases d with
      | zero => exact ⟨0, by simp⟩
      | succ d =>
          have : ∀ k ∈ List.range (d + 1), (((tuples ds).map (k :: ·)).filter p).length =
              (((tuples ds).map (0 :: ·)).filter p).length := by
            intro k hk
            rw [List.filter_map, List.filter_map, List.length_map, List.length_map]
            congr 1
            refine List.filter_congr fun y hy => ?_
            have := h (0 :: y) k (by
              refine ⟨by simp [(mem_tuples.1 hy).1], fun j hj => ?_⟩
              cases j with
              | zero => simp
              | succ j => simpa using (mem_tuples.1 hy).2 j (by simpa using hj)) (List.mem_range.1 hk)
            simpa using this
          rw [List.map_congr_left this, sum_const]
          exact ⟨_, rfl⟩
  | d :: ds, i + 1, p, h, hi => by
      rw [tuples, filter_flatMap']
      simp only [List.getD_cons_succ] at h ⊢
      refine dvd_sum fun n hn => ?_
      obtain ⟨k, hk, rfl⟩ := List.mem_map.1 hn
      rw [List.filter_map, List.length_map]
      refine count_dvd ds i _ (fun x v hx hv => ?_) (by simpa using hi)
      have := h (k :: x) v (by
        refine ⟨by simp [hx.1], fun j hj => ?_⟩
        cases j with
        | zero => simpa using hk
        | succ j => simpa using hx.2 j (by simpa using hj)) hv
      simpa using this

theorem structural_ok (hd : DomOK dom) {g : List Nat → Int} (h : VecOf dom g t) {i : Nat} (hi : i < dom.length)
    (hg : ∀ x k, IsTuple dom x → k < dom.getD i 0 → g (x.set i k) = g x) :
    structuralImportance t i = .ok ((tupleCount dom g 1 : Rat) / (dom.prod : Rat)) := by
  have hget : dom[i]? = some (dom.getD i 0) := by
    rw [List.getD_eq_getElem?_getD, List.getElem?_eq_getElem hi]; rfl
  have hpos : 0 < dom.getD i 0 := hd.pos _ (List.mem_of_getElem? hget)
  have h1 : dom.getD i 0 ∣ tupleCount dom g 1 :=
    count_dvd dom i _ (fun x k hx hk => by rw [hg x k hx hk]) hi
  have h2 : dom.getD i 0 ∣ dom.prod := by
    have := count_dvd dom i (fun _ => true) (fun _ _ _ _ => rfl) hi
    rwa [List.filter_eq_self.2 (fun _ _ => rfl), tuples_length] at this
  unfold structuralImportance
  rw [h.dim, hget, satisfyCount_ok h]
  cases hm : dom.getD i 0 with
  | zero => omega
  | succ m =>
      rw [hm] at h1 h2
      have hz : ((m + 1 : Nat) : Rat) ≠ 0 := by exact_mod_cast Nat.succ_ne_zero m
      dsimp only
      rw [Nat.cast_div h1 hz, Nat.cast_div h2 hz, div_div_div_cancel_right₀ hz]

/-! ### Minimal vectors -/

/-- The tables are those of the functions. -/
def AllOf (dom : List Nat) : List Table → List (List Nat → Int) → Prop
  | [], [] => True
  | t :: ts, g :: gs => VecOf dom g t ∧ AllOf dom ts gs
  | _, _ => False

/-- The change stays in the domain of its variable. -/
def ChangeOK (dom : List Nat) (vc : VarChange) : Prop :=
  vc.index < dom.length ∧ vc.from < dom.getD vc.index 0 ∧ vc.to < dom.getD vc.index 0

theorem derivatives_ok (hd : DomOK dom) (h : Of dom f t) (ch : Int → Int → Bool) : ∀ (vcs : List VarChange),
    (∀ vc ∈ vcs, ChangeOK dom vc) → ∃ ds, derivatives asserts t ch vcs = .ok ds ∧
      AllOf dom ds (vcs.map fun vc => derE f vc ch)
  | [], _ => ⟨[], rfl, trivial⟩
  | vc :: vcs, hv => by
      obtain ⟨h1, h2, h3⟩ := hv vc (by simp)
      obtain ⟨d, ed, hd'⟩ := dpldE_ok (asserts := asserts) hd h h1 h2 h3 ch
      obtain ⟨ds, eds, hds⟩ := derivatives_ok hd h ch vcs (fun v hv' => hv v (by simp [hv']))
      exact ⟨d :: ds, by simp only [derivatives, bind, Except.bind, ed, eds], hd'.toVecOf, hds⟩

theorem applyMutable_ok {g k : List Nat → Int} {d e : Table} (hg : VecOf dom g d) (hk : VecOf dom k e)
    (op : Int → Int → Int) : ∃ r, applyMutable asserts d e op = .ok r ∧ VecOf dom (fun x => op (g x) (k x)) r := by
  refine ⟨{ d with vec := (tuples dom).map fun x => op (g x) (k x) }, ?_, ⟨rfl, hg.dim⟩⟩
  unfold applyMutable
  rw [hg.vec, hk.vec, hg.dim, hk.dim, if_neg (by simp), if_neg (by simp)]
  congr 2
  rw [List.drop_of_length_le (by simp), List.append_nil, List.zipWith_map]
  exact List.zipWith_self

theorem conj_ok : ∀ (ds : List Table) (gs : List (List Nat → Int)) (d : Table) (g : List Nat → Int),
    VecOf dom g d → AllOf dom ds gs → ∃ r, conj asserts d ds = .ok r ∧
      VecOf dom (fun x => (gs.map fun k => k x).foldl piConj (g x)) r
  | [], [], d, g, hg, _ => ⟨d, rfl, hg⟩
  | e :: ds, k :: gs, d, g, hg, h => by
      obtain ⟨r, er, hr⟩ := applyMutable_ok (asserts := asserts) hg h.1 piConj
      obtain ⟨r', er', hr'⟩ := conj_ok ds gs r _ hr h.2
      exact ⟨r', by simp only [conj, bind, Except.bind, er, er'], hr'⟩
  | [], _ :: _, _, _, _, h => h.elim
  | _ :: _, [], _, _, _, h => h.elim

/-- Values of an extended derivative. -/
def Three (v : Int) : Prop := v = 0 ∨ v = 1 ∨ v = Undefined

theorem foldl_piConj : ∀ (vs : List Int) (a : Int), Three a → (∀ v ∈ vs, Three v) →
    (vs.foldl piConj a = 1 ↔ 1 ∈ a :: vs ∧ 0 ∉ a :: vs)
  | [], a, ha, _ => by
      rcases ha with rfl | rfl | rfl <;> simp [Undefined]
  | b :: vs, a, ha, hv => by
      have hb := hv b (by simp)
      have hab : Three (piConj a b) := by
        rcases ha with rfl | rfl | rfl <;> rcases hb with rfl | rfl | rfl <;> (unfold Three; decide)
      rw [List.foldl_cons, foldl_piConj vs _ hab (fun v h => hv v (by simp [h]))]
      rcases ha with rfl | rfl | rfl <;> rcases hb with rfl | rfl | rfl <;>
        simp [piConj, Undefined]

theorem derE_three (f : List Nat → Int) (vc : VarChange) (ch : Int → Int → Bool) (x : List Nat) :
    Three (derE f vc ch x) := by
  unfold derE Three
  split
  · split <;> simp
  · simp

theorem derE_one {vc : VarChange} {ch : Int → Int → Bool} {x : List Nat} : derE f vc ch x = 1 ↔
    x.getD vc.index 0 = vc.from ∧ ch (f x) (f (x.set vc.index vc.to)) = true := by
  unfold derE
  split
  · split <;> simp_all
  · simp_all [Undefined]

theorem derE_zero {vc : VarChange} {ch : Int → Int → Bool} {x : List Nat} : derE f vc ch x = 0 ↔
    x.getD vc.index 0 = vc.from ∧ ch (f x) (f (x.set vc.index vc.to)) = false := by
  unfold derE
  split
  · split <;> simp_all
  · simp_all [Undefined]

theorem vectorsOf_ok (hd : DomOK dom) (h : Of dom f t) (ch : Int → Int → Bool) {vcs : List VarChange}
    (hv : ∀ vc ∈ vcs, ChangeOK dom vc) (hne : vcs ≠ []) (Q : List Nat → Prop) [DecidablePred Q]
    (hQ : ∀ x, IsTuple dom x → (Q x ↔ (∃ vc ∈ vcs, x.getD vc.index 0 = vc.from) ∧
      ∀ vc ∈ vcs, x.getD vc.index 0 = vc.from → ch (f x) (f (x.set vc.index vc.to)) = true)) :
    vectorsOf asserts t ch vcs = .ok ((tuples dom).filter fun x => decide (Q x)) := by
  cases vcs with
  | nil => exact absurd rfl hne
  | cons vc vcs =>
      obtain ⟨ds, eds, hds⟩ := derivatives_ok (asserts := asserts) hd h ch (vc :: vcs) hv
      cases ds with
      | nil => exact hds.elim
      | cons d ds =>
          obtain ⟨hd1, hd2⟩ := hds
          obtain ⟨r, er, hr⟩ := conj_ok (asserts := asserts) ds _ d _ hd1 hd2
          simp only [vectorsOf, bind, Except.bind, eds, er]
          rw [satisfyAll_ok hd hr]
          congr 1
          refine List.filter_congr fun x hx => decide_eq_decide.2 ?_
          rw [hQ x (mem_tuples.1 hx), foldl_piConj _ _ (derE_three ..) (by
            intro v hv
            simp only [List.map_map, List.mem_map] at hv
            obtain ⟨w, -, rfl⟩ := hv
            exact derE_three ..)]
          have e : derE f vc ch x :: ((vcs.map fun v => derE f v ch).map fun k => k x) =
              (vc :: vcs).map fun v => derE f v ch x := by simp [List.map_map, Function.comp_def]
          rw [e, List.mem_map, List.mem_map]
          constructor
          · rintro ⟨⟨w, hw, e1⟩, h0⟩
            refine ⟨⟨w, hw, (derE_one.1 e1).1⟩, fun v hv ev => ?_⟩
            cases hc : ch (f x) (f (x.set v.index v.to)) with
            | true => rfl
            | false => exact absurd ⟨v, hv, derE_zero.2 ⟨ev, hc⟩⟩ h0
          · rintro ⟨⟨w, hw, ew⟩, hall⟩
            refine ⟨⟨w, hw, derE_one.2 ⟨ew, hall w hw ew⟩⟩, ?_⟩
            rintro ⟨v, hv, e0⟩
            obtain ⟨e1, e2⟩ := derE_zero.1 e0
            rw [hall v hv e1] at e2
            cases e2

theorem mem_ups {vc : VarChange} : vc ∈ ups dom ↔
    vc.index < dom.length ∧ vc.from + 1 < dom.getD vc.index 0 ∧ vc.to = vc.from + 1 := by
  unfold ups
  simp only [List.mem_flatMap, List.mem_map, List.mem_range]
  constructor
  · rintro ⟨i, hi, k, hk, rfl⟩
    exact ⟨hi, by dsimp only; omega, rfl⟩
  · rintro ⟨h1, h2, h3⟩
    exact ⟨vc.index, h1, vc.from, by omega, by rw [← h3]⟩

theorem mem_downs {vc : VarChange} : vc ∈ downs dom ↔
    vc.index < dom.length ∧ vc.from < dom.getD vc.index 0 ∧ 0 < vc.from ∧ vc.to = vc.from - 1 := by
  unfold downs
  simp only [List.mem_flatMap, List.mem_map, List.mem_range]
  constructor
  · rintro ⟨i, hi, k, hk, rfl⟩
    exact ⟨hi, by dsimp only; omega, by dsimp only; omega, rfl⟩
  · rintro ⟨h1, h2, h3, h4⟩
    refine ⟨vc.index, h1, vc.to, by omega, ?_⟩
    cases vc
    dsimp only at *
    congr 1
    omega

theorem mcvs_ok (hd : DomOK dom) (h : Of dom f t) (hne : ∃ i, i < dom.length ∧ 1 < dom.getD i 0) (s : Int) :
    mcvs asserts t s = .ok ((tuples dom).filter fun x => decide (TupleMinCut dom f s x)) := by
  unfold mcvs
  rw [h.dim]
  refine vectorsOf_ok hd h _ (fun vc hv => ?_) ?_ _ (fun x hx => ?_)
  · obtain ⟨h1, h2, h3⟩ := mem_ups.1 hv
    exact ⟨h1, by omega, by omega⟩
  · obtain ⟨i, h1, h2⟩ := hne
    have : (⟨i, 0, 1⟩ : VarChange) ∈ ups dom := mem_ups.2 ⟨h1, by omega, rfl⟩
    intro e
    rw [e] at this
    cases this
  · simp only [Dpld.type3Increase, Bool.and_eq_true, decide_eq_true_eq]
    constructor
    · rintro ⟨⟨i, h1, h2⟩, h3, h4⟩
      refine ⟨⟨⟨i, x.getD i 0, x.getD i 0 + 1⟩, mem_ups.2 ⟨h1, h2, rfl⟩, rfl⟩, fun vc hv e => ⟨h3, ?_⟩⟩
      obtain ⟨h5, h6, h7⟩ := mem_ups.1 hv
      have := h4 vc.index h5 (by omega)
      rw [e] at this
      rw [h7]
      exact this
    · rintro ⟨⟨vc, hv, e⟩, h1⟩
      obtain ⟨h5, h6, h7⟩ := mem_ups.1 hv
      refine ⟨⟨vc.index, h5, by omega⟩, (h1 vc hv e).1, fun i hi hx1 => ?_⟩
      exact (h1 ⟨i, x.getD i 0, x.getD i 0 + 1⟩ (mem_ups.2 ⟨hi, hx1, rfl⟩) rfl).2

theorem mpvs_ok (hd : DomOK dom) (h : Of dom f t) (hne : ∃ i, i < dom.length ∧ 1 < dom.getD i 0) (s : Int) :
    mpvs asserts t s = .ok ((tuples dom).filter fun x => decide (TupleMinPath dom f s x)) := by
  unfold mpvs
  rw [h.dim]
  refine vectorsOf_ok hd h _ (fun vc hv => ?_) ?_ _ (fun x hx => ?_)
  · obtain ⟨h1, h2, h3, h4⟩ := mem_downs.1 hv
    exact ⟨h1, by omega, by omega⟩
  · obtain ⟨i, h1, h2⟩ := hne
    have : (⟨i, 1, 0⟩ : VarChange) ∈ downs dom := mem_downs.2 ⟨h1, h2, Nat.one_pos, rfl⟩
    intro e
    rw [e] at this
    cases this
  · simp only [Dpld.type3Decrease, Bool.and_eq_true, decide_eq_true_eq]
    constructor
    · rintro ⟨⟨i, h1, h2⟩, h3, h4⟩
      refine ⟨⟨⟨i, x.getD i 0, x.getD i 0 - 1⟩, mem_downs.2 ⟨h1, hx.2 i h1, h2, rfl⟩, rfl⟩, fun vc hv e => ⟨h3, ?_⟩⟩
      obtain ⟨h5, h6, h7, h8⟩ := mem_downs.1 hv
      have := h4 vc.index h5 (by omega)
      rw [e] at this
      rw [h8]
      exact this
    · rintro ⟨⟨vc, hv, e⟩, h1⟩
      obtain ⟨h5, h6, h7, h8⟩ := mem_downs.1 hv
      refine ⟨⟨vc.index, h5, by omega⟩, (h1 vc hv e).1, fun i hi hx1 => ?_⟩
      exact (h1 ⟨i, x.getD i 0, x.getD i 0 - 1⟩ (mem_downs.2 ⟨hi, hx.2 i hi, hx1, rfl⟩) rfl).2

/-- With one state per component there is no change to derive by. -/
theorem mcvs_trivial (h : VecOf dom f t) (h1 : ∀ i, i < dom.length → dom.getD i 0 ≤ 1) (s : Int) :
    mcvs asserts t s = .error .outOfRange := by
  have : ups dom = [] := List.eq_nil_iff_forall_not_mem.2 fun vc hv => by
    obtain ⟨h5, h6, h7⟩ := mem_ups.1 hv
    have := h1 vc.index h5
    omega
  unfold mcvs
  rw [h.dim, this]
  rfl

/-! ### Fussell–Vesely importance and binary systems -/

theorem lessEqual_iff : ∀ {x y : List Nat}, x.length = y.length →
    (lessEqual x y = true ↔ ∀ i, i < x.length → x.getD i 0 ≤ y.getD i 0)
  | [], [], _ => by simp [lessEqual]
  | [], _ :: _, h => by simp at h
  | _ :: _, [], h => by simp at h
  | a :: x, b :: y, h => by
      rw [lessEqual, Bool.and_eq_true, lessEqual_iff (by simpa using h), decide_eq_true_eq]
      constructor
      · rintro ⟨h1, h2⟩ i hi
        cases i with
        | zero => simpa using h1
        | succ i => simpa using h2 i (by simpa using hi)
      · intro h1
        exact ⟨by simpa using h1 0 (by simp), fun i hi => by simpa using h1 (i + 1) (by simpa using hi)⟩

theorem binaryProbFrom_ok {qs : List Rat} : ∀ (x : List Nat) (i : Nat) (a : Rat), i + x.length ≤ qs.length →
    binaryProbFrom qs i x a =
      .ok (a * tupleWeight (fun i k => if k = 1 then qs.getD i 0 else 1 - qs.getD i 0) i x)
  | [], i, a, _ => by simp [binaryProbFrom, tupleWeight]
  | k :: x, i, a, h => by
      have hi : i < qs.length := by simp only [List.length_cons] at h; omega
      have e : qs.getD i 0 = qs[i] := by
        rw [List.getD_eq_getElem?_getD, List.getElem?_eq_getElem hi]; rfl
      simp only [binaryProbFrom, List.getElem?_eq_getElem hi]
      rw [binaryProbFrom_ok x (i + 1) _ (by simp only [List.length_cons] at h; omega), tupleWeight, mul_assoc, e]

theorem binaryProbability_ok (hd : DomOK dom) (h : VecOf dom f t) {qs : List Rat} (hq : dom.length ≤ qs.length) :
    binaryProbability t qs = .ok (tupleProb dom (fun i k => if k = 1 then qs.getD i 0 else 1 - qs.getD i 0)
      fun x => decide (f x = 1)) := by
  unfold binaryProbability
  rw [forEach_ok hd h (G := fun a x => if decide (f x = 1) = true then
    a + tupleWeight (fun i k => if k = 1 then qs.getD i 0 else 1 - qs.getD i 0) 0 x else a) ?_ 0,
    foldl_fsum, zero_add, tupleProb_eq]
  intro x hx a
  by_cases e : f x = 1
  · rw [if_pos e, binaryProbFrom_ok x 0 1 (by rw [hx.1]; omega), if_pos (by simpa using e), one_mul]
    rfl
  · rw [if_neg e, if_neg (by simpa using e)]

theorem fussellVesely_ok (hd : DomOK dom) (h : Of dom f t) (hne : ∃ i, i < dom.length ∧ 1 < dom.getD i 0)
    (hp : ProbOK dom ps P) (i cs : Nat) (s : Int)
    (hu : (tupleProb dom P fun x => decide (0 ≤ f x ∧ f x < s)) ≠ 0) (W : List Nat → Bool)
    (hW : ∀ x, IsTuple dom x → (W x = true ↔ ∃ m, IsTuple dom m ∧ TupleMinCut dom f s m ∧
      m.getD i 0 + 1 = cs ∧ ∀ j, j < dom.length → x.getD j 0 ≤ m.getD j 0)) :
    fussellVesely asserts t ps i cs s = .ok (tupleProb dom P W /
      tupleProb dom P fun x => decide (0 ≤ f x ∧ f x < s)) := by
  unfold fussellVesely
  simp only [bind, Except.bind, mcvs_ok hd h hne, unavailability_ok hd h.toVecOf hp]
  rw [forEach_ok hd h.toVecOf (G := fun a x => if W x = true then a + tupleWeight P 0 x else a) ?_ 0, foldl_fsum,
    zero_add, ← tupleProb_eq]
  · dsimp only
    rw [if_neg hu]
  · intro x hx a
    have hiff : (List.any (((tuples dom).filter fun x => decide (TupleMinCut dom f s x)).filter fun m =>
        decide (((m.getD i 0 : Nat) : Int) = (cs : Int) - 1)) fun m => lessEqual x m) = W x := by
      rw [Bool.eq_iff_iff, hW x hx, List.any_eq_true]
      constructor
      · rintro ⟨m, hm, hle⟩
        simp only [List.mem_filter, decide_eq_true_eq, mem_tuples] at hm
        obtain ⟨⟨h1, h2⟩, h3⟩ := hm
        have := (lessEqual_iff (by rw [hx.1, h1.1])).1 hle
        exact ⟨m, h1, h2, by omega, fun j hj => this j (by rw [hx.1]; exact hj)⟩
      · rintro ⟨m, h1, h2, h3, h4⟩
        refine ⟨m, ?_, (lessEqual_iff (by rw [hx.1, h1.1])).2 fun j hj => h4 j (by rw [← hx.1]; exact hj)⟩
        simp only [List.mem_filter, decide_eq_true_eq, mem_tuples]
        exact ⟨⟨h1, h2⟩, by omega⟩
    rw [hiff]
    cases W x with
    | false => rfl
    | true => rw [if_pos rfl, if_pos rfl, vectorProbability_ok hp hx]

theorem probOK_of_rows (h : HasRows dom ps) : ProbOK dom ps (entry ps) := by
  intro i hi k hk
  have h1 : i < ps.length := Nat.lt_of_lt_of_le hi h.1
  have h2 := h.2 i hi
  have e : ps.getD i [] = ps[i] := by rw [List.getD_eq_getElem?_getD, List.getElem?_eq_getElem h1]; rfl
  rw [e] at h2
  have h3 : k < ps[i].length := by omega
  simp only [probAt, List.getElem?_eq_getElem h1, List.getElem?_eq_getElem h3, entry, e]
  rw [List.getD_eq_getElem?_getD, List.getElem?_eq_getElem h3]
  rfl

theorem getD_set {x : List Nat} (hx : IsTuple dom x) {i j v : Nat} (hj : j < dom.length) :
    (x.set i v).getD j 0 = if i = j then v else x.getD j 0 := by
  rw [List.getD_eq_getElem?_getD, List.getElem?_set]
  split
  · rename_i e
    subst e
    rw [if_pos (by rw [hx.1]; exact hj)]
    rfl
  · rw [← List.getD_eq_getElem?_getD]

theorem tuple_ext {x y : List Nat} (hx : IsTuple dom x) (hy : IsTuple dom y)
    (h : ∀ i, i < dom.length → x.getD i 0 = y.getD i 0) : x = y := by
  apply List.ext_getElem? 
  intro i
  by_cases hi : i < dom.length
  · rw [get_tuple hx hi, get_tuple hy hi, h i hi]
  · rw [List.getElem?_eq_none (by rw [hx.1]; omega), List.getElem?_eq_none (by rw [hy.1]; omega)]

theorem minCut_monotone (hf : TupleMonotone dom f) {s : Int} {x : List Nat} (hx : IsTuple dom x) :
    TupleMinCut dom f s x ↔ (∃ i, i < dom.length ∧ x.getD i 0 + 1 < dom.getD i 0) ∧ f x < s ∧
      ∀ y, IsTuple dom y → TupleLe dom x y → x ≠ y → s ≤ f y := by
  unfold TupleMinCut
  refine and_congr_right fun _ => and_congr_right fun _ => ⟨fun h y hy hle hne => ?_, fun h i hi h1 => ?_⟩
  · have : ∃ i, i < dom.length ∧ x.getD i 0 ≠ y.getD i 0 := by
      refine Classical.byContradiction fun hc => hne (tuple_ext hx hy fun i hi => ?_)
      exact Classical.byContradiction fun hcc => hc ⟨i, hi, hcc⟩
    obtain ⟨i, hi, hne⟩ := this
    have h2 := hle i hi
    have h3 := hy.2 i hi
    have hlt : x.getD i 0 + 1 < dom.getD i 0 := by omega
    refine Int.le_trans (h i hi hlt) (hf _ _ (isTuple_set hx hlt) hy fun j hj => ?_)
    rw [getD_set hx hj]
    split
    · rename_i e; subst e; omega
    · exact hle j hj
  · refine h _ (isTuple_set hx h1) (fun j hj => ?_) fun e => ?_
    · rw [getD_set hx hj]
      split
      · rename_i e; subst e; omega
      · exact Nat.le_refl _
    · have := getD_set hx (v := x.getD i 0 + 1) (i := i) hi
      rw [← e, if_pos rfl] at this
      omega

theorem minPath_monotone (hf : TupleMonotone dom f) {s : Int} {x : List Nat} (hx : IsTuple dom x) :
    TupleMinPath dom f s x ↔ (∃ i, i < dom.length ∧ 0 < x.getD i 0) ∧ s ≤ f x ∧
      ∀ y, IsTuple dom y → TupleLe dom y x → x ≠ y → f y < s := by
  unfold TupleMinPath
  refine and_congr_right fun _ => and_congr_right fun _ => ⟨fun h y hy hle hne => ?_, fun h i hi h1 => ?_⟩
  · have : ∃ i, i < dom.length ∧ x.getD i 0 ≠ y.getD i 0 := by
      refine Classical.byContradiction fun hc => hne (tuple_ext hx hy fun i hi => ?_)
      exact Classical.byContradiction fun hcc => hc ⟨i, hi, hcc⟩
    obtain ⟨i, hi, hne⟩ := this
    have h2 := hle i hi
    have h3 := hx.2 i hi
    have hlt : x.getD i 0 - 1 < dom.getD i 0 := by omega
    refine Int.lt_of_le_of_lt (hf _ _ hy (isTuple_set hx hlt) fun j hj => ?_) (h i hi (by omega))
    rw [getD_set hx hj]
    split
    · rename_i e; subst e; omega
    · exact hle j hj
  · have h3 := hx.2 i hi
    have hlt : x.getD i 0 - 1 < dom.getD i 0 := by omega
    refine h _ (isTuple_set hx hlt) (fun j hj => ?_) fun e => ?_
    · rw [getD_set hx hj]
      split
      · rename_i e; subst e; omega
      · exact Nat.le_refl _
    · have := getD_set hx (v := x.getD i 0 - 1) (i := i) hi
      rw [← e, if_pos rfl] at this
      omega

end TT
end Teddy
