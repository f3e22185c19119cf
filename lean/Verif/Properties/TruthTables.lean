import Verif.Proofs.TruthTableRel
import Mathlib.Tactic.NormNum

/-!
# Properties of truth tables (C49–C53)

`TT.make asserts ((tuples dom).map f) dom = .ok t` says that `t` was constructed from the domains `dom` and
the vector of the values of `f`, in lexicographic order of the elements of the domain.
-/

namespace Teddy
namespace Properties

open Spec TT

section
variable {asserts : Bool} {dom : List Nat} {f : List Nat → Int} {t : TT.Table}

/-! ## Concrete tables used to show that the hypotheses can be met -/

/-- Sum of the states, at most 2: a monotone function of three components with 2, 3 and 2 states. -/
private def sys (x : List Nat) : Int := min 2 (x.foldl (fun (a : Int) v => a + v) 0)

private def sysDom : List Nat := [2, 3, 2]

private def sysProbs : List (List Rat) := [[1/2, 1/2], [1/4, 1/4, 1/2], [1/10, 9/10]]

private theorem sysOK : DomOK sysDom := ⟨by decide, by decide, by decide⟩

private theorem sysMake : ∃ t, TT.make true ((tuples sysDom).map sys) sysDom = .ok t :=
  ⟨⟨(tuples sysDom).map sys, sysDom, [6, 2, 1], 2⟩, by rfl⟩

private theorem sysRows : HasRows sysDom sysProbs := by
  refine ⟨by decide, fun i hi => ?_⟩
  have : i = 0 ∨ i = 1 ∨ i = 2 := by
    have : i < 3 := hi
    omega
  rcases this with rfl | rfl | rfl <;> decide

/-! ## C49 -/

/-- `tuples` is what it should be: every element of the domain, once, in lexicographic order. -/
theorem C49_tuples (dom : List Nat) : (∀ x, x ∈ tuples dom ↔ IsTuple dom x) ∧ (tuples dom).Nodup ∧
    (tuples dom).length = dom.prod :=
  ⟨fun _ => mem_tuples, tuples_nodup dom, tuples_length dom⟩

/-- A table can be constructed for every function with a defined value. -/
theorem C49_make (asserts : Bool) (hd : DomOK dom) (hf : ∃ x, IsTuple dom x ∧ f x ≠ Undefined) :
    ∃ t, TT.make asserts ((tuples dom).map f) dom = .ok t := by
  obtain ⟨t, e, _⟩ := make_ok asserts hd hf
  exact ⟨t, e⟩

example : ∃ x, IsTuple sysDom x ∧ sys x ≠ Undefined := ⟨[1, 2, 0], mem_tuples.1 (by decide), by decide⟩

/-- `evaluate` looks up the value of the function. -/
theorem C49_evaluate (hd : DomOK dom) (h : TT.make asserts ((tuples dom).map f) dom = .ok t) {x : List Nat}
    (hx : IsTuple dom x) (asserts' : Bool) : TT.evaluate asserts' t x = .ok (f x) :=
  evaluate_ok hd (of_make hd h) hx

/-- `domain_for_each` calls its argument on every element of the domain, in lexicographic order, with the
value of the function. -/
theorem C49_forEach {τ : Type} (hd : DomOK dom) (h : TT.make asserts ((tuples dom).map f) dom = .ok t)
    (F : Int → List Nat → τ → Except Err τ) (a : τ) :
    TT.forEach t F a = (tuples dom).foldlM (fun a x => F (f x) x a) a := by
  have ht := of_make hd h
  unfold TT.forEach
  rw [ht.vec, ht.dim, loop_tuples hd.pos]

/-- `satisfy_all` returns the elements with the value asked for. -/
theorem C49_satisfyAll (hd : DomOK dom) (h : TT.make asserts ((tuples dom).map f) dom = .ok t) (val : Int) :
    TT.satisfyAll t val = .ok ((tuples dom).filter fun x => decide (f x = val)) :=
  satisfyAll_ok hd (of_make hd h).toVecOf val

/-- `satisfy_count` returns how many there are. -/
theorem C49_satisfyCount (hd : DomOK dom) (h : TT.make asserts ((tuples dom).map f) dom = .ok t) (val : Int) :
    TT.satisfyCount t val = tupleCount dom f val :=
  satisfyCount_ok (of_make hd h).toVecOf val

/-- `get_max_val` is the largest defined value. -/
theorem C49_maxVal (hd : DomOK dom) (h : TT.make asserts ((tuples dom).map f) dom = .ok t) :
    (∃ x, IsTuple dom x ∧ f x ≠ Undefined ∧ f x = t.maxVal) ∧
      ∀ x, IsTuple dom x → f x ≠ Undefined → f x ≤ t.maxVal :=
  ⟨(of_make hd h).attained, (of_make hd h).le⟩

example : DomOK sysDom ∧ (∃ t, TT.make true ((tuples sysDom).map sys) sysDom = .ok t) ∧ IsTuple sysDom [1, 0, 1] ∧
    sys [1, 0, 1] = 2 ∧ tupleCount sysDom sys 1 = 3 :=
  ⟨sysOK, sysMake, mem_tuples.1 (by decide), by decide, by decide⟩

/-! ## C50 -/

/-- `dpld`: entry `x` tells whether the change of variable `i` from `v` to `w`, with the other variables as
in `x`, changes the function as asked. -/
theorem C50_dpld (hd : DomOK dom) (h : TT.make asserts ((tuples dom).map f) dom = .ok t) {i v w : Nat}
    (hi : i < dom.length) (hv : v < dom.getD i 0) (hw : w < dom.getD i 0) (ch : Int → Int → Bool) :
    ∃ t', TT.dpld asserts t ⟨i, v, w⟩ ch = .ok t' ∧ ∀ x, IsTuple dom x → TT.evaluate asserts t' x =
      .ok (if ch (f (x.set i v)) (f (x.set i w)) = true then 1 else 0) := by
  obtain ⟨t', e, ht⟩ := dpld_ok (asserts := asserts) hd (of_make hd h) (vc := ⟨i, v, w⟩) hi hv hw ch
  exact ⟨t', e, fun x hx => evaluate_ok hd ht hx⟩

/-- `dpld_e`: the same where variable `i` has the value `v`, and `Undefined` elsewhere. -/
theorem C50_dpldE (hd : DomOK dom) (h : TT.make asserts ((tuples dom).map f) dom = .ok t) {i v w : Nat}
    (hi : i < dom.length) (hv : v < dom.getD i 0) (hw : w < dom.getD i 0) (ch : Int → Int → Bool) :
    ∃ t', TT.dpldE asserts t ⟨i, v, w⟩ ch = .ok t' ∧ ∀ x, IsTuple dom x → TT.evaluate asserts t' x =
      .ok (if x.getD i 0 = v then if ch (f x) (f (x.set i w)) = true then 1 else 0 else Undefined) := by
  obtain ⟨t', e, ht⟩ := dpldE_ok (asserts := asserts) hd (of_make hd h) (vc := ⟨i, v, w⟩) hi hv hw ch
  exact ⟨t', e, fun x hx => evaluate_ok hd ht hx⟩

example : (1 : Nat) < sysDom.length ∧ 0 < sysDom.getD 1 0 ∧ 2 < sysDom.getD 1 0 ∧
    Dpld.type3Increase 2 (sys ([1, 0, 0].set 1 0)) (sys ([1, 0, 0].set 1 2)) = true ∧
    Dpld.type3Increase 2 (sys ([1, 0, 1].set 1 0)) (sys ([1, 0, 1].set 1 2)) = false := by decide

/-! ## C51 -/

/-- `probability` of a system state, for independent components. -/
theorem C51_probability (hd : DomOK dom) (h : TT.make asserts ((tuples dom).map f) dom = .ok t)
    {ps : List (List Rat)} (hp : HasRows dom ps) (s : Int) :
    TT.probability t ps s = .ok (tupleProb dom (entry ps) fun x => decide (f x = s)) :=
  probability_ok hd (of_make hd h).toVecOf (probOK_of_rows hp) s

/-- `probability` of state 1 with one probability per component: components are in state 1 with it, and in
any other state with its complement. -/
theorem C51_binaryProbability (hd : DomOK dom) (h : TT.make asserts ((tuples dom).map f) dom = .ok t)
    {ps : List Rat} (hp : dom.length ≤ ps.length) :
    TT.binaryProbability t ps = .ok (tupleProb dom (fun i k => if k = 1 then ps.getD i 0 else 1 - ps.getD i 0)
      fun x => decide (f x = 1)) :=
  binaryProbability_ok hd (of_make hd h).toVecOf hp

/-- `availability` is the probability of the (defined) states `s` and better. -/
theorem C51_availability (hd : DomOK dom) (h : TT.make asserts ((tuples dom).map f) dom = .ok t)
    (hf : ∀ x, IsTuple dom x → f x ≤ Undefined) {ps : List (List Rat)} (hp : HasRows dom ps) (s : Int) :
    TT.availability t ps s = .ok (tupleProb dom (entry ps) fun x => decide (f x ≠ Undefined ∧ s ≤ f x)) :=
  availability_ok hd (of_make hd h) hf (probOK_of_rows hp) s

/-- `unavailability` is the probability of the states from 0 to `s - 1`. -/
theorem C51_unavailability (hd : DomOK dom) (h : TT.make asserts ((tuples dom).map f) dom = .ok t)
    {ps : List (List Rat)} (hp : HasRows dom ps) (s : Int) :
    TT.unavailability t ps s = .ok (tupleProb dom (entry ps) fun x => decide (0 ≤ f x ∧ f x < s)) :=
  unavailability_ok hd (of_make hd h).toVecOf (probOK_of_rows hp) s

/-- `state_frequency` is the share of the elements with the value. -/
theorem C51_stateFrequency (hd : DomOK dom) (h : TT.make asserts ((tuples dom).map f) dom = .ok t) (s : Int) :
    TT.stateFrequency t s = (tupleCount dom f s : Rat) / (dom.prod : Rat) := by
  have ht := of_make hd h
  unfold TT.stateFrequency domainSize
  rw [satisfyCount_ok ht.toVecOf, ht.vec, List.length_map, tuples_length]

/-- `structural_importance` of a derivative by variable `i` is the share of the elements for which the change
of the variable changes the function as asked; the integer divisions in it are exact. -/
theorem C51_structuralImportance (hd : DomOK dom) (h : TT.make asserts ((tuples dom).map f) dom = .ok t)
    {i v w : Nat} (hi : i < dom.length) (hv : v < dom.getD i 0) (hw : w < dom.getD i 0) (ch : Int → Int → Bool) :
    (TT.dpld asserts t ⟨i, v, w⟩ ch >>= fun d => TT.structuralImportance d i) =
      .ok (((((tuples dom).filter fun x => ch (f (x.set i v)) (f (x.set i w))).length : Nat) : Rat) /
        (dom.prod : Rat)) := by
  obtain ⟨t', e, ht⟩ := dpld_ok (asserts := asserts) hd (of_make hd h) (vc := ⟨i, v, w⟩) hi hv hw ch
  simp only [bind, Except.bind, e]
  rw [structural_ok hd ht.toVecOf hi (fun x k _ _ => by simp only [der, List.set_set])]
  have : tupleCount dom (der f ⟨i, v, w⟩ ch) 1 =
      ((tuples dom).filter fun x => ch (f (x.set i v)) (f (x.set i w))).length := by
    unfold tupleCount
    congr 1
    refine List.filter_congr fun x _ => ?_
    unfold der
    dsimp only
    cases ch (f (x.set i v)) (f (x.set i w)) <;> rfl
  rw [this]

/-- `birnbaum_importance` of a derivative is the probability that the components are in a state in which the
change of the variable changes the function as asked. -/
theorem C51_birnbaumImportance (hd : DomOK dom) (h : TT.make asserts ((tuples dom).map f) dom = .ok t)
    {i v w : Nat} (hi : i < dom.length) (hv : v < dom.getD i 0) (hw : w < dom.getD i 0) (ch : Int → Int → Bool)
    {ps : List (List Rat)} (hp : HasRows dom ps) :
    (TT.dpld asserts t ⟨i, v, w⟩ ch >>= fun d => TT.birnbaumImportance d ps) =
      .ok (tupleProb dom (entry ps) fun x => ch (f (x.set i v)) (f (x.set i w))) := by
  obtain ⟨t', e, ht⟩ := dpld_ok (asserts := asserts) hd (of_make hd h) (vc := ⟨i, v, w⟩) hi hv hw ch
  simp only [bind, Except.bind, e, TT.birnbaumImportance]
  rw [probability_ok hd ht.toVecOf (probOK_of_rows hp), tupleProb_eq, tupleProb_eq]
  congr 1
  refine fsum_congr fun x _ => ?_
  unfold der
  dsimp only
  cases ch (f (x.set i v)) (f (x.set i w)) <;> rfl

example : HasRows sysDom sysProbs ∧ (∀ x, IsTuple sysDom x → sys x ≤ Undefined) ∧
    tupleProb sysDom (entry sysProbs) (fun x => decide (sys x = 1)) = 11/80 :=
  ⟨sysRows, fun x _ => by unfold sys Undefined; omega, by
    have : (tuples sysDom).filter (fun x => decide (sys x = 1)) = [[0, 0, 1], [0, 1, 0], [1, 0, 0]] := by
      decide +kernel
    rw [tupleProb, this]
    norm_num [tupleWeight, entry, sysProbs]⟩

/-! ## C52 -/

/-- `calculate_mcvs` lists the minimal cut vectors: exactly the elements, except the best one, with a value
below `s` that every improvement of one component by one lifts to `s`.

Missing for the full property: the best element (`C52_violated_best`). -/
theorem C52_mcvs_partial (hd : DomOK dom) (h : TT.make asserts ((tuples dom).map f) dom = .ok t)
    (hne : ∃ i, i < dom.length ∧ 1 < dom.getD i 0) (s : Int) :
    TT.mcvs asserts t s = .ok ((tuples dom).filter fun x => decide (TupleMinCut dom f s x)) :=
  mcvs_ok hd (of_make hd h) hne s

/-- `calculate_mpvs` lists the minimal path vectors: exactly the elements, except the worst one, with a value
of at least `s` that every degradation of one component by one brings below `s`.

Missing for the full property: the worst element (`C52_violated_worst`). -/
theorem C52_mpvs_partial (hd : DomOK dom) (h : TT.make asserts ((tuples dom).map f) dom = .ok t)
    (hne : ∃ i, i < dom.length ∧ 1 < dom.getD i 0) (s : Int) :
    TT.mpvs asserts t s = .ok ((tuples dom).filter fun x => decide (TupleMinPath dom f s x)) :=
  mpvs_ok hd (of_make hd h) hne s

/-- For a monotone function the minimal cut vectors are the greatest elements below `s`: every element above
one has a value of at least `s`. -/
theorem C52_mcvs_monotone_partial (hd : DomOK dom) (h : TT.make asserts ((tuples dom).map f) dom = .ok t)
    (hne : ∃ i, i < dom.length ∧ 1 < dom.getD i 0) (hf : TupleMonotone dom f) (s : Int) :
    ∃ xs, TT.mcvs asserts t s = .ok xs ∧ ∀ x, x ∈ xs ↔ IsTuple dom x ∧
      (∃ i, i < dom.length ∧ x.getD i 0 + 1 < dom.getD i 0) ∧ f x < s ∧
        ∀ y, IsTuple dom y → TupleLe dom x y → x ≠ y → s ≤ f y := by
  refine ⟨_, C52_mcvs_partial hd h hne s, fun x => ?_⟩
  rw [List.mem_filter, mem_tuples, decide_eq_true_eq]
  exact and_congr_right fun hx => minCut_monotone hf hx

/-- For a monotone function the minimal path vectors are the least elements that reach `s`. -/
theorem C52_mpvs_monotone_partial (hd : DomOK dom) (h : TT.make asserts ((tuples dom).map f) dom = .ok t)
    (hne : ∃ i, i < dom.length ∧ 1 < dom.getD i 0) (hf : TupleMonotone dom f) (s : Int) :
    ∃ xs, TT.mpvs asserts t s = .ok xs ∧ ∀ x, x ∈ xs ↔ IsTuple dom x ∧
      (∃ i, i < dom.length ∧ 0 < x.getD i 0) ∧ s ≤ f x ∧
        ∀ y, IsTuple dom y → TupleLe dom y x → x ≠ y → f y < s := by
  refine ⟨_, C52_mpvs_partial hd h hne s, fun x => ?_⟩
  rw [List.mem_filter, mem_tuples, decide_eq_true_eq]
  exact and_congr_right fun hx => minPath_monotone hf hx

/-- The best element is not listed, even if the system fails in it: a system that never works. -/
theorem C52_violated_best : ∃ t, TT.make true ((tuples [2, 2]).map fun _ => 0) [2, 2] = .ok t ∧
    TT.mcvs true t 1 = .ok [] := ⟨⟨[0, 0, 0, 0], [2, 2], [2, 1], 0⟩, by rfl, by rfl⟩

/-- The worst element is not listed, even if the system works in it. -/
theorem C52_violated_worst : ∃ t, TT.make true ((tuples [2, 2]).map fun _ => 1) [2, 2] = .ok t ∧
    TT.mpvs true t 1 = .ok [] := ⟨⟨[1, 1, 1, 1], [2, 2], [2, 1], 1⟩, by rfl, by rfl⟩

/-- If no component can change its state, `calculate_mcvs` reads the front of an empty vector. -/
theorem C52_violated (hd : DomOK dom) (h : TT.make asserts ((tuples dom).map f) dom = .ok t)
    (h1 : ∀ i, i < dom.length → dom.getD i 0 ≤ 1) (s : Int) : TT.mcvs asserts t s = .error .outOfRange :=
  mcvs_trivial (of_make hd h).toVecOf h1 s

example : (∃ i, i < sysDom.length ∧ 1 < sysDom.getD i 0) ∧
    (tuples sysDom).filter (fun x => decide (TupleMinCut sysDom sys 2 x)) = [[0, 0, 1], [0, 1, 0], [1, 0, 0]] ∧
    (tuples sysDom).filter (fun x => decide (TupleMinPath sysDom sys 2 x)) =
      [[0, 1, 1], [0, 2, 0], [1, 0, 1], [1, 1, 0]] :=
  ⟨⟨0, by decide⟩, by decide +kernel, by decide +kernel⟩

example : TupleMonotone sysDom sys := by
  have : ∀ x ∈ tuples sysDom, ∀ y ∈ tuples sysDom,
      (∀ i, i < sysDom.length → x.getD i 0 ≤ y.getD i 0) → sys x ≤ sys y := by decide +kernel
  exact fun x y hx hy => this x (mem_tuples.2 hx) y (mem_tuples.2 hy)

example : DomOK [1, 1] ∧ (∃ t, TT.make true ((tuples [1, 1]).map fun _ => 0) [1, 1] = .ok t) ∧
    ∀ i, i < [1, 1].length → [1, 1].getD i 0 ≤ 1 :=
  ⟨⟨by decide, by decide, by decide⟩, ⟨⟨[0], [1, 1], [1, 1], 0⟩, by rfl⟩, by decide⟩

/-! ## C53 -/

/-- `fussell_vesely_importance`: the probability that the components are in a state below (or equal to) a
minimal cut vector in which component `i` is just below state `cs`, divided by the unavailability. -/
theorem C53_fussellVesely (hd : DomOK dom) (h : TT.make asserts ((tuples dom).map f) dom = .ok t)
    (hne : ∃ i, i < dom.length ∧ 1 < dom.getD i 0) {ps : List (List Rat)} (hp : HasRows dom ps) (i cs : Nat)
    (s : Int) (hu : (tupleProb dom (entry ps) fun x => decide (0 ≤ f x ∧ f x < s)) ≠ 0) :
    TT.fussellVesely asserts t ps i cs s = .ok (
      (tupleProb dom (entry ps) fun x => decide (∃ m ∈ tuples dom,
        TupleMinCut dom f s m ∧ m.getD i 0 + 1 = cs ∧ TupleLe dom x m)) /
      tupleProb dom (entry ps) fun x => decide (0 ≤ f x ∧ f x < s)) := by
  refine fussellVesely_ok hd (of_make hd h) hne (probOK_of_rows hp) i cs s hu _ fun x _ => ?_
  simp only [decide_eq_true_eq, mem_tuples]
  rfl

example : (tupleProb sysDom (entry sysProbs) fun x => decide (0 ≤ sys x ∧ sys x < 2)) = 3/20 ∧
    (tupleProb sysDom (entry sysProbs) fun x => decide (∃ m ∈ tuples sysDom,
        TupleMinCut sysDom sys 2 m ∧ m.getD 1 0 + 1 = 1 ∧ TupleLe sysDom x m)) = 11/80 :=
  ⟨by
    have : (tuples sysDom).filter (fun x => decide (0 ≤ sys x ∧ sys x < 2)) =
        [[0, 0, 0], [0, 0, 1], [0, 1, 0], [1, 0, 0]] := by decide +kernel
    rw [tupleProb, this]
    norm_num [tupleWeight, entry, sysProbs], by
    have : (tuples sysDom).filter (fun x => decide (∃ m ∈ tuples sysDom,
        TupleMinCut sysDom sys 2 m ∧ m.getD 1 0 + 1 = 1 ∧ TupleLe sysDom x m)) =
        [[0, 0, 0], [0, 0, 1], [1, 0, 0]] := by decide +kernel
    rw [tupleProb, this]
    norm_num [tupleWeight, entry, sysProbs]⟩

end

end Properties
end Teddy
