import Verif.Proofs.TruthTableRel
import Verif.Proofs.Enum

/-!
# Assignments as elements of the domain of a truth table
-/

namespace Teddy

open Spec TT

variable {n : Nat} {cdom : Nat → Nat} {dom : List Nat}

theorem getD_toList (x : Asg) {i : Nat} (hi : i < n) : (toList n x).getD i 0 = x i := by
  simp [toList, List.getD, hi]

theorem length_toList (x : Asg) : (toList n x).length = n := by simp [toList]

theorem toList_upd (x : Asg) (i v : Nat) : toList n (upd x i v) = (toList n x).set i v := by
  refine List.ext_getElem (by simp [toList]) fun k h1 _ => ?_
  simp only [toList, List.getElem_map, List.getElem_range, List.getElem_set, upd_apply]
  by_cases e : k = i
  · rw [if_pos e, if_pos e.symm]
  · rw [if_neg e, if_neg (Ne.symm e)]

theorem map_upd_cons {i k : Nat} {is : List Nat} (h : i ∉ is) (x : Asg) :
    (i :: is).map (upd x i k) = k :: is.map x := by
  simp only [List.map_cons, upd_apply, if_true]
  congr 1
  refine List.map_congr_left fun j hj => ?_
  rw [upd_apply, if_neg]
  rintro rfl
  exact h hj

theorem assignments_map : ∀ {is : List Nat}, is.Nodup →
    (assignments cdom is).map (fun x => is.map x) = tuples (is.map cdom)
  | [], _ => rfl
  | i :: is, h => by
      have hn := List.nodup_cons.1 h
      simp only [assignments, List.map_cons, tuples, List.map_flatMap, List.map_map]
      congr 1
      funext k
      rw [← assignments_map hn.2, List.map_map]
      refine List.map_congr_left fun x _ => ?_
      exact map_upd_cons hn.1 x

/-- `dom` lists the domains of the variables. -/
theorem domains_eq (hn : n = dom.length) (hd : ∀ i, i < n → cdom i = dom.getD i 0) :
    (List.range n).map cdom = dom := by
  refine List.ext_getElem (by simp [hn]) fun i h1 h2 => ?_
  have hi : i < n := by simpa using h1
  simp only [List.getElem_map, List.getElem_range]
  rw [hd i hi]
  simp [List.getD, h2]

theorem allAsg_toList (hn : n = dom.length) (hd : ∀ i, i < n → cdom i = dom.getD i 0) :
    (allAsg n cdom).map (toList n) = tuples dom := by
  rw [← domains_eq hn hd]
  exact assignments_map List.nodup_range

theorem toList_isTuple (hn : n = dom.length) (hd : ∀ i, i < n → cdom i = dom.getD i 0) {x : Asg}
    (hx : InDomain n cdom x) : IsTuple dom (toList n x) := by
  refine ⟨by rw [length_toList, hn], fun i hi => ?_⟩
  rw [← hn] at hi
  rw [getD_toList x hi, ← hd i hi]
  exact hx i hi

theorem isTuple_asg (hn : n = dom.length) (hd : ∀ i, i < n → cdom i = dom.getD i 0) {y : List Nat}
    (hy : IsTuple dom y) : InDomain n cdom (fun i => y.getD i 0) ∧ toList n (fun i => y.getD i 0) = y := by
  refine ⟨fun i hi => ?_, ?_⟩
  · rw [hd i hi]
    exact hy.2 i (by omega)
  · refine List.ext_getElem (by rw [length_toList, hn, hy.1]) fun i _ h2 => ?_
    simp only [toList, List.getElem_map, List.getElem_range]
    simp [List.getD, h2]

theorem tupleWeight_map (pr : Nat → Nat → Rat) (x : Asg) : ∀ m k,
    tupleWeight pr k ((List.range' k m).map x) = ((List.range' k m).map fun i => pr i (x i)).prod
  | 0, _ => rfl
  | m + 1, k => by
      rw [List.range'_succ]
      simp only [List.map_cons, tupleWeight, List.prod_cons]
      rw [tupleWeight_map pr x m (k + 1)]

theorem weight_toList (pr : Nat → Nat → Rat) (x : Asg) :
    tupleWeight pr 0 (toList n x) = weight pr (List.range n) x := by
  unfold toList weight
  rw [List.range_eq_range']
  exact tupleWeight_map pr x n 0

theorem probability_tuples (hn : n = dom.length) (hd : ∀ i, i < n → cdom i = dom.getD i 0)
    (pr : Nat → Nat → Rat) (φ : List Nat → Bool) :
    tupleProb dom pr φ = Spec.probability n cdom pr fun x => φ (toList n x) := by
  unfold tupleProb Spec.probability
  rw [← allAsg_toList hn hd, List.filter_map, List.map_map]
  congr 1
  refine List.map_congr_left fun x _ => ?_
  exact weight_toList pr x

theorem filter_tuples (hn : n = dom.length) (hd : ∀ i, i < n → cdom i = dom.getD i 0) (φ : List Nat → Bool) :
    ((tuples dom).filter φ).length = ((allAsg n cdom).filter fun x => φ (toList n x)).length := by
  rw [← allAsg_toList hn hd, List.filter_map, List.length_map]
  rfl

theorem count_tuples (hn : n = dom.length) (hd : ∀ i, i < n → cdom i = dom.getD i 0) (f : List Nat → Int)
    (v : Int) : tupleCount dom f v = countValue n cdom (fun x => f (toList n x)) v :=
  filter_tuples hn hd fun x => decide (f x = v)

theorem minCut_tuples (hn : n = dom.length) (hd : ∀ i, i < n → cdom i = dom.getD i 0) (f : List Nat → Int)
    (s : Int) (x : Asg) : TupleMinCut dom f s (toList n x) ↔ MinCut n cdom (fun x => f (toList n x)) s x := by
  unfold TupleMinCut MinCut
  rw [← hn]
  simp only [toList_upd]
  refine and_congr (exists_congr fun i => and_congr_right fun hi => ?_) (and_congr_right fun _ =>
    forall_congr' fun i => forall_congr' fun hi => ?_)
  · rw [getD_toList x hi, hd i hi]
  · rw [getD_toList x hi, hd i hi]

theorem minPath_tuples (hn : n = dom.length) (f : List Nat → Int) (s : Int) (x : Asg) :
    TupleMinPath dom f s (toList n x) ↔ MinPath n (fun x => f (toList n x)) s x := by
  unfold TupleMinPath MinPath
  rw [← hn]
  simp only [toList_upd]
  refine and_congr (exists_congr fun i => and_congr_right fun hi => ?_) (and_congr_right fun _ =>
    forall_congr' fun i => forall_congr' fun hi => ?_)
  · rw [getD_toList x hi]
  · rw [getD_toList x hi]

theorem dpld_one (b : Bool) : decide ((if b = true then (1 : Int) else 0) = 1) = b := by cases b <;> rfl

end Teddy
