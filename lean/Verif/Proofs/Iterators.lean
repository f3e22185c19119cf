import Verif.Iterators
import Verif.Spec
import Verif.Proofs.Enum
import Mathlib.Data.List.Perm.Basic

/-! Lemmas about domain iterators, expressions and their generators. -/

namespace Teddy
namespace Tsl

open Spec

/-! ### Incrementing, on functions -/

/-- `DomIter.loop` on functions. -/
def incF (dom : Nat → Nat) : List Nat → Asg → Bool → Asg × Bool
  | [], x, ov => (x, ov)
  | i :: is, x, _ => if x i + 1 = dom i then incF dom is (upd x i 0) true else (upd x i (x i + 1), false)

theorem incF_append (dom : Nat → Nat) (A B : List Nat) (x : Asg) :
    incF dom (A ++ B) x true =
      if (incF dom A x true).2 then incF dom B (incF dom A x true).1 true
      else ((incF dom A x true).1, false) := by
  induction A generalizing x with
  | nil => simp [incF]
  | cons i is ih =>
      simp only [List.cons_append, incF]
      split
      · exact ih _
      · simp

/-- The values seen by a loop: `inc` moves on, its flag says that the last one has been seen. -/
inductive Walk (inc : Asg → Asg × Bool) : Asg → List Asg → Asg → Prop
  | last {y z} : inc y = (z, true) → Walk inc y [y] z
  | step {y y' z L} : inc y = (y', false) → Walk inc y' L z → Walk inc y (y :: L) z

theorem Walk.append {f g : Asg → Asg × Bool} {y z z' y2 : Asg} {L L2 : List Asg} (h : Walk f y L z)
    (h1 : ∀ a b, f a = (b, false) → g a = (b, false)) (h2 : ∀ a, f a = (z, true) → g a = (y2, false))
    (h3 : Walk g y2 L2 z') : Walk g y (L ++ L2) z' := by
  induction h with
  | last e => exact .step (h2 _ e) h3
  | step e _ ih => exact .step (h1 _ _ e) (ih h2)

theorem Walk.finish {f g : Asg → Asg × Bool} {y z z' : Asg} {L : List Asg} (h : Walk f y L z)
    (h1 : ∀ a b, f a = (b, false) → g a = (b, false)) (h2 : ∀ a, f a = (z, true) → g a = (z', true)) :
    Walk g y L z' := by
  induction h with
  | last e => exact .last (h2 _ e)
  | step e _ ih => exact .step (h1 _ _ e) (ih h2)

/-- Enumeration of `vars` over the values of `z`. -/
def enumOn (dom : Nat → Nat) : List Nat → Asg → List Asg
  | [], z => [z]
  | i :: is, z => (List.range (dom i)).flatMap fun k => enumOn dom is (upd z i k)

theorem enumOn_upd {dom : Nat → Nat} {is : List Nat} {i k : Nat} (hi : i ∉ is) (z : Asg) :
    enumOn dom is (upd z i k) = (enumOn dom is z).map fun x => upd x i k := by
  induction is generalizing z with
  | nil => rfl
  | cons j js ih =>
      have hij : i ≠ j := fun e => hi (e ▸ List.mem_cons_self ..)
      simp only [enumOn, List.map_flatMap]
      refine List.flatMap_congr fun a _ => ?_
      rw [upd_comm _ _ _ hij, ih (fun h => hi (List.mem_cons_of_mem _ h))]

theorem enumOn_zero {dom : Nat → Nat} {vars : List Nat} (hn : vars.Nodup) :
    enumOn dom vars (fun _ => 0) = assignments dom vars := by
  induction vars with
  | nil => rfl
  | cons i is ih =>
      obtain ⟨hi, hn⟩ := List.nodup_cons.1 hn
      simp only [enumOn, assignments]
      refine List.flatMap_congr fun k _ => ?_
      rw [enumOn_upd hi, ih hn]

theorem walk_enum {dom : Nat → Nat} {vars : List Nat} (hn : vars.Nodup) (hd : ∀ i ∈ vars, 0 < dom i)
    {z : Asg} (hz : ∀ i ∈ vars, z i = 0) :
    Walk (fun y => incF dom vars.reverse y true) z (enumOn dom vars z) z := by
  induction vars generalizing z with
  | nil => exact .last rfl
  | cons i is ih =>
      obtain ⟨hi, hn⟩ := List.nodup_cons.1 hn
      have e0 : ∀ y, incF dom (i :: is).reverse y true =
          if (incF dom is.reverse y true).2 then incF dom [i] (incF dom is.reverse y true).1 true
          else ((incF dom is.reverse y true).1, false) := by
        intro y; rw [List.reverse_cons, incF_append]
      have inner : ∀ k, Walk (fun y => incF dom is.reverse y true) (upd z i k)
          (enumOn dom is (upd z i k)) (upd z i k) := fun k =>
        ih hn (fun j hj => hd j (List.mem_cons_of_mem _ hj)) fun j hj => by
          have hne : j ≠ i := fun e => hi (e ▸ hj)
          rw [upd_other _ _ hne]
          exact hz j (List.mem_cons_of_mem _ hj)
      have hf : ∀ a b, incF dom is.reverse a true = (b, false) →
          incF dom (i :: is).reverse a true = (b, false) := by
        intro a b e; rw [e0, e]; rfl
      have key : ∀ m k, m + 1 + k = dom i →
          Walk (fun y => incF dom (i :: is).reverse y true) (upd z i k)
            ((List.range' k (m + 1)).flatMap fun k => enumOn dom is (upd z i k)) z := by
        intro m
        induction m with
        | zero =>
            intro k hk
            rw [Nat.zero_add, List.range'_one, List.flatMap_cons, List.flatMap_nil, List.append_nil]
            refine (inner k).finish hf fun a e => ?_
            rw [e0, e]
            simp only [incF, upd_same, if_true]
            rw [if_pos (by omega), upd_upd]
            have : upd z i 0 = z := by rw [← hz i (by simp), upd_eta]
            rw [this]
        | succ m ihm =>
            intro k hk
            rw [List.range'_succ, List.flatMap_cons]
            refine (inner k).append hf (y2 := upd z i (k + 1)) (fun a e => ?_) (ihm (k + 1) (by omega))
            rw [e0, e]
            simp only [incF, upd_same, if_true]
            rw [if_neg (by omega), upd_upd]
      have h0 := hd i (by simp)
      have := key (dom i - 1) 0 (by omega)
      rw [show dom i - 1 + 1 = dom i by omega, ← List.range_eq_range'] at this
      have hz0 : upd z i 0 = z := by rw [← hz i (by simp), upd_eta]
      rw [hz0] at this
      exact this

/-! ### … and on lists -/

theorem getElem?_toList {n : Nat} (x : Asg) {i : Nat} (h : i < n) : (toList n x)[i]? = some (x i) := by
  simp [toList, h]

theorem set_toList {n : Nat} (x : Asg) (i v : Nat) : (toList n x).set i v = toList n (upd x i v) := by
  refine List.ext_getElem? fun j => ?_
  rw [List.getElem?_set]
  by_cases hj : j < n
  · rw [getElem?_toList _ hj, getElem?_toList _ hj]
    by_cases e : i = j
    · subst e; simp [toList, hj]
    · rw [if_neg e, upd_other _ _ (Ne.symm e)]
  · have h1 : ∀ y : Asg, (toList n y)[j]? = none := fun y => by simp [toList]; omega
    rw [h1, h1]
    split
    · simp [toList]; omega
    · rfl

theorem loop_toList {domains is : List Nat} (h : ∀ i ∈ is, i < domains.length) (x : Asg) (ov : Bool) :
    DomIter.loop domains is (toList domains.length x) ov =
      .ok (toList domains.length (incF (fun i => domains.getD i 0) is x ov).1,
        (incF (fun i => domains.getD i 0) is x ov).2) := by
  induction is generalizing x ov with
  | nil => rfl
  | cons i is ih =>
      have hi := h i (by simp)
      rw [DomIter.loop, getElem?_toList x hi, List.getElem?_eq_getElem hi]
      have e : domains.getD i 0 = domains[i] := by simp [hi]
      simp only [incF, e]
      split
      · rw [set_toList]
        exact ih (fun j hj => h j (List.mem_cons_of_mem _ hj)) _ _
      · rw [set_toList]

theorem incF_ov {dom : Nat → Nat} {is : List Nat} (h : is ≠ []) (x : Asg) (a b : Bool) :
    incF dom is x a = incF dom is x b := by
  cases is with
  | nil => exact absurd rfl h
  | cons => rfl

theorem forEach_walk {α : Type} {domains is : List Nat} (h : ∀ i ∈ is, i < domains.length) (h0 : is ≠ [])
    {g : List Nat → Except Err α} {g' : Asg → α} {y z : Asg} {L : List Asg}
    (hw : Walk (fun y => incF (fun i => domains.getD i 0) is y true) y L z)
    (hg : ∀ x ∈ L, g (toList domains.length x) = .ok (g' x)) {fuel : Nat} (hf : L.length < fuel) :
    DomIter.forEach g fuel ⟨domains, is, toList domains.length y⟩ = .ok (L.map g') := by
  have hlen : 0 < domains.length := by
    cases is with
    | nil => exact absurd rfl h0
    | cons i _ => exact Nat.lt_of_le_of_lt (Nat.zero_le _) (h i (by simp))
  have hend : ∀ y : Asg, (DomIter.atEnd ⟨domains, is, toList domains.length y⟩) = false := by
    intro y
    simp only [DomIter.atEnd, toList, List.isEmpty_eq_false_iff, ne_eq, List.map_eq_nil_iff,
      List.range_eq_nil]
    omega
  induction hw generalizing fuel with
  | @last y z e =>
      obtain ⟨k, rfl⟩ : ∃ k, fuel = k + 1 := ⟨fuel - 1, by omega⟩
      obtain ⟨k, rfl⟩ : ∃ k', k = k' + 1 := ⟨k - 1, by simp at hf; omega⟩
      rw [DomIter.forEach, hend, hg y (by simp)]
      simp only [DomIter.next, loop_toList h]
      rw [incF_ov h0 _ false true]
      rw [e]
      rfl
  | @step y y' z L e _ ih =>
      obtain ⟨k, rfl⟩ : ∃ k, fuel = k + 1 := ⟨fuel - 1, by omega⟩
      rw [DomIter.forEach, hend, hg y (by simp)]
      have := ih (fun x hx => hg x (List.mem_cons_of_mem _ hx)) (fuel := k) (by simp at hf; omega)
      simp only [DomIter.next, loop_toList h]
      rw [incF_ov h0 _ false true]
      rw [e]
      simp only [Bool.false_eq_true, if_false, bind, Except.bind]
      rw [this]
      rfl

end Tsl
end Teddy
