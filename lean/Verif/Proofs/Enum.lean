import Verif.Proofs.ArithLemmas
import Mathlib.Algebra.BigOperators.Ring.List
import Mathlib.Algebra.Ring.Rat
import Mathlib.Data.List.Perm.Lattice
import Mathlib.Data.List.Nodup

/-! Lists of assignments, counting and weighted sums. -/

namespace Teddy

open Spec

theorem upd_comm {α : Type} (f : Nat → α) {i j : Nat} (a b : α) (h : i ≠ j) :
    upd (upd f i a) j b = upd (upd f j b) i a := by
  funext k
  simp only [upd_apply]
  split <;> split <;> simp_all

theorem upd_upd {α : Type} (f : Nat → α) (i : Nat) (a b : α) :
    upd (upd f i a) i b = upd f i b := by
  funext k
  simp only [upd_apply]
  split <;> simp_all

theorem upd_eta {α : Type} (f : Nat → α) (i : Nat) : upd f i (f i) = f := by
  funext k
  simp only [upd_apply]
  split <;> simp_all

theorem mem_assignments {dom : Nat → Nat} {vars : List Nat} (hn : vars.Nodup) {x : Asg} :
    x ∈ assignments dom vars ↔ (∀ i ∈ vars, x i < dom i) ∧ ∀ i, i ∉ vars → x i = 0 := by
  induction vars generalizing x with
  | nil =>
      simp only [assignments, List.mem_singleton, List.not_mem_nil, false_imp_iff, implies_true,
        true_and, not_false_eq_true, true_imp_iff]
      exact funext_iff
  | cons i is ih =>
      obtain ⟨hi, hn⟩ := List.nodup_cons.1 hn
      simp only [assignments, List.mem_flatMap, List.mem_range, List.mem_map]
      constructor
      · rintro ⟨k, hk, y, hy, rfl⟩
        obtain ⟨h1, h2⟩ := (ih hn).1 hy
        refine ⟨?_, ?_⟩
        · intro j hj
          rcases List.mem_cons.1 hj with rfl | hj
          · simpa using hk
          · have hne : j ≠ i := fun e => hi (e ▸ hj)
            rw [upd_other _ _ hne]
            exact h1 j hj
        · intro j hj
          simp only [List.mem_cons, not_or] at hj
          rw [upd_other _ _ hj.1]
          exact h2 j hj.2
      · rintro ⟨h1, h2⟩
        refine ⟨x i, h1 i (by simp), upd x i 0, (ih hn).2 ⟨?_, ?_⟩, ?_⟩
        · intro j hj
          have hne : j ≠ i := fun e => hi (e ▸ hj)
          rw [upd_other _ _ hne]
          exact h1 j (by simp [hj])
        · intro j hj
          by_cases e : j = i
          · subst e; simp
          · rw [upd_other _ _ e]
            exact h2 j (by simp [e, hj])
        · rw [upd_upd, upd_eta]

theorem nodup_assignments {dom : Nat → Nat} {vars : List Nat} (hn : vars.Nodup) :
    (assignments dom vars).Nodup := by
  induction vars with
  | nil => simp [assignments]
  | cons i is ih =>
      obtain ⟨hi, hn⟩ := List.nodup_cons.1 hn
      simp only [assignments]
      rw [List.nodup_flatMap]
      refine ⟨?_, ?_⟩
      · intro k _
        refine List.Nodup.map_on ?_ (ih hn)
        intro x hx y hy e
        have h0 : ∀ z ∈ assignments dom is, upd (upd z i k) i 0 = z := by
          intro z hz
          have := ((mem_assignments hn).1 hz).2 i hi
          rw [upd_upd, ← this, upd_eta]
        rw [← h0 x hx, ← h0 y hy, e]
      · refine List.Pairwise.imp_of_mem ?_ (List.nodup_range (n := dom i))
        intro a b _ _ hab z h1 h2
        simp only [List.mem_map] at h1 h2
        obtain ⟨x, _, rfl⟩ := h1
        obtain ⟨y, _, e⟩ := h2
        have := congrFun e i
        simp only [upd_same] at this
        exact hab this.symm

theorem perm_assignments {dom : Nat → Nat} {vars vars' : List Nat} (h : vars.Perm vars')
    (hn : vars.Nodup) : (assignments dom vars).Perm (assignments dom vars') := by
  have hn' := h.nodup hn
  refine (List.perm_ext_iff_of_nodup (nodup_assignments hn) (nodup_assignments hn')).2 ?_
  intro x
  rw [mem_assignments hn, mem_assignments hn']
  simp only [h.mem_iff]

theorem length_assignments {dom : Nat → Nat} {vars : List Nat} :
    (assignments dom vars).length = domProd dom vars := by
  induction vars with
  | nil => simp [assignments, domProd]
  | cons i is ih =>
      simp only [assignments, List.length_flatMap, List.length_map, ih, domProd, List.map_cons,
        List.prod_cons]
      simp

theorem sum_flatMap {α R : Type} [AddCommMonoid R] (l : List α) (f : α → List R) :
    (l.flatMap f).sum = (l.map fun a => (f a).sum).sum := by
  induction l with
  | nil => rfl
  | cons a l ih => simp [ih]

section
variable {R : Type} [CommSemiring R]

/-- Weighted sum over all assignments of `vars`. -/
def wsum (dom : Nat → Nat) (P : Nat → Nat → R) : List Nat → (Asg → R) → R
  | [], g => g (fun _ => 0)
  | i :: is, g =>
      ((List.range (dom i)).map fun k => P i k * wsum dom P is (fun x => g (upd x i k))).sum

theorem wsum_eq {dom : Nat → Nat} {P : Nat → Nat → R} {vars : List Nat} (hn : vars.Nodup)
    (g : Asg → R) : wsum dom P vars g =
      ((assignments dom vars).map fun x => (vars.map fun i => P i (x i)).prod * g x).sum := by
  induction vars generalizing g with
  | nil => simp [wsum, assignments]
  | cons i is ih =>
      obtain ⟨hi, hn⟩ := List.nodup_cons.1 hn
      simp only [wsum, assignments, List.map_flatMap, sum_flatMap]
      congr 1
      refine List.map_congr_left ?_
      intro k _
      rw [ih hn, ← List.sum_map_mul_left, List.map_map]
      congr 1
      refine List.map_congr_left ?_
      intro x _
      simp only [Function.comp, List.map_cons, List.prod_cons, upd_same]
      have : (is.map fun j => P j (upd x i k j)) = is.map fun j => P j (x j) := by
        refine List.map_congr_left (fun j hj => ?_)
        have hne : j ≠ i := fun e => hi (e ▸ hj)
        rw [upd_other _ _ hne]
      rw [this]
      ring

theorem wsum_congr {dom : Nat → Nat} {P : Nat → Nat → R} {vars : List Nat} (hn : vars.Nodup)
    {g h : Asg → R} (he : ∀ x, (∀ i ∈ vars, x i < dom i) → (∀ i, i ∉ vars → x i = 0) → g x = h x) :
    wsum dom P vars g = wsum dom P vars h := by
  rw [wsum_eq hn, wsum_eq hn]
  congr 1
  refine List.map_congr_left (fun x hx => ?_)
  obtain ⟨h1, h2⟩ := (mem_assignments hn).1 hx
  rw [he x h1 h2]

theorem wsum_perm {dom : Nat → Nat} {P : Nat → Nat → R} {vars vars' : List Nat}
    (h : vars.Perm vars') (hn : vars.Nodup) (g : Asg → R) :
    wsum dom P vars g = wsum dom P vars' g := by
  rw [wsum_eq hn, wsum_eq (h.nodup hn)]
  have e : (fun x => (vars.map fun i => P i (x i)).prod * g x)
      = fun x => (vars'.map fun i => P i (x i)).prod * g x := by
    funext x
    rw [(h.map _).prod_eq]
  rw [e]
  exact ((perm_assignments h hn).map _).sum_eq

end

theorem sum_map_ite_eq_length {α : Type} (l : List α) (φ : α → Bool) :
    (l.map fun x => if φ x then 1 else 0).sum = (l.filter φ).length := by
  induction l with
  | nil => rfl
  | cons a l ih =>
      simp only [List.map_cons, List.sum_cons, ih, List.filter_cons]
      split <;> simp; omega

theorem sum_map_filter {α : Type} {R : Type} [CommSemiring R] (l : List α) (φ : α → Bool)
    (w : α → R) : ((l.filter φ).map w).sum = (l.map fun x => w x * if φ x then 1 else 0).sum := by
  induction l with
  | nil => rfl
  | cons a l ih =>
      simp only [List.filter_cons, List.map_cons, List.sum_cons, ← ih]
      split <;> simp

/-- `countValue` is a weighted sum. -/
theorem countValue_eq {n : Nat} {dom : Nat → Nat} {f : Asg → Int} {v : Int} {vars : List Nat}
    (h : vars.Perm (List.range n)) :
    countValue n dom f v = wsum (R := Nat) dom (fun _ _ => 1) vars
      (fun x => if f x = v then 1 else 0) := by
  rw [wsum_perm h (h.symm.nodup List.nodup_range), wsum_eq List.nodup_range]
  unfold countValue allAsg
  rw [← sum_map_ite_eq_length]
  simp

/-- `probability` is a weighted sum. -/
theorem probability_eq {R : Type} [CommSemiring R] {n : Nat} {dom : Nat → Nat} {P : Nat → Nat → R} {φ : Asg → Bool}
    {vars : List Nat} (h : vars.Perm (List.range n)) :
    probability n dom P φ = wsum dom P vars (fun x => if φ x then 1 else 0) := by
  rw [wsum_perm h (h.symm.nodup List.nodup_range), wsum_eq List.nodup_range]
  unfold probability allAsg
  rw [sum_map_filter]
  rfl

end Teddy
