import Verif.Proofs.Bridge
import Verif.Proofs.SeriesParallel

/-!
# Fussell-Vesely importance of truth tables and of functions
-/

namespace Teddy

open Spec

variable {n : Nat} {cdom : Nat → Nat} {dom : List Nat}

theorem belowCut_tuples (hn : n = dom.length) (hd : ∀ i, i < n → cdom i = dom.getD i 0) {f : List Nat → Int} {s : Int}
    {i v : Nat} (hi : i < n) {x : List Nat} :
    BelowCut n cdom (fun x => f (toList n x)) s i v (fun j => x.getD j 0) ↔
      ∃ m, IsTuple dom m ∧ TupleMinCut dom f s m ∧ m.getD i 0 + 1 = v ∧
        ∀ j, j < dom.length → x.getD j 0 ≤ m.getD j 0 := by
  constructor
  · rintro ⟨m, hm, h1, h2, h3⟩
    refine ⟨toList n m, toList_isTuple hn hd (mem_allAsg hm), (minCut_tuples hn hd f s m).2 h1, ?_, fun j hj => ?_⟩
    · rw [getD_toList m hi]; exact h2
    · rw [← hn] at hj
      rw [getD_toList m hj]
      exact h3 j hj
  · rintro ⟨m, hm, h1, h2, h3⟩
    obtain ⟨h4, h5⟩ := isTuple_asg hn hd hm
    refine ⟨fun j => m.getD j 0, (mem_assignments List.nodup_range).2 ⟨fun j hj => h4 j (List.mem_range.1 hj), fun j hj => ?_⟩,
      (minCut_tuples hn hd f s _).1 (by rw [h5]; exact h1), h2, fun j hj => h3 j (by rw [← hn]; exact hj)⟩
    simp only [List.mem_range] at hj
    show m.getD j 0 = 0
    rw [List.getD_eq_getElem?_getD, List.getElem?_eq_none (by rw [hm.1, ← hn]; omega)]
    rfl

/-- The importance that the truth table computes. -/
theorem tableImportance (hn : n = dom.length) (hd : ∀ i, i < n → cdom i = dom.getD i 0) {f : List Nat → Int} {t : TT.Table}
    {asserts : Bool} (hdom : DomOK dom) (h : TT.Of dom f t) (hne : ∃ i, i < dom.length ∧ 1 < dom.getD i 0)
    (hpos : ∀ x, IsTuple dom x → 0 ≤ f x) {ps : List (List Rat)} (hp : HasRows dom ps) {i : Nat} (hi : i < n) (v : Nat) (s : Int)
    (hu : probability n cdom (entry ps) (fun x => decide (f (toList n x) < s)) ≠ 0) :
    TT.fussellVesely asserts t ps i v s =
      .ok (fussellVeselyImportance n cdom (entry ps) (fun x => f (toList n x)) s i v) := by
  have hu' : tupleProb dom (entry ps) (fun x => decide (0 ≤ f x ∧ f x < s)) =
      probability n cdom (entry ps) fun x => decide (f (toList n x) < s) := by
    refine Eq.trans (TT.fsum_congr fun x hx => decide_eq_decide.2 ?_)
      (probability_tuples hn hd (entry ps) fun y => decide (f y < s))
    exact ⟨fun h => h.2, fun h => ⟨hpos x (TT.mem_tuples.1 hx), h⟩⟩
  have e1 := TT.fussellVesely_ok (asserts := asserts) hdom h hne (TT.probOK_of_rows hp) i v s (by rw [hu']; exact hu)
    (fun x => decide (BelowCut n cdom (fun x => f (toList n x)) s i v fun j => x.getD j 0))
    (fun x _ => by rw [decide_eq_true_eq]; exact belowCut_tuples hn hd hi)
  have same : ∀ x : Asg, BelowCut n cdom (fun x => f (toList n x)) s i v (fun j => (toList n x).getD j 0) ↔
      BelowCut n cdom (fun x => f (toList n x)) s i v x := by
    intro x
    unfold BelowCut
    refine exists_congr fun m => and_congr_right fun _ => and_congr_right fun _ => and_congr_right fun _ =>
      forall_congr' fun j => forall_congr' fun hj => ?_
    rw [show (fun j => (toList n x).getD j 0) j = x j from getD_toList x hj]
  rw [hu', probability_tuples hn hd] at e1
  simp only [same] at e1
  exact e1

end Teddy
