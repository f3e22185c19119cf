import Verif.Properties.Violations
import Verif.Properties.Reliability
import Verif.Proofs.Unmarked
import Verif.Properties.Agreement
import Verif.Proofs.TableImportance
import Verif.Proofs.MnfBounds

/-!
# Fussell-Vesely importance and minimal cut vectors
-/

namespace Teddy
namespace Properties

open SM Spec

variable {P : Setup} {w : World} {σ : SState}

/-! ### C78 Fussell-Vesely importance of a system

With u = P(f < s), the call `fussell_vesely_importance(pr, dpld({i, v, v - 1}, type_3_decrease(s), f), u, v, i)` ought to be the
probability of lying below a minimal cut vector for state s in which component i is just below v, divided by u. -/

/-- … and is so if the system is coherent and the derivative is layered with respect to the current order.  Marks left behind
by other calls do not matter.

Missing for the full property: the derivative of a coherent system need not be layered (`C78_violated`); the diagrams must be
canonical and automatic reordering disabled. -/
theorem C78_coherent_partial (hP : P.OK) (h : Reachable P w σ) (hauto : σ.auto = false) (hcanon : σ.canon = true) {a : Nat}
    {f : Asg → Int} (ha : Denotes P w a f) (hf : Monotone P.c.n P.c.dom f) (h1 : TermOK P.c 1) {s : Int} {i v : Nat}
    (hi : i < P.c.n) (hv : v + 1 < P.c.dom i)
    (hl : Layered P.c.n P.c.dom σ.order fun x => if s ≤ f (upd x i (v + 1)) ∧ f (upd x i v) < s then 1 else 0)
    {pr : Nat → Nat → Rat} (hpr : SumsToOne P.c.n P.c.dom pr)
    (_ : probability P.c.n P.c.dom pr (fun x => decide (f x < s)) ≠ 0) :
    ∃ w', exec P.c (.dpld ⟨i, v + 1, v⟩ (Dpld.type3Decrease s) a) w = .ok (.slot w.slots.length, w') ∧
      Answers P w' (.fussellVesely pr (probability P.c.n P.c.dom pr fun x => decide (f x < s)) (v + 1) i w.slots.length)
        (.rat (fussellVeselyImportance P.c.n P.c.dom pr f s i (v + 1))) := by
  have R := reachable_rel hP h
  obtain ⟨f', hf', e1⟩ := R.of_denotes ha
  obtain ⟨o, w', e, rfl, R', -, hu⟩ := dpld_unmarked R hauto (vc := ⟨i, v + 1, v⟩) (ch := Dpld.type3Decrease s) hf' h1
    (fun _ => ⟨hv, by show v < P.c.dom i; omega⟩)
  have hs : SameOn P.c.n P.c.dom
      (fun x => b2i (Dpld.type3Decrease s (f' (upd x i (v + 1))) (f' (upd x i v)))) (drop3 f s i (v + 1) v) := by
    intro x hx
    show b2i (decide (s ≤ _) && decide (_ < s)) = _
    rw [e1 _ (inDomain_upd hx hv), e1 _ (inDomain_upd hx (by omega : v < P.c.dom i)), ← Bool.decide_and]
    unfold drop3
    by_cases hc : s ≤ f (upd x i (v + 1)) ∧ f (upd x i v) < s
    · rw [if_pos hc, decide_eq_true hc]; rfl
    · rw [if_neg hc, decide_eq_false hc]; rfl
  rw [R.len]
  refine ⟨w', e, ?_⟩
  have hh : SState.Has { σ with slots := σ.slots ++
      [some fun x => b2i (Dpld.type3Decrease s (f' (upd x i (v + 1))) (f' (upd x i v)))] } σ.slots.length
      fun x => b2i (Dpld.type3Decrease s (f' (upd x i (v + 1))) (f' (upd x i v))) := by
    show (σ.slots ++ [_])[σ.slots.length]? = _
    simp
  obtain ⟨_, w2, e2, rfl, R2, -⟩ := fussellVesely_unmarked R' hauto hcanon hh hu
    (fun x hx => by
      have e := hs x hx
      dsimp only at e
      rw [e, drop3]
      split
      · exact .inr rfl
      · exact .inl rfl)
    (layered_congr hs hl) hpr (probability P.c.n P.c.dom pr fun x => decide (f x < s)) (v + 1) i
  simp only [covered_congr hs] at e2
  rw [fussellVesely_eq hf hpr hi hv] at e2
  refine ⟨w2, e2, fun j g hj => ?_⟩
  obtain ⟨g', hg, hsg⟩ := R'.of_denotes hj
  exact (R2.denotes hg).congr hsg

/-- Two out of three components work. -/
def twoOfThree : Asg → Int := fun x => max (max (min (x 0) (x 1)) (min (x 0) (x 2))) (min (x 1) (x 2))

/-- Two out of three is not a series-parallel system, but its derivatives are layered.  The order is 2, 0, 1.  Component 0 is
below the minimal cut vectors 0 0 1 and 0 1 0 with probability 1/2 · (1 - 1/3 · 1/4) = 11/24, and the system does not work with
probability 17/24. -/
example : ∃ w σ w', Reachable bdd3 w σ ∧
    exec bdd3.c (.dpld ⟨0, 1, 0⟩ (Dpld.type3Decrease 1) 0) w = .ok (.slot w.slots.length, w') ∧
    Answers bdd3 w' (.fussellVesely demoPr (17 / 24) 1 0 w.slots.length) (.rat (11 / 17)) := by
  obtain ⟨w, h⟩ := Reachable.build (σ' := { SState.init bdd3 with slots := [some twoOfThree], clean := false })
    bdd3_ok (Reachable.start bdd3_ok) (.fromExpr (.op max (.op max (.op min (.var 0) (.var 1)) (.op min (.var 0) (.var 2)))
      (.op min (.var 1) (.var 2)))) (by
      have small : ∀ v : Int, 0 ≤ v → v < 2 → TermOK bdd3.c v ∧ v ≠ Nondetermined := fun v h0 h2 =>
        ⟨⟨h0, fun _ m hm => by cases hm; exact h2⟩, by rw [nd_val]; omega⟩
      have var : ∀ i < 3, Expr.OK bdd3.c (.var i) := fun i hi => ⟨hi, by show (2 : Int) ≤ 2147483646; decide⟩
      refine ⟨⟨⟨var 0 (by decide), var 1 (by decide), fun x y hx hy => small _ ?_ ?_⟩,
        ⟨var 0 (by decide), var 2 (by decide), fun x y hx hy => small _ ?_ ?_⟩, fun x y hx hy => small _ ?_ ?_⟩,
        ⟨var 1 (by decide), var 2 (by decide), fun x y hx hy => small _ ?_ ?_⟩, fun x y hx hy => small _ ?_ ?_⟩
      all_goals
        have x0 : x 0 < 2 := hx 0 (by decide)
        have x1 : x 1 < 2 := hx 1 (by decide)
        have x2 : x 2 < 2 := hx 2 (by decide)
        have y0 : y 0 < 2 := hy 0 (by decide)
        have y1 : y 1 < 2 := hy 1 (by decide)
        have y2 : y 2 < 2 := hy 2 (by decide)
        simp only [Expr.val]
        omega) (fun _ => rfl)
  have hval : ∀ z : Asg, InDomain bdd3.c.n bdd3.c.dom z →
      ((if 1 ≤ twoOfThree (upd z 0 (0 + 1)) ∧ twoOfThree (upd z 0 0) < 1 then (1 : Int) else 0) = 1 ↔ z 1 ≠ z 2) := by
    intro z hz
    have h1 : z 1 < 2 := hz 1 (by decide)
    have h2 : z 2 < 2 := hz 2 (by decide)
    simp only [twoOfThree, upd_apply]
    interval_cases z 1 <;> interval_cases z 2 <;> simp
  obtain ⟨w', e1, e2⟩ := C78_coherent_partial (a := 0) (f := twoOfThree) (s := 1) (i := 0) (v := 0) (pr := demoPr)
    bdd3_ok h rfl rfl ((reachable_rel bdd3_ok h).denotes rfl) (by
      intro x y _ _ hle
      have h0 := hle 0 (by decide)
      have h1 := hle 1 (by decide)
      have h2 := hle 2 (by decide)
      simp only [twoOfThree]
      omega) term1_bdd3 (by decide) (by decide) (by
      intro l i y a b ho hy hab hb
      have hb' : b < 2 := hb
      obtain rfl : a = 0 := by omega
      obtain rfl : b = 1 := by omega
      have fixed : ∀ z k, InDomain bdd3.c.n bdd3.c.dom z → k < 2 →
          InDomain bdd3.c.n bdd3.c.dom (fixFirst [2, 0, 1] l y (upd z i k)) := by
        intro z k hz hk j hj
        simp only [fixFirst, upd_apply]
        split
        · exact hy j hj
        · split
          · exact hk
          · exact hz j hj
      have y2 : y 2 < 2 := hy 2 (by decide)
      match l, ho with
      | 0, ho =>
          cases ho
          refine .inr fun z hz _ => ⟨fun _ => 1, fun _ _ => Nat.one_lt_two, fun j hj => Nat.lt_succ_iff.1 (hz j hj), ?_⟩
          refine (hval _ (fixed _ _ (fun _ _ => Nat.one_lt_two) (by decide))).2 ?_
          show (1 : Nat) ≠ 0
          decide
      | 1, ho =>
          cases ho
          refine .inr fun z hz e => ⟨z, hz, fun _ _ => Nat.le_refl _, ?_⟩
          exact (hval _ (fixed _ _ hz (by decide))).2 ((hval _ (fixed _ _ hz (by decide))).1 e)
      | 2, ho =>
          cases ho
          by_cases e : y 2 = 0
          · refine .inl fun z hz he => (hval _ (fixed _ _ hz (by decide))).1 he ?_
            show (0 : Nat) = y 2
            omega
          · refine .inr fun z hz he => absurd ?_ ((hval _ (fixed _ _ hz (by decide))).1 he)
            show (1 : Nat) = y 2
            omega
      | l + 3, ho => cases ho) demoPr_sums (by decide +kernel)
  rw [show probability bdd3.c.n bdd3.c.dom demoPr (fun x => decide (twoOfThree x < 1)) = 17 / 24 from by decide +kernel,
    show fussellVeselyImportance bdd3.c.n bdd3.c.dom demoPr twoOfThree 1 0 (0 + 1) = 11 / 17 from by decide +kernel] at e2
  exact ⟨w, _, w', h, e1, e2⟩

/-- … so for every series-parallel system in which no component occurs twice, for every order of the variables.

Missing for the full property: the diagrams must be canonical and automatic reordering disabled. -/
theorem C78_series_parallel_partial (hP : P.OK) (h : Reachable P w σ) (hauto : σ.auto = false) (hcanon : σ.canon = true)
    {e : Structure} (honce : e.components.Nodup) (hcomp : ∀ i ∈ e.components, i < P.c.n) {a : Nat}
    (ha : Denotes P w a fun x => e.value x) (h1 : TermOK P.c 1) {s : Int} {i v : Nat} (hi : i < P.c.n)
    (hv : v + 1 < P.c.dom i) {pr : Nat → Nat → Rat} (hpr : SumsToOne P.c.n P.c.dom pr)
    (hu : probability P.c.n P.c.dom pr (fun x => decide (e.value x < s)) ≠ 0) :
    ∃ w', exec P.c (.dpld ⟨i, v + 1, v⟩ (Dpld.type3Decrease s) a) w = .ok (.slot w.slots.length, w') ∧
      Answers P w' (.fussellVesely pr (probability P.c.n P.c.dom pr fun x => decide (e.value x < s)) (v + 1) i
          w.slots.length)
        (.rat (fussellVeselyImportance P.c.n P.c.dom pr (fun x => e.value x) s i (v + 1))) :=
  C78_coherent_partial hP h hauto hcanon ha
    (fun _ _ _ _ hle => Structure.value_mono fun j hj => hle j (hcomp j hj)) h1 hi hv
    (Structure.layered honce s i (v + 1) v σ.order) hpr hu

/-- The system x1 x2 ∨ x3 x1 ∨ x3 x0. -/
def bridge4 : Asg → Int := fun x =>
  if (x 1 = 1 ∧ x 2 = 1) ∨ (x 3 = 1 ∧ x 1 = 1) ∨ (x 3 = 1 ∧ x 0 = 1) then 1 else 0

theorem bridge4_mono : Monotone 4 (fun _ => 2) bridge4 := by
  intro x y hx hy hle
  have h0 := hle 0 (by decide)
  have h1 := hle 1 (by decide)
  have h2 := hle 2 (by decide)
  have h3 := hle 3 (by decide)
  have y0 : y 0 < 2 := hy 0 (by decide)
  have y1 : y 1 < 2 := hy 1 (by decide)
  have y2 : y 2 < 2 := hy 2 (by decide)
  have y3 : y 3 < 2 := hy 3 (by decide)
  unfold bridge4
  split
  · rw [if_pos]
    omega
  · split <;> decide

/-- **C78.** `bridge4` is coherent.  The importance of component 3 ought to be 3/4; it is 5/8. -/
theorem C78_violated :
    Monotone 4 (fun _ => 2) bridge4 ∧
    run (bddN 4 200 100) [.fromVector (truthVector (fun _ => 2) [0, 1, 2, 3] bridge4),
        .dpld ⟨3, 1, 0⟩ (Dpld.type3Decrease 1) 0,
        .fussellVesely half (probability 4 (fun _ => 2) half fun x => decide (bridge4 x < 1)) 1 3 1] =
      .ok [.slot 0, .slot 1, .rat (5 / 8)] ∧
    fussellVeselyImportance 4 (fun _ => 2) half bridge4 1 3 1 = 3 / 4 := by
  exact ⟨bridge4_mono, by decide +kernel, by decide +kernel⟩

/-- For every coherent system and every order of the variables the calls succeed, and the answer is never more than the
importance.  It is never less than the probability that component i is below v + 1 and critical (the system is at s or above with
the component at v + 1 and below s with it at v), divided by the probability that the system is below s.

Missing for the full property: the answer need not be the importance (`C78_violated`); the diagrams must be canonical and
automatic reordering disabled. -/
theorem C78_bounds_partial (hP : P.OK) (h : Reachable P w σ) (hauto : σ.auto = false) (hcanon : σ.canon = true) {a : Nat}
    {f : Asg → Int} (ha : Denotes P w a f) (hf : Monotone P.c.n P.c.dom f) (h1 : TermOK P.c 1) {s : Int} {i v : Nat}
    (hi : i < P.c.n) (hv : v + 1 < P.c.dom i) {pr : Nat → Nat → Rat}
    (hpos : ∀ i, i < P.c.n → ∀ k, k < P.c.dom i → 0 ≤ pr i k) (hpr : SumsToOne P.c.n P.c.dom pr)
    (hu : 0 < probability P.c.n P.c.dom pr fun x => decide (f x < s)) :
    ∃ w' q, exec P.c (.dpld ⟨i, v + 1, v⟩ (Dpld.type3Decrease s) a) w = .ok (.slot w.slots.length, w') ∧
      Answers P w' (.fussellVesely pr (probability P.c.n P.c.dom pr fun x => decide (f x < s)) (v + 1) i w.slots.length)
        (.rat q) ∧
      q ≤ fussellVeselyImportance P.c.n P.c.dom pr f s i (v + 1) ∧
      probability P.c.n P.c.dom pr (fun x => decide (x i < v + 1 ∧ s ≤ f (upd x i (v + 1)) ∧ f (upd x i v) < s)) /
        probability P.c.n P.c.dom pr (fun x => decide (f x < s)) ≤ q := by
  have R := reachable_rel hP h
  obtain ⟨f', hf', e1⟩ := R.of_denotes ha
  obtain ⟨o, w', e, rfl, R', -, hm⟩ := dpld_unmarked R hauto (vc := ⟨i, v + 1, v⟩) (ch := Dpld.type3Decrease s) hf' h1
    (fun _ => ⟨hv, by show v < P.c.dom i; omega⟩)
  have hs : SameOn P.c.n P.c.dom
      (fun x => b2i (Dpld.type3Decrease s (f' (upd x i (v + 1))) (f' (upd x i v)))) (drop3 f s i (v + 1) v) := by
    intro x hx
    show b2i (decide (s ≤ _) && decide (_ < s)) = _
    rw [e1 _ (inDomain_upd hx hv), e1 _ (inDomain_upd hx (by omega : v < P.c.dom i)), ← Bool.decide_and]
    unfold drop3
    by_cases hc : s ≤ f (upd x i (v + 1)) ∧ f (upd x i v) < s
    · rw [if_pos hc, decide_eq_true hc]; rfl
    · rw [if_neg hc, decide_eq_false hc]; rfl
  rw [R.len]
  have hh : SState.Has { σ with slots := σ.slots ++
      [some fun x => b2i (Dpld.type3Decrease s (f' (upd x i (v + 1))) (f' (upd x i v)))] } σ.slots.length
      fun x => b2i (Dpld.type3Decrease s (f' (upd x i (v + 1))) (f' (upd x i v))) := by
    show (σ.slots ++ [_])[σ.slots.length]? = _
    simp
  obtain ⟨_, w2, e2, ⟨g, hg, rfl⟩, R2, -⟩ := fussellVesely_between R' hauto hcanon hh hm
    (fun x hx => by
      have e := hs x hx
      dsimp only at e
      rw [e, drop3]
      split
      · exact .inr rfl
      · exact .inl rfl)
    (topped_congr hs (topped_drop3 hf hv σ.order)) hpr (probability P.c.n P.c.dom pr fun x => decide (f x < s)) (v + 1) i
  have hS : 0 ≤ ((List.range (v + 1)).map (pr i)).sum := List.sum_nonneg fun q hq => by
    obtain ⟨k, hk, rfl⟩ := List.mem_map.1 hq
    have := List.mem_range.1 hk
    exact hpos i hi k (by omega)
  refine ⟨w', _, e, ⟨w2, e2, fun j g hj => ?_⟩, ?_, ?_⟩
  · obtain ⟨g', hg, hsg⟩ := R'.of_denotes hj
    exact (R2.denotes hg).congr hsg
  · unfold fussellVeselyImportance
    rw [← fussellVesely_eq hf hpr hi hv]
    refine div_le_div_of_nonneg_right (mul_le_mul_of_nonneg_left (probability_mono hpos fun x hx hgx => ?_) hS) hu.le
    rcases hg x hx with ⟨_, h2⟩ | ⟨h2, _⟩
    · rw [covered_congr hs] at h2
      exact decide_eq_true h2
    · rw [h2] at hgx
      cases hgx
  · have e3 := probability_below hpr hi (by omega : v + 1 ≤ P.c.dom i)
      (C := fun x => decide (s ≤ f (upd x i (v + 1)) ∧ f (upd x i v) < s))
      (fun x k _ _ => by simp only [upd_upd])
    simp only [← Bool.decide_and] at e3
    rw [e3]
    refine div_le_div_of_nonneg_right (mul_le_mul_of_nonneg_left (probability_mono hpos fun x hx hc => ?_) hS) hu.le
    rcases hg x hx with ⟨h2, _⟩ | ⟨_, h2⟩
    · exact decide_eq_true h2
    · exact absurd ((hs x hx).trans (drop3_one.2 (of_decide_eq_true hc))) h2

/-- Component 3 of `bridge4`: the importance is 3/4, the lower bound 1/2. -/
example : ∃ w σ w' q, Reachable (bddN 4 200 100) w σ ∧ Denotes (bddN 4 200 100) w 0 bridge4 ∧
    exec (bddN 4 200 100).c (.dpld ⟨3, 1, 0⟩ (Dpld.type3Decrease 1) 0) w = .ok (.slot w.slots.length, w') ∧
    Answers (bddN 4 200 100) w' (.fussellVesely half (1 / 2) 1 3 w.slots.length) (.rat q) ∧ q ≤ 3 / 4 ∧ 1 / 2 ≤ q := by
  have ok : (bddN 4 200 100).OK := ⟨⟨fun _ _ => Nat.two_pos, fun m h i _ => by cases h; rfl⟩, by decide, by decide, by decide,
    by decide⟩
  obtain ⟨w, h⟩ := Reachable.build (σ' := { SState.init (bddN 4 200 100) with slots := [some fun x =>
      (truthVector (fun _ => 2) [0, 1, 2, 3] bridge4).getD (position (fun _ => 2) [0, 1, 2, 3] x) 0] })
    ok (Reachable.start ok) (.fromVector (truthVector (fun _ => 2) [0, 1, 2, 3] bridge4)) (by
      refine ⟨?_, by decide +kernel, fun v hv => ?_⟩
      · show ProdFits (some 2) [2, 2, 2, 2]
        show (4 : Nat) < 63
        decide
      · have := (show ∀ v ∈ truthVector (fun _ => 2) [0, 1, 2, 3] bridge4, 0 ≤ v ∧ v < 2 by decide +kernel) v hv
        exact ⟨this.1, fun _ m hm => by cases hm; exact this.2⟩) (fun _ => rfl)
  have hd : Denotes (bddN 4 200 100) w 0 bridge4 := ((reachable_rel ok h).denotes (a := 0) (f := fun x =>
      (truthVector (fun _ => 2) [0, 1, 2, 3] bridge4).getD (position (fun _ => 2) [0, 1, 2, 3] x) 0) rfl).congr (by
    intro x hx
    have x0 : x 0 < 2 := hx 0 (by decide)
    have x1 : x 1 < 2 := hx 1 (by decide)
    have x2 : x 2 < 2 := hx 2 (by decide)
    have x3 : x 3 < 2 := hx 3 (by decide)
    show (truthVector (fun _ => 2) [0, 1, 2, 3] bridge4).getD (x 0 * 8 + (x 1 * 4 + (x 2 * 2 + (x 3 * 1 + 0)))) 0 = _
    unfold bridge4
    generalize x 0 = a at x0 ⊢
    generalize x 1 = b at x1 ⊢
    generalize x 2 = c at x2 ⊢
    generalize x 3 = d at x3 ⊢
    interval_cases a <;> interval_cases b <;> interval_cases c <;> interval_cases d <;> decide +kernel)
  obtain ⟨w', q, e1, e2, e3, e4⟩ := C78_bounds_partial (s := 1) (i := 3) (v := 0) (pr := half) ok h rfl rfl hd bridge4_mono
    ⟨by decide, fun _ m hm => by cases hm; decide⟩ (by decide) (by decide) (fun _ _ _ _ => by unfold half; norm_num)
    (by unfold SumsToOne; decide +kernel) (by decide +kernel)
  refine ⟨w, _, w', q, h, hd, e1, ?_, ?_, ?_⟩
  · rw [show probability (bddN 4 200 100).c.n (bddN 4 200 100).c.dom half (fun x => decide (bridge4 x < 1)) = 1 / 2
      from by decide +kernel] at e2
    exact e2
  · exact e3.trans (by decide +kernel)
  · exact le_trans (by decide +kernel) e4

/-- Components 0 (two states) and 1 (three states) in parallel, in series with component 2 (two states). -/
def sys3 : Structure := .series (.parallel (.component 0) (.component 1)) (.component 2)

/-- All states of a component are equally likely. -/
def uniform3 : Nat → Nat → Rat := fun i _ => 1 / (mdd3.c.dom i : Rat)

/-- The diagram is made by `from_expression_tree`, which leaves marks behind.  Components 0 and
1 are in state 0 in 1/6 of the cases, the system is in state 0 in 7/12 of them, so the importance of state 1 of component 1 is
2/7. -/
example : ∃ w σ w', Reachable mdd3 w σ ∧ σ.clean = false ∧
    exec mdd3.c (.dpld ⟨1, 1, 0⟩ (Dpld.type3Decrease 1) 0) w = .ok (.slot w.slots.length, w') ∧
    Answers mdd3 w' (.fussellVesely uniform3 (7 / 12) 1 1 w.slots.length) (.rat (2 / 7)) := by
  obtain ⟨w, h⟩ := Reachable.build (σ' := { SState.init mdd3 with slots := [some fun x => sys3.value x], clean := false })
    mdd3_ok (Reachable.start mdd3_ok) (.fromExpr (.op min (.op max (.var 0) (.var 1)) (.var 2))) (by
      have small : ∀ v : Int, 0 ≤ v → v < 3 → TermOK mdd3.c v ∧ v ≠ Nondetermined := fun v h0 h3 =>
        ⟨⟨h0, fun h => by cases h⟩, by rw [nd_val]; omega⟩
      refine ⟨⟨⟨by decide, by decide⟩, ⟨by decide, by decide⟩, fun x y hx hy => small _ ?_ ?_⟩, ⟨by decide, by decide⟩,
        fun x y hx hy => small _ ?_ ?_⟩
      all_goals
        have x0 : x 0 < 2 := hx 0 (by decide)
        have x1 : x 1 < 3 := hx 1 (by decide)
        have y1 : y 1 < 3 := hy 1 (by decide)
        have y2 : y 2 < 2 := hy 2 (by decide)
        simp only [Expr.val]
        omega) (fun _ => rfl)
  obtain ⟨w', e1, e2⟩ := C78_series_parallel_partial (e := sys3) (a := 0) (s := 1) (i := 1) (v := 0) (pr := uniform3)
    mdd3_ok h rfl rfl (by decide) (by decide) ((reachable_rel mdd3_ok h).denotes rfl) ⟨by decide, fun h => by cases h⟩
    (by decide) (by decide) (by unfold SumsToOne; decide +kernel) (by decide +kernel)
  rw [show probability mdd3.c.n mdd3.c.dom uniform3 (fun x => decide (sys3.value x < 1)) = 7 / 12 from by decide +kernel,
    show fussellVeselyImportance mdd3.c.n mdd3.c.dom uniform3 (fun x => sys3.value x) 1 1 (0 + 1) = 2 / 7
      from by decide +kernel] at e2
  exact ⟨w, _, w', h, rfl, e1, e2⟩

/-! ### C67 Truth tables and diagrams -/

/-- If the system is coherent and its derivative is layered with respect to the current order, then the truth table and the
diagram compute the same importance.

Missing for the full property: `C67_violated_fussell_vesely`. -/
theorem C67_fussell_vesely_partial (hP : P.OK) (hr : Reachable P w σ) (hauto : σ.auto = false) (hcanon : σ.canon = true)
    {a : Nat} {asserts : Bool} {t : TT.Table} {dom : List Nat} {f : List Nat → Int} (h : SameFunction P w a asserts t dom f)
    (hf : Monotone P.c.n P.c.dom fun x => f (toList P.c.n x)) (hpos : ∀ x, IsTuple dom x → 0 ≤ f x) (h1 : TermOK P.c 1)
    {s : Int} {i v : Nat} (hi : i < P.c.n) (hv : v + 1 < P.c.dom i)
    (hl : Layered P.c.n P.c.dom σ.order fun x =>
      if s ≤ f (toList P.c.n (upd x i (v + 1))) ∧ f (toList P.c.n (upd x i v)) < s then 1 else 0)
    {ps : List (List Rat)} (hp : HasRows dom ps) (hpr : SumsToOne P.c.n P.c.dom (entry ps))
    (hu : probability P.c.n P.c.dom (entry ps) (fun x => decide (f (toList P.c.n x) < s)) ≠ 0) :
    ∃ u q w', TT.unavailability t ps s = .ok u ∧ TT.fussellVesely asserts t ps i (v + 1) s = .ok q ∧
      exec P.c (.dpld ⟨i, v + 1, v⟩ (Dpld.type3Decrease s) a) w = .ok (.slot w.slots.length, w') ∧
      Answers P w' (.fussellVesely (entry ps) u (v + 1) i w.slots.length) (.rat q) := by
  have e0 := TT.unavailability_ok h.size (TT.of_make h.size h.table).toVecOf (TT.probOK_of_rows hp) s
  have e1 := tableImportance (asserts := asserts) h.vars h.doms h.size (TT.of_make h.size h.table)
    ⟨i, h.vars ▸ hi, by rw [← h.doms i hi]; omega⟩ hpos hp hi (v + 1) s hu
  obtain ⟨w', e2, e3⟩ := C78_coherent_partial hP hr hauto hcanon h.diagram hf h1 hi hv hl hpr hu
  refine ⟨_, _, w', e0, e1, e2, ?_⟩
  rw [show tupleProb dom (entry ps) (fun x => decide (0 ≤ f x ∧ f x < s)) =
      probability P.c.n P.c.dom (entry ps) fun x => decide (f (toList P.c.n x) < s) from ?_]
  · exact e3
  · refine Eq.trans (TT.fsum_congr fun x hx => decide_eq_decide.2 ?_)
      (probability_tuples h.vars h.doms (entry ps) fun y => decide (f y < s))
    exact ⟨fun h => h.2, fun h => ⟨hpos x (TT.mem_tuples.1 hx), h⟩⟩

/-- max(x0, x1), that is, two components in parallel, of two and three states: state 2 of component 1 for state 2 of the system.
-/
example : ∃ w t u q w', Reachable mdd3 w mdd3State ∧ SameFunction mdd3 w 2 true t [2, 3, 2] maxFn ∧
    TT.unavailability t maxProbs 2 = .ok u ∧ TT.fussellVesely true t maxProbs 1 2 2 = .ok q ∧
    exec mdd3.c (.dpld ⟨1, 2, 1⟩ (Dpld.type3Decrease 2) 2) w = .ok (.slot w.slots.length, w') ∧
    Answers mdd3 w' (.fussellVesely (entry maxProbs) u 2 1 w.slots.length) (.rat q) := by
  obtain ⟨w, t, hr, h⟩ := maxSame
  have hval : ∀ x, maxFn (toList mdd3.c.n x) = (Structure.parallel (.component 0) (.component 1)).value x := fun x => by
    show max32 (x 0) (x 1) = max (x 0 : Int) (x 1)
    unfold max32
    split <;> omega
  have hl := Structure.layered (n := mdd3.c.n) (dom := mdd3.c.dom)
    (e := .parallel (.component 0) (.component 1)) (by decide) 2 1 2 1 mdd3State.order
  simp only [← hval] at hl
  obtain ⟨u, q, w', e0, e1, e2, e3⟩ := C67_fussell_vesely_partial mdd3_ok hr rfl rfl h (by
      intro x y _ _ hle
      simp only [hval]
      exact Structure.value_mono fun j hj => hle j ((show ∀ j ∈ [0, 1], j < 3 by decide) j hj))
    (fun x hx => (show ∀ x ∈ tuples [2, 3, 2], 0 ≤ maxFn x by decide +kernel) x (TT.mem_tuples.2 hx))
    ⟨by decide, fun h => by cases h⟩ (s := 2) (i := 1) (v := 1) (by decide) (by decide) hl maxRows.1 maxRows.2
    (by decide +kernel)
  exact ⟨w, t, u, q, w', hr, h, e0, e1, e2, e3⟩

/-- **C67.** The importance of component 3 of `bridge4` is 3/4 according to the truth table and 5/8 according to the diagram. -/
theorem C67_violated_fussell_vesely :
    (TT.make true ((tuples [2, 2, 2, 2]).map fun y => bridge4 fun i => y.getD i 0) [2, 2, 2, 2] >>= fun t =>
        TT.fussellVesely true t [[1/2, 1/2], [1/2, 1/2], [1/2, 1/2], [1/2, 1/2]] 3 1 1) = .ok (3 / 4) ∧
    run (bddN 4 200 100) [.fromVector (truthVector (fun _ => 2) [0, 1, 2, 3] bridge4),
        .dpld ⟨3, 1, 0⟩ (Dpld.type3Decrease 1) 0,
        .fussellVesely half (probability 4 (fun _ => 2) half fun x => decide (bridge4 x < 1)) 1 3 1] =
      .ok [.slot 0, .slot 1, .rat (5 / 8)] :=
  ⟨by decide +kernel, C78_violated.2.1⟩

end Properties
end Teddy
