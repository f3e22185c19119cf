import Verif.Proofs.Experiments
import Verif.Properties.Managers

/-!
# The experiment with derivatives

`experiments/dplds.cpp` compares the time to make derivatives from cofactors with the time that `dpld` takes.  That the two
ways make the same diagram is what the comparison rests on; the program does not check it.
-/

namespace Teddy
namespace Properties

open SM Spec Tsl Experiments

section
variable {P : Setup} {w : World} {σ : SState}

/-! ### C79 the two ways of making derivatives -/

theorem both_ways (hP : P.OK) (h : Reachable P w σ) (hauto : σ.auto = false) (hcache : σ.cacheOK = true)
    (hcanon : σ.canon = true) (h1 : TermOK P.c 1) (type3 : Bool) {d i : Nat} {f : Asg → Int} (hd : Denotes P w d f)
    (hi : 2 ≤ P.c.dom i) (hn : NaiveOK P type3 f) :
    ∃ j w1 k w2, naive type3 P.c d i w = .ok (j, w1) ∧ direct type3 P.c d i w1 = .ok (k, w2) ∧
      exec P.c (.equals j k) w2 = .ok (.bool true, w2) ∧
      Denotes P w2 j (derivative type3 f i) ∧ Denotes P w2 k (derivative type3 f i) ∧
      (∀ a g, Denotes P w a g → Denotes P w2 a g) ∧ ∀ a g, Denotes P w2 a g → a = j ∨ a = k ∨ Denotes P w a g := by
  have R := reachable_rel hP h
  obtain ⟨f', hf, s⟩ := R.of_denotes hd
  have hR : Ready P σ := ⟨hauto, hcache, h1⟩
  have hn' : NaiveOK P type3 f' := by
    unfold NaiveOK at *
    split
    · rename_i e; rw [if_pos e] at hn; exact hn
    · rename_i e
      rw [if_neg e] at hn
      exact ⟨hn.1, fun x hx => by rw [s x hx]; exact hn.2 x hx⟩
  have same : SameOn P.c.n P.c.dom (derivative type3 f' i) (derivative type3 f i) := by
    intro x hx
    have e0 := s _ (upd_dom (i := i) (v := 0) hx (fun _ => by omega))
    have e1 := s _ (upd_dom (i := i) (v := 1) hx (fun _ => by omega))
    simp only [derivative, e0, e1]
  obtain ⟨j, w1, e1, T, g, r1, hj, keep1, -, hg, only⟩ := naive_ok hP h hR type3 hf (fun _ => hi) hn'
  obtain ⟨k, w2, e2, rfl, g', hg', r2⟩ := direct_ok hP r1 (hR.slots T) type3 (keep1 _ _ hf) (fun _ => hi)
  have R2 := reachable_rel hP r2
  have hj2 := Tests.has_some g' hj
  have hk2 := Tests.has_new (withSlots σ T) g'
  obtain ⟨o, e3, r, rfl, -, hr⟩ := asks (k := .equals j (withSlots σ T).slots.length) hP r2 ⟨⟨g, hj2⟩, g', hk2⟩ rfl
  have hr : r = true := hr hcanon (by rw [hj2.fn, hk2.fn]; exact fun x hx => (hg x hx).trans (hg' x).symm)
  subst hr
  refine ⟨j, w1, _, w2, e1, e2, e3, (R2.denotes hj2).congr fun x hx => (hg x hx).trans (same x hx),
    (R2.denotes hk2).congr fun x hx => (hg' x).trans (same x hx), fun a u ha => ?_, fun a u ha => ?_⟩
  rotate_left
  · obtain ⟨u', hu, su⟩ := R2.of_denotes ha
    by_cases hk : a = (withSlots σ T).slots.length
    · exact .inr (.inl hk)
    · have hl := hu.lt
      simp only [withSlots, List.length_append, List.length_cons, List.length_nil] at hl hk
      have ha : a < T.length := by omega
      have hu : (withSlots σ T).Has a u' := (List.getElem?_append_left ha).symm.trans hu
      rcases only a u' hu with rfl | hu
      · exact .inl rfl
      · exact .inr (.inr ((R.denotes hu).congr su))
  obtain ⟨u', hu, su⟩ := R.of_denotes ha
  exact (R2.denotes (Tests.has_some g' (keep1 _ _ hu))).congr su

/-- `dpld_type3_naive` and `dpld` with `type_3_increase(1)` return equal diagrams: 1 where the function rises from 0 when
variable `i` changes from 0 to 1, and 0 elsewhere.  All other diagrams are left alone, and
no other handle remains. -/
theorem C79_type3 (hP : P.OK) (h : Reachable P w σ) (hauto : σ.auto = false) (hcache : σ.cacheOK = true)
    (hcanon : σ.canon = true) (h1 : TermOK P.c 1) (hΓ : P.Γ Op.AND.id = Op.AND) {d i : Nat} {f : Asg → Int}
    (hd : Denotes P w d f) (hi : 2 ≤ P.c.dom i) :
    ∃ j w1 k w2, naive3 P.c d i w = .ok (j, w1) ∧
      newSlot P.c (.dpld ⟨i, 0, 1⟩ (Dpld.type3Increase 1) d) w1 = .ok (k, w2) ∧
      exec P.c (.equals j k) w2 = .ok (.bool true, w2) ∧
      Denotes P w2 j (fun x => if f (upd x i 0) < 1 ∧ 1 ≤ f (upd x i 1) then 1 else 0) ∧
      (∀ a g, Denotes P w a g → Denotes P w2 a g) ∧ ∀ a g, Denotes P w2 a g → a = j ∨ a = k ∨ Denotes P w a g := by
  obtain ⟨j, w1, k, w2, e1, e2, e3, dj, -, hk⟩ := both_ways hP h hauto hcache hcanon h1 true hd hi hΓ
  exact ⟨j, w1, k, w2, e1, e2, e3, dj, hk⟩

/-- `dpld_type2_naive` and `dpld` with `type_2_increase()` return equal diagrams: 1 where the function rises when variable `i`
changes from 0 to 1, and 0 elsewhere.  The values of the function must not be special. -/
theorem C79_type2 (hP : P.OK) (h : Reachable P w σ) (hauto : σ.auto = false) (hcache : σ.cacheOK = true)
    (hcanon : σ.canon = true) (h1 : TermOK P.c 1) (hΓ : P.Γ Op.LESS.id = Op.LESS) {d i : Nat} {f : Asg → Int}
    (hd : Denotes P w d f) (hi : 2 ≤ P.c.dom i)
    (hv : ∀ x, InDomain P.c.n P.c.dom x → TermOK P.c (f x) ∧ f x < Nondetermined) :
    ∃ j w1 k w2, naive2 P.c d i w = .ok (j, w1) ∧
      newSlot P.c (.dpld ⟨i, 0, 1⟩ Dpld.type2Increase d) w1 = .ok (k, w2) ∧
      exec P.c (.equals j k) w2 = .ok (.bool true, w2) ∧
      Denotes P w2 j (fun x => if f (upd x i 0) < f (upd x i 1) then 1 else 0) ∧
      (∀ a g, Denotes P w a g → Denotes P w2 a g) ∧ ∀ a g, Denotes P w2 a g → a = j ∨ a = k ∨ Denotes P w a g := by
  obtain ⟨j, w1, k, w2, e1, e2, e3, dj, -, hk⟩ := both_ways hP h hauto hcache hcanon h1 false hd hi ⟨hΓ, hv⟩
  exact ⟨j, w1, k, w2, e1, e2, e3, dj, hk⟩

/-- The derivative of x0 ∧ x1 by x0, on both ways. -/
example : ∃ w σ, Reachable bdd3 w σ ∧ ∃ j w1 k w2, naive3 bdd3.c 2 0 w = .ok (j, w1) ∧
    newSlot bdd3.c (.dpld ⟨0, 0, 1⟩ (Dpld.type3Increase 1) 2) w1 = .ok (k, w2) ∧
    exec bdd3.c (.equals j k) w2 = .ok (.bool true, w2) := by
  obtain ⟨w, h⟩ := bdd3_world
  obtain ⟨j, w1, k, w2, e1, e2, e3, -⟩ := C79_type3 (i := 0) bdd3_ok h rfl rfl rfl term1_bdd3 rfl
    ((reachable_rel bdd3_ok h).denotes (a := 2) rfl) (by decide)
  exact ⟨w, _, h, j, w1, k, w2, e1, e2, e3⟩

end

/-- The experiment runs without undefined behaviour and without failed assertions, whatever the random numbers, the hash
functions and the addresses, and prints for each of its diagrams the size of the reduced diagram of the expression. -/
theorem C79_experiment (env : Surroundings) {k : Constants} (hs : 2 ≤ k.stateCount) (hs' : (k.stateCount : Int) ≤ Nondetermined)
    (hv : 2 ≤ k.varCount) (ht : 0 < k.termCount) (hz : 0 < k.termSize) {indices : List Nat}
    (hi : k.derivativeCount ≤ indices.length) {draw : Nat → Nat → Nat} (hd : ∀ id m, draw id m < k.varCount) :
    ∃ counts, dplds env k indices draw = .ok counts ∧ counts.length = k.diagramCount ∧
      ∀ id (h : id < counts.length), ∃ terms,
        makeMinMax env.asserts (draw id) k.varCount k.termCount k.termSize = .ok terms ∧
        CountFuns k.varCount (fun _ => k.stateCount)
          (Subfunction k.varCount (fun _ => k.stateCount) (List.range k.varCount) (minMaxVal terms)) counts[id] := by
  have one : ∀ id, ∃ terms n, makeMinMax env.asserts (draw id) k.varCount k.termCount k.termSize = .ok terms ∧
      Experiments.round env k indices (draw id) = .ok n ∧
      CountFuns k.varCount (fun _ => k.stateCount)
        (Subfunction k.varCount (fun _ => k.stateCount) (List.range k.varCount) (minMaxVal terms)) n := by
    intro id
    obtain ⟨terms, e0, ht⟩ : ∃ terms, makeMinMax env.asserts (draw id) k.varCount k.termCount k.termSize = .ok terms ∧
        Tests.ExprOK k.varCount terms := by
      refine ⟨_, if_neg (by omega), ?_, fun t hm => ?_⟩
      · intro e
        have := congrArg List.length e
        simp at this
        omega
      · obtain ⟨a, -, rfl⟩ := List.mem_map.1 hm
        refine ⟨fun e => ?_, fun i hi => ?_⟩
        · have := congrArg List.length e
          simp at this
          omega
        · obtain ⟨b, -, rfl⟩ := List.mem_map.1 hi
          exact hd _ _
    obtain ⟨hP, m, e1, -, h⟩ := C43_mdd_partial env (shipped k.stateCount) (M := k.stateCount) (n := k.varCount)
      (pool := 1000000) (overflow := none) (order := []) (by omega) hv ⟨by decide, nofun⟩ (.inl rfl)
    have hR : Ready ⟨fixedCfg env k.stateCount k.varCount (1000000 / 2), 1000000, List.range k.varCount, shipped k.stateCount⟩
        (SState.init ⟨fixedCfg env k.stateCount k.varCount (1000000 / 2), 1000000, List.range k.varCount, shipped k.stateCount⟩) :=
      ⟨rfl, rfl, by decide, fun _ m e => by cases e; show (1 : Int) < k.stateCount; omega⟩
    obtain ⟨n, w, e2, hn⟩ := measure_ok hP (fun _ _ => hs') h hR rfl rfl rfl rfl rfl rfl k.type3 ht (indices := indices)
      (count := k.derivativeCount) hi (fun _ _ _ => hs) k.replCount
    refine ⟨terms, n, e0, ?_, hn⟩
    unfold Experiments.round
    rw [e0, e1]
    show (do let (nodeCount, _) ← measure _ _ _ _ _ _ _; Except.ok nodeCount : Except Err Nat) = _
    rw [e2]
    rfl
  choose terms n h1 h2 h3 using one
  have key : ∀ l : List Nat, l.mapM (fun id => Experiments.round env k indices (draw id)) = .ok (l.map n) := by
    intro l
    induction l with
    | nil => rfl
    | cons a l ih => rw [List.mapM_cons, h2, ih]; rfl
  refine ⟨(List.range k.diagramCount).map n, key _, by simp, fun id h => ⟨terms id, h1 id, ?_⟩⟩
  simp only [List.getElem_map, List.getElem_range]
  exact h3 id

/-- The constants of the program, with a generator that repeats the numbers 0 to 19. -/
example : ∃ counts, dplds (someEnv true) shippedConstants ((List.range 20).reverse) (fun id m => (id + 3 * m) % 20) = .ok counts ∧
    counts.length = 10 := by
  obtain ⟨counts, e, hl, -⟩ := C79_experiment (someEnv true) (k := shippedConstants) (indices := (List.range 20).reverse)
    (draw := fun id m => (id + 3 * m) % 20) (by decide) (by decide) (by decide) (by decide) (by decide) (by decide)
    (fun id m => Nat.mod_lt _ (by decide))
  exact ⟨counts, e, hl⟩

end Properties
end Teddy
