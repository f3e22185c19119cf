import Verif.Properties.Queries
import Verif.Properties.Reliability
import Verif.Properties.TruthTables
import Verif.Proofs.Bridge

/-!
# Diagrams and truth tables agree (C67)
-/

namespace Teddy
namespace Properties

open SM Spec

/-- Diagram `a` of the manager and truth table `t` represent the same function `f` of the same variables: the
table was constructed from the values of `f`, and `evaluate` of the diagram returns them. -/
structure SameFunction (P : Setup) (w : World) (a : Nat) (asserts : Bool) (t : TT.Table) (dom : List Nat)
    (f : List Nat → Int) : Prop where
  vars : P.c.n = dom.length
  doms : ∀ i, i < P.c.n → P.c.dom i = dom.getD i 0
  size : DomOK dom
  table : TT.make asserts ((tuples dom).map f) dom = .ok t
  diagram : Denotes P w a fun x => f (toList P.c.n x)

section
variable {P : Setup} {w : World} {σ : SState} {a : Nat} {asserts : Bool} {t : TT.Table} {dom : List Nat}
  {f : List Nat → Int}

/-- The table constructed from the vector that `to_vector` returns, if the order of the variables is the order of
their indices, represents the same function as the diagram. -/
theorem C67_to_vector (hP : P.OK) (h : Reachable P w σ) (hfit : CountFits P.c) {g : Asg → Int}
    (ha : Denotes P w a g) (ho : exec P.c .getOrder w = .ok (.nats (List.range P.c.n), w))
    (hn : P.c.n = dom.length) (hd : ∀ i, i < P.c.n → P.c.dom i = dom.getD i 0) (hdom : DomOK dom)
    (hdef : ∃ x, InDomain P.c.n P.c.dom x ∧ g x ≠ Undefined) (asserts : Bool) :
    ∃ vs t, exec P.c (.toVector a) w = .ok (.ints vs, w) ∧ TT.make asserts vs dom = .ok t ∧
      ∃ f, SameFunction P w a asserts t dom f := by
  have R := reachable_rel hP h
  have e := C12_to_vector hP h hfit ha ho
  have hg : ∀ x, InDomain P.c.n P.c.dom x → g (fun i => (toList P.c.n x).getD i 0) = g x := by
    intro x hx
    exact (R.denotes_eq ha hx fun i hi => (getD_toList x hi).symm)
  have hv : (assignments P.c.dom (List.range P.c.n)).map g =
      (tuples dom).map fun y => g fun i => y.getD i 0 := by
    rw [← allAsg_toList hn hd, List.map_map]
    refine List.map_congr_left fun x hx => ?_
    refine (hg x ?_).symm
    exact fun i hi => ((mem_assignments List.nodup_range).1 hx).1 i (List.mem_range.2 hi)
  rw [hv] at e
  obtain ⟨x, hx, hx'⟩ := hdef
  obtain ⟨t, et⟩ := C49_make (f := fun y => g fun i => y.getD i 0) asserts hdom
    ⟨_, toList_isTuple hn hd hx, by rw [hg x hx]; exact hx'⟩
  exact ⟨_, t, e, et, _, hn, hd, hdom, et, fun x hx => by dsimp only; rw [hg x hx]; exact ha x hx⟩

/-- `evaluate` returns the same values. -/
theorem C67_evaluate (h : SameFunction P w a asserts t dom f) {x : Asg} (hx : InDomain P.c.n P.c.dom x) :
    ∃ v, TT.evaluate asserts t (toList P.c.n x) = .ok v ∧ exec P.c (.evaluate a x) w = .ok (.int v, w) :=
  ⟨_, C49_evaluate h.size h.table (toList_isTuple h.vars h.doms hx) asserts, h.diagram x hx⟩

/-- `satisfy_count` returns the same numbers. -/
theorem C67_satisfy_count_partial (hP : P.OK) (hr : Reachable P w σ) (hclean : σ.clean = true)
    (hfit : CountFits P.c) (h : SameFunction P w a asserts t dom f) {v : Int} (hv : ValueOK P v) :
    exec P.c (.satisfyCount v a) w = .ok (.int (TT.satisfyCount t v : Nat), w) := by
  rw [C08_satisfy_count_partial hP hr hclean hfit h.diagram hv, C49_satisfyCount h.size h.table,
    count_tuples h.vars h.doms]

/-- `satisfy_all` returns the same elements, up to the order. -/
theorem C67_satisfy_all (hP : P.OK) (hr : Reachable P w σ) (h : SameFunction P w a asserts t dom f) {v : Int}
    (hv : ValueOK P v) :
    ∃ l l', exec P.c (.satisfyAll v a) w = .ok (.asgs l, w) ∧ TT.satisfyAll t v = .ok l' ∧ l.Perm l' := by
  obtain ⟨l, e, hl, hm, _⟩ := C09_satisfy_all hP hr h.diagram hv
  refine ⟨l, _, e, C49_satisfyAll h.size h.table v, ?_⟩
  refine (List.perm_ext_iff_of_nodup hl ((C49_tuples dom).2.1.filter _)).2 fun y => ?_
  rw [hm, List.mem_filter, TT.mem_tuples, decide_eq_true_eq]
  constructor
  · rintro ⟨x, hx, hv, rfl⟩
    exact ⟨toList_isTuple h.vars h.doms hx, hv⟩
  · rintro ⟨hy, hv⟩
    obtain ⟨h1, h2⟩ := isTuple_asg h.vars h.doms hy
    exact ⟨_, h1, by rw [h2]; exact hv, h2.symm⟩

/-- `calculate_probability` and `probability` return the same number. -/
theorem C67_probability_partial (hP : P.OK) (hr : Reachable P w σ) (hclean : σ.clean = true)
    (h : SameFunction P w a asserts t dom f) (hf : ∀ x, IsTuple dom x → f x ≠ Undefined) {ps : List (List Rat)}
    (hp : HasRows dom ps) (hpr : SumsToOne P.c.n P.c.dom (entry ps)) {s : Int} (hs : 0 ≤ s) :
    ∃ q, TT.probability t ps s = .ok q ∧ Answers P w (.calculateProbability s (entry ps) a) (.rat q) := by
  refine ⟨_, C51_probability h.size h.table hp s, ?_⟩
  rw [probability_tuples h.vars h.doms]
  exact C29_calculate_probability_partial hP hr hclean h.diagram
    (fun x hx => hf _ (toList_isTuple h.vars h.doms hx)) hpr hs

/-- Availability and unavailability are the same numbers. -/
theorem C67_availability_partial (hP : P.OK) (hr : Reachable P w σ) (hclean : σ.clean = true)
    (h : SameFunction P w a asserts t dom f) (hf : ∀ x, IsTuple dom x → 0 ≤ f x ∧ f x < Undefined)
    {ps : List (List Rat)} (hp : HasRows dom ps) (hpr : SumsToOne P.c.n P.c.dom (entry ps)) (s : Int) :
    ∃ A U, TT.availability t ps s = .ok A ∧ Answers P w (.calculateAvailability s (entry ps) a) (.rat A) ∧
      TT.unavailability t ps s = .ok U ∧ Answers P w (.calculateUnavailability s (entry ps) a) (.rat U) := by
  obtain ⟨A, U, eA, eU, rfl, rfl, _⟩ := C31_availability_partial hP hr hclean h.diagram
    (fun x hx => (hf _ (toList_isTuple h.vars h.doms hx)).2.ne) hpr s
  refine ⟨_, _, ?_, eA, ?_, eU⟩
  · rw [C51_availability h.size h.table (fun x hx => (hf x hx).2.le) hp,
      ← probability_tuples h.vars h.doms (entry ps) fun y => decide (s ≤ f y)]
    congr 1
    refine TT.fsum_congr fun x hx => decide_eq_decide.2 ?_
    have := hf x (TT.mem_tuples.1 hx)
    exact ⟨fun h => h.2, fun h => ⟨this.2.ne, h⟩⟩
  · rw [C51_unavailability h.size h.table hp,
      ← probability_tuples h.vars h.doms (entry ps) fun y => decide (f y < s)]
    congr 1
    refine TT.fsum_congr fun x hx => decide_eq_decide.2 ?_
    have := hf x (TT.mem_tuples.1 hx)
    exact ⟨fun h => h.2, fun h => ⟨this.1, h⟩⟩

theorem allAsg_length (h : SameFunction P w a asserts t dom f) :
    ((allAsg P.c.n P.c.dom).length : Rat) = (dom.prod : Nat) := by
  rw [← (C49_tuples dom).2.2, ← allAsg_toList h.vars h.doms, List.length_map]

/-- `state_frequency` returns the same number. -/
theorem C67_state_frequency_partial (hP : P.OK) (hr : Reachable P w σ) (hclean : σ.clean = true)
    (hfit : CountFits P.c) (h : SameFunction P w a asserts t dom f) {s : Int}
    (hs : ∀ m, P.c.fixedDom = some m → P.c.asserts = true → s < m) :
    Answers P w (.stateFrequency s a) (.rat (TT.stateFrequency t s)) := by
  have := C36_state_frequency_partial hP hr hclean hfit h.diagram hs
  rw [C51_stateFrequency h.size h.table, count_tuples h.vars h.doms, ← allAsg_length h]
  exact this

/-- The derivatives represent the same function. -/
theorem C67_dpld (hP : P.OK) (hr : Reachable P w σ) (hauto : σ.auto = false) (h1 : TermOK P.c 1)
    (h : SameFunction P w a asserts t dom f) {i u v : Nat} (hi : i < P.c.n) (hu : u < P.c.dom i)
    (hv : v < P.c.dom i) (ch : Int → Int → Bool) :
    ∃ t' w', TT.dpld asserts t ⟨i, u, v⟩ ch = .ok t' ∧
      exec P.c (.dpld ⟨i, u, v⟩ ch a) w = .ok (.slot w.slots.length, w') ∧
      ∀ x, InDomain P.c.n P.c.dom x → ∃ r, TT.evaluate asserts t' (toList P.c.n x) = .ok r ∧
        exec P.c (.evaluate w.slots.length x) w' = .ok (.int r, w') := by
  obtain ⟨t', e', ht⟩ := C50_dpld h.size h.table (i := i) (v := u) (w := v) (h.vars ▸ hi)
    (h.doms i hi ▸ hu) (h.doms i hi ▸ hv) ch
  obtain ⟨w', e, hd, _⟩ := C32_dpld hP hr hauto h.diagram h1 (vc := ⟨i, u, v⟩) hu hv ch
  refine ⟨t', w', e', e, fun x hx => ⟨_, ht _ (toList_isTuple h.vars h.doms hx), ?_⟩⟩
  rw [hd x hx]
  simp only [toList_upd]

/-- `structural_importance` of the derivatives is the same number. -/
theorem C67_structural_importance_partial (hP : P.OK) (hr : Reachable P w σ) (hauto : σ.auto = false)
    (hclean : σ.clean = true) (hfit : CountFits P.c) (h1 : TermOK P.c 1) (h : SameFunction P w a asserts t dom f)
    {i u v : Nat} (hi : i < P.c.n) (hu : u < P.c.dom i) (hv : v < P.c.dom i) (ch : Int → Int → Bool) :
    ∃ q w', (TT.dpld asserts t ⟨i, u, v⟩ ch >>= fun d => TT.structuralImportance d i) = .ok q ∧
      exec P.c (.dpld ⟨i, u, v⟩ ch a) w = .ok (.slot w.slots.length, w') ∧
      Answers P w' (.structuralImportance w.slots.length) (.rat q) := by
  obtain ⟨f', hf', _⟩ := (reachable_rel hP hr).of_denotes h.diagram
  obtain ⟨w', e, hd, _⟩ := C32_dpld hP hr hauto h.diagram h1 (vc := ⟨i, u, v⟩) hu hv ch
  have hr' := Reachable.step (k := .dpld ⟨i, u, v⟩ ch a) hr ⟨⟨f', hf'⟩, h1, fun _ => ⟨hu, hv⟩⟩ e
    (fun _ => hauto)
  refine ⟨_, w', C51_structuralImportance h.size h.table (h.vars ▸ hi) (h.doms i hi ▸ hu)
    (h.doms i hi ▸ hv) ch, e, ?_⟩
  have := C36_structural_importance_partial hP hr' hclean hfit hd h1
  rw [filter_tuples h.vars h.doms, ← allAsg_length h]
  unfold countValue at this
  simp only [toList_upd, dpld_one] at this
  exact this

/-- `birnbaum_importance` of the derivatives is the same number. -/
theorem C67_birnbaum_importance_partial (hP : P.OK) (hr : Reachable P w σ) (hauto : σ.auto = false)
    (hclean : σ.clean = true) (h1 : TermOK P.c 1) (h : SameFunction P w a asserts t dom f)
    {i u v : Nat} (hi : i < P.c.n) (hu : u < P.c.dom i) (hv : v < P.c.dom i) (ch : Int → Int → Bool)
    {ps : List (List Rat)} (hp : HasRows dom ps) (hpr : SumsToOne P.c.n P.c.dom (entry ps)) :
    ∃ q w', (TT.dpld asserts t ⟨i, u, v⟩ ch >>= fun d => TT.birnbaumImportance d ps) = .ok q ∧
      exec P.c (.dpld ⟨i, u, v⟩ ch a) w = .ok (.slot w.slots.length, w') ∧
      Answers P w' (.birnbaumImportance (entry ps) w.slots.length) (.rat q) := by
  obtain ⟨f', hf', _⟩ := (reachable_rel hP hr).of_denotes h.diagram
  obtain ⟨w', e, hd, _⟩ := C32_dpld hP hr hauto h.diagram h1 (vc := ⟨i, u, v⟩) hu hv ch
  have hr' := Reachable.step (k := .dpld ⟨i, u, v⟩ ch a) hr ⟨⟨f', hf'⟩, h1, fun _ => ⟨hu, hv⟩⟩ e
    (fun _ => hauto)
  refine ⟨_, w', C51_birnbaumImportance h.size h.table (h.vars ▸ hi) (h.doms i hi ▸ hu)
    (h.doms i hi ▸ hv) ch hp, e, ?_⟩
  have := C36_birnbaum_importance_partial hP hr' hclean hd (fun x _ => by
    dsimp only; rw [und_val]; split <;> decide) hpr
  rw [probability_tuples h.vars h.doms]
  simp only [toList_upd, dpld_one] at this
  exact this

theorem perm_vectors (h : SameFunction P w a asserts t dom f) {φ : Asg → Prop} {ψ : List Nat → Bool}
    {l : List (List Nat)} (hl : ListsExactly P φ l) (hφ : ∀ x, ψ (toList P.c.n x) = true ↔ φ x) :
    l.Perm ((tuples dom).filter ψ) := by
  refine (List.perm_ext_iff_of_nodup hl.1 ((C49_tuples dom).2.1.filter _)).2 fun y => ?_
  rw [hl.2, List.mem_filter, TT.mem_tuples]
  constructor
  · rintro ⟨x, hx, hv, rfl⟩
    exact ⟨toList_isTuple h.vars h.doms hx, (hφ x).2 hv⟩
  · rintro ⟨hy, hv⟩
    obtain ⟨h1, h2⟩ := isTuple_asg h.vars h.doms hy
    exact ⟨_, h1, (hφ _).1 (by rw [h2]; exact hv), h2.symm⟩

/-- The minimal cut vectors are the same, up to the order. -/
theorem C67_mcvs_partial (hP : P.OK) (hr : Reachable P w σ) (hauto : σ.auto = false) (hv : VectorsOK P σ)
    (h : SameFunction P w a asserts t dom f) (s : Int) :
    ∃ l l', Answers P w (.mcvs s a) (.asgs l) ∧ TT.mcvs asserts t s = .ok l' ∧ l.Perm l' := by
  obtain ⟨l, e, hl⟩ := C34_mcvs_partial hP hr hauto hv h.diagram s
  obtain ⟨_, _, _, _, i, hi, h2⟩ := hv
  refine ⟨l, _, e, C52_mcvs_partial h.size h.table ⟨i, h.vars ▸ hi, h.doms i hi ▸ h2⟩ s,
    perm_vectors h hl fun x => ?_⟩
  rw [decide_eq_true_eq, minCut_tuples h.vars h.doms]
  rfl

/-- The minimal path vectors are the same, up to the order. -/
theorem C67_mpvs_partial (hP : P.OK) (hr : Reachable P w σ) (hauto : σ.auto = false) (hv : VectorsOK P σ)
    (h : SameFunction P w a asserts t dom f) (s : Int) :
    ∃ l l', Answers P w (.mpvsG s a) (.asgs l) ∧ TT.mpvs asserts t s = .ok l' ∧ l.Perm l' := by
  obtain ⟨l, e, hl⟩ := C35_mpvs_g_partial hP hr hauto hv h.diagram s
  obtain ⟨_, _, _, _, i, hi, h2⟩ := hv
  refine ⟨l, _, e, C52_mpvs_partial h.size h.table ⟨i, h.vars ▸ hi, h.doms i hi ▸ h2⟩ s,
    perm_vectors h hl fun x => ?_⟩
  rw [decide_eq_true_eq, minPath_tuples h.vars]
  rfl

end

/-- max(x0, x1) as a function of elements. -/
def maxFn (y : List Nat) : Int := Op.MAX.val (y.getD 0 0) (y.getD 1 0)

def maxProbs : List (List Rat) := [[1/2, 1/2], [1/4, 1/4, 1/2], [1/10, 9/10]]

theorem maxSame : ∃ w t, Reachable mdd3 w mdd3State ∧ SameFunction mdd3 w 2 true t [2, 3, 2] maxFn := by
  obtain ⟨w, h⟩ := mdd3_world
  have hn : mdd3.c.n = [2, 3, 2].length := rfl
  have hd : ∀ i, i < mdd3.c.n → mdd3.c.dom i = [2, 3, 2].getD i 0 := by decide
  refine ⟨w, ⟨(tuples [2, 3, 2]).map maxFn, [2, 3, 2], [6, 2, 1], 2⟩, h, hn, hd,
    ⟨by decide, by decide, by decide⟩, by rfl, fun x hx => ?_⟩
  exact (reachable_rel mdd3_ok h).denotes (a := 2) rfl x hx

theorem maxRows : HasRows [2, 3, 2] maxProbs ∧ SumsToOne mdd3.c.n mdd3.c.dom (entry maxProbs) := by
  refine ⟨⟨by decide, by decide +kernel⟩, ?_⟩
  unfold SumsToOne
  decide +kernel

/-- The hypotheses are met by max(x0, x1) with a third variable; the answers. -/
example : ∃ w t, Reachable mdd3 w mdd3State ∧ SameFunction mdd3 w 2 true t [2, 3, 2] maxFn ∧
    exec mdd3.c (.satisfyCount 1 2) w = .ok (.int 6, w) ∧
    (∃ q, TT.probability t maxProbs 1 = .ok q ∧ Answers mdd3 w (.calculateProbability 1 (entry maxProbs) 2) (.rat q)) ∧
    (∃ l l', Answers mdd3 w (.mcvs 2 2) (.asgs l) ∧ TT.mcvs true t 2 = .ok l' ∧ l.Perm l') ∧
    (∃ q w', (TT.dpld true t ⟨1, 1, 2⟩ (Dpld.type3Increase 2) >>= fun d => TT.structuralImportance d 1) = .ok q ∧
      exec mdd3.c (.dpld ⟨1, 1, 2⟩ (Dpld.type3Increase 2) 2) w = .ok (.slot w.slots.length, w') ∧
      Answers mdd3 w' (.structuralImportance w.slots.length) (.rat q)) := by
  obtain ⟨w, t, hr, h⟩ := maxSame
  have hval : ∀ v, ValueOK mdd3 v := fun v m hm => by cases hm
  have h1 : TermOK mdd3.c 1 := ⟨by decide, fun h => by cases h⟩
  refine ⟨w, t, hr, h, ?_, ?_, ?_, ?_⟩
  · rw [C67_satisfy_count_partial mdd3_ok hr rfl (show (12 : Nat) ≤ 9223372036854775807 by decide) h (hval 1),
      C49_satisfyCount h.size h.table]
    rfl
  · exact C67_probability_partial mdd3_ok hr rfl h (fun x hx => by
      have : ∀ x ∈ tuples [2, 3, 2], maxFn x ≠ Undefined := by decide +kernel
      exact this x (TT.mem_tuples.2 hx)) maxRows.1 maxRows.2 (by decide)
  · exact C67_mcvs_partial mdd3_ok hr rfl ⟨rfl, rfl, h1, mdd3_undefined, 0, by decide, by decide⟩ h 2
  · exact C67_structural_importance_partial mdd3_ok hr rfl rfl (show (12 : Nat) ≤ 9223372036854775807 by decide)
      h1 h (by decide) (by decide) (by decide) _

/-- The table constructed from `to_vector` of max(x0, x1). -/
example : ∃ w vs t, exec mdd3.c (.toVector 2) w = .ok (.ints vs, w) ∧ TT.make true vs [2, 3, 2] = .ok t ∧
    ∃ f, SameFunction mdd3 w 2 true t [2, 3, 2] f := by
  obtain ⟨w, h⟩ := mdd3_world
  obtain ⟨o, e, ho⟩ := asks (k := .getOrder) mdd3_ok h trivial rfl
  exact ⟨w, C67_to_vector (a := 2) mdd3_ok h (show (12 : Nat) ≤ 9223372036854775807 by decide)
    ((reachable_rel mdd3_ok h).denotes rfl) (ho ▸ e) rfl (by decide) ⟨by decide, by decide, by decide⟩
    ⟨fun _ => 0, by unfold InDomain; decide, by decide⟩ true⟩

/-- The hypotheses on the function and the probabilities in the other theorems. -/
example : (∀ x, IsTuple [2, 3, 2] x → 0 ≤ maxFn x ∧ maxFn x < Undefined) ∧ HasRows [2, 3, 2] maxProbs ∧
    SumsToOne mdd3.c.n mdd3.c.dom (entry maxProbs) ∧ (1 : Nat) < mdd3.c.n ∧ 2 < mdd3.c.dom 1 := by
  refine ⟨fun x hx => ?_, maxRows.1, maxRows.2, by decide, by decide⟩
  have : ∀ x ∈ tuples [2, 3, 2], 0 ≤ maxFn x ∧ maxFn x < Undefined := by decide +kernel
  exact this x (TT.mem_tuples.2 hx)

end Properties
end Teddy
