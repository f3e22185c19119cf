import Verif.Demo

/-!
# Properties of queries, folds and conversions
-/

namespace Teddy
namespace Properties

open SM Spec

variable {P : Setup} {w : World} {σ : SState}

/-- The value asked for passes the assertion on fixed domains (diagram_manager.hpp:1420, 1490,
1541). -/
def ValueOK (P : Setup) (v : Int) : Prop :=
  ∀ m, P.c.fixedDom = some m → P.c.asserts = true → v < m

/-! ### C08 satisfy_count -/

/-- `satisfy_count(v, d)` is the number of assignments on which `d` has value `v`.

Missing for the full property: histories in which `from_expression_tree` left marks behind
(`C08_violated`). -/
theorem C08_satisfy_count_partial (hP : P.OK) (h : Reachable P w σ) (hclean : σ.clean = true)
    (hfit : CountFits P.c) {a : Nat} {f : Asg → Int} (ha : Denotes P w a f) {v : Int}
    (hv : ValueOK P v) :
    exec P.c (.satisfyCount v a) w = .ok (.int (countValue P.c.n P.c.dom f v : Nat), w) := by
  obtain ⟨f', hf, e1⟩ := (reachable_rel hP h).of_denotes ha
  obtain ⟨o, e, ho⟩ := asks (k := .satisfyCount v a) hP h ⟨hclean, hfit, ⟨f', hf⟩, hv⟩ rfl
  rw [e, ho, hf.fn, e1.countValue]

/-- x0 ∧ x1 over three variables is true on two assignments. -/
example : ∃ w σ, Reachable bdd3 w σ ∧ exec bdd3.c (.satisfyCount 1 2) w = .ok (.int 2, w) := by
  obtain ⟨w, h⟩ := bdd3_world
  refine ⟨w, _, h, ?_⟩
  rw [C08_satisfy_count_partial (a := 2) bdd3_ok h rfl (show 3 < 63 by decide)
    ((reachable_rel bdd3_ok h).denotes rfl) (fun m hm _ => by cases hm; decide)]
  rfl

/-! ### C09 satisfy_all -/

/-- `satisfy_all(v, d)` lists each assignment on which `d` has value `v` exactly once and nothing
else, sorted lexicographically by the variable order. -/
theorem C09_satisfy_all (hP : P.OK) (h : Reachable P w σ) {a : Nat} {f : Asg → Int}
    (ha : Denotes P w a f) {v : Int} (hv : ValueOK P v) :
    ∃ l, exec P.c (.satisfyAll v a) w = .ok (.asgs l, w) ∧ l.Nodup ∧
      (∀ y, y ∈ l ↔ ∃ x, InDomain P.c.n P.c.dom x ∧ f x = v ∧ y = toList P.c.n x) ∧
      ∀ order, exec P.c .getOrder w = .ok (.nats order, w) →
        l = ((assignments P.c.dom order).filter fun x => f x = v).map (toList P.c.n) := by
  have R := reachable_rel hP h
  obtain ⟨f', hf, e1⟩ := R.of_denotes ha
  obtain ⟨o, e, ho⟩ := asks (k := .satisfyAll v a) hP h ⟨⟨f', hf⟩, hv⟩ rfl
  rw [ho, hf.fn, e1.filter R.perm] at e
  refine ⟨_, e, ?_, ?_, ?_⟩
  · refine List.Nodup.map_on ?_ ((nodup_assignments R.nodup).filter _)
    intro x hx y hy exy
    have hx := (mem_assignments R.nodup).1 (List.mem_filter.1 hx).1
    have hy := (mem_assignments R.nodup).1 (List.mem_filter.1 hy).1
    funext i
    by_cases hi : i < P.c.n
    · exact List.map_inj_left.1 exy i (List.mem_range.2 hi)
    · have hm : i ∉ σ.order := fun hm => hi (List.mem_range.1 (R.perm.mem_iff.1 hm))
      rw [hx.2 i hm, hy.2 i hm]
  · intro y
    simp only [List.mem_map, List.mem_filter, decide_eq_true_eq]
    constructor
    · rintro ⟨x, ⟨hx, hfx⟩, rfl⟩
      exact ⟨x, inDomain_of_mem R.perm hx, hfx, rfl⟩
    · rintro ⟨x, hx, hfx, rfl⟩
      refine ⟨fun i => if i < P.c.n then x i else 0, ⟨?_, ?_⟩, ?_⟩
      · refine (mem_assignments R.nodup).2 ⟨?_, ?_⟩
        · intro i hi
          have hi := List.mem_range.1 (R.perm.mem_iff.1 hi)
          rw [if_pos hi]; exact hx i hi
        · intro i hi
          rw [if_neg fun hc => hi (R.perm.mem_iff.2 (List.mem_range.2 hc))]
      · rw [← hfx]
        exact R.denotes_eq ha hx fun i hi => (if_pos hi).symm
      · refine List.map_congr_left fun i hi => ?_
        rw [if_pos (List.mem_range.1 hi)]
  · intro order ho'
    rw [order_eq hP h ho']

/-- The assignments of (x0, x1, x2) making x0 ∧ x1 true; x2 is the top variable. -/
example : ∃ w σ, Reachable bdd3 w σ ∧
    exec bdd3.c (.satisfyAll 1 2) w = .ok (.asgs [[1, 1, 0], [1, 1, 1]], w) := by
  obtain ⟨w, h⟩ := bdd3_world
  obtain ⟨l, e, _, _, hl⟩ := C09_satisfy_all (a := 2) (v := 1) bdd3_ok h
    ((reachable_rel bdd3_ok h).denotes rfl) (fun m hm _ => by cases hm; decide)
  refine ⟨w, _, h, ?_⟩
  obtain ⟨o, e', ho⟩ := asks (k := .getOrder) bdd3_ok h trivial rfl
  rw [e, hl _ (ho ▸ e')]
  rfl

/-! ### C10 satisfy_one -/

/-- `satisfy_one(v, d)` returns an assignment on which `d` has value `v`, or nothing if there is
none. -/
theorem C10_satisfy_one (hP : P.OK) (h : Reachable P w σ) {a : Nat} {f : Asg → Int}
    (ha : Denotes P w a f) {v : Int} (hv : ValueOK P v) :
    ∃ r, exec P.c (.satisfyOne v a) w = .ok (.asg r, w) ∧
      (∀ l, r = some l → ∃ x, InDomain P.c.n P.c.dom x ∧ f x = v ∧ l = toList P.c.n x) ∧
      (r = none ↔ ∀ x, InDomain P.c.n P.c.dom x → f x ≠ v) := by
  have R := reachable_rel hP h
  obtain ⟨f', hf, e1⟩ := R.of_denotes ha
  obtain ⟨o, e, r, rfl, hr, _⟩ := asks (k := .satisfyOne v a) hP h ⟨⟨f', hf⟩, hv⟩ rfl
  refine ⟨r, e, ?_⟩
  rw [hf.fn] at hr
  cases r with
  | none =>
      refine ⟨fun l h => (nomatch h), ⟨fun _ x hx => ?_, fun _ => rfl⟩⟩
      rw [← e1 x hx]
      exact hr x hx
  | some l =>
      obtain ⟨x, hx, h1, h2⟩ := hr
      rw [e1 x hx] at h1
      refine ⟨fun l' hl => ?_, ⟨fun hc => (nomatch hc), fun hc => ?_⟩⟩
      · cases hl; exact ⟨x, hx, h1, h2⟩
      · exact absurd h1 (hc x hx)

/-- max(x0, x1) = 2 has a solution. -/
example : ∃ w σ, Reachable mdd3 w σ ∧
    ∃ l, exec mdd3.c (.satisfyOne 2 2) w = .ok (.asg (some l), w) := by
  obtain ⟨w, h⟩ := mdd3_world
  obtain ⟨r, e, _, hn⟩ := C10_satisfy_one (a := 2) (v := 2) mdd3_ok h
    ((reachable_rel mdd3_ok h).denotes rfl) (fun m hm _ => by cases hm)
  refine ⟨w, _, h, ?_⟩
  cases r with
  | none =>
      refine absurd rfl (hn.1 rfl (fun i => if i = 1 then 2 else 0) ?_)
      intro i _
      simp only [mdd3]
      split <;> decide
  | some l => exact ⟨l, e⟩

/-! ### C73 satisfy_one into other containers -/

/-- `satisfy_one(v, d)` into a container that holds `buf`.  It finds a tuple if and only if there is an assignment
with value `v`.  The positions `T` of the tuple hold values of their variables, and every assignment that agrees with
the tuple on them has value `v`; the tuple itself can be handed to `evaluate`.

Missing for the full property: the other positions may keep what the container held before (`C73_violated`). -/
theorem C73_cube_partial (hP : P.OK) (h : Reachable P w σ) {a : Nat} {f : Asg → Int}
    (ha : Denotes P w a f) {v : Int} (hv : ValueOK P v) (buf : Asg) :
    ∃ r, (do let p ← rootOf a; onMgr (satisfyOneInto P.c v buf p) : SM World _) w = .ok (r, w) ∧
      (r = none ↔ ∀ x, InDomain P.c.n P.c.dom x → f x ≠ v) ∧
      ∀ l, r = some l → ∃ (y : Asg) (T : Nat → Prop), l = toList P.c.n y ∧
        (∀ i, T i → i < P.c.n ∧ y i < P.c.dom i) ∧
        (∀ x, InDomain P.c.n P.c.dom x → (∀ i, T i → x i = y i) → f x = v) ∧
        (∀ i, y i = buf i ∨ y i < P.c.dom i) ∧
        exec P.c (.evaluate a y) w = .ok (.int v, w) := by
  have R := reachable_rel hP h
  obtain ⟨f', hf, e1⟩ := R.of_denotes ha
  obtain ⟨p, hp, hd⟩ := R.has a f' hf
  have I : Inv P.c (extW w) [] w.mgr := R.good.inv
  have O : Ordered P.c w.mgr := R.good.ord
  obtain ⟨r, s', e, rfl, hr⟩ := satisfyOneInto_ok I O (R.used hp) hd hv buf
  have e0 : (do let p ← rootOf a; onMgr (satisfyOneInto P.c v buf p) : SM World _) w = .ok (r, w) := by
    rw [bind_ok (rootOf_ok hp)]
    simp only [onMgr]
    rw [e]
  refine ⟨r, e0, ?_, ?_⟩
  · cases r with
    | none => exact ⟨fun _ x hx => e1 x hx ▸ hr x hx, fun _ => rfl⟩
    | some l =>
        refine ⟨fun hc => (nomatch hc), fun hc => ?_⟩
        obtain ⟨y, -, ev, -⟩ := hr
        obtain ⟨T, h1, h2⟩ := ev.cube I (R.used hp)
        -- complete the tuple
        have hx : InDomain P.c.n P.c.dom (fun i => if y i < P.c.dom i then y i else 0) := by
          intro i hi
          dsimp only
          split
          · assumption
          · exact hP.cfg.dom_pos i hi
        refine absurd ?_ (hc _ hx)
        rw [← e1 _ hx]
        exact (hd _ hx).det (h2 _ fun i hi => if_pos (h1 i hi).2)
  · rintro l rfl
    obtain ⟨y, hl, ev, hy⟩ := hr
    obtain ⟨T, h1, h2⟩ := ev.cube I (R.used hp)
    refine ⟨y, T, hl, h1, fun x hx hT => ?_, hy, ?_⟩
    · rw [← e1 x hx]
      exact (hd x hx).det (h2 x hT)
    · simp only [exec]
      rw [bind_ok (rootOf_ok hp)]
      simp only [onMgr, bind_run]
      rw [evaluate_ok I O (R.used hp) ev]
      rfl

/-- max(x0, x1) = 2 into a container full of nines. -/
example : ∃ w σ, Reachable mdd3 w σ ∧ ∃ l,
    (do let p ← rootOf 2; onMgr (satisfyOneInto mdd3.c 2 (fun _ => 9) p) : SM World _) w = .ok (some l, w) := by
  obtain ⟨w, h⟩ := mdd3_world
  obtain ⟨r, e, hn, _⟩ := C73_cube_partial (a := 2) (v := 2) mdd3_ok h
    ((reachable_rel mdd3_ok h).denotes rfl) (fun m hm _ => by cases hm) (fun _ => 9)
  refine ⟨w, _, h, ?_⟩
  cases r with
  | none =>
      exact absurd (by decide) (hn.1 rfl (fun i => if i = 1 then 2 else 0)
        (fun i _ => by show (if i = 1 then 2 else 0) < if i = 1 then 3 else 2; split <;> decide))
  | some l => exact ⟨l, e⟩

/-! ### C11 from_vector -/

/-- The diagram made by `from_vector` evaluates to the vector element at the position of the
assignment, the variables being read in the current order with the last one least significant. -/
theorem C11_from_vector (hP : P.OK) (h : Reachable P w σ) (hfit : CountFits P.c) {vs : List Int}
    (hl : vs.length = ((List.range P.c.n).map P.c.dom).prod) (hv : ∀ v ∈ vs, TermOK P.c v)
    {order : List Nat} (ho : exec P.c .getOrder w = .ok (.nats order, w)) :
    Makes P w (.fromVector vs) (fun x => vs.getD (position P.c.dom order x) 0) := by
  rw [order_eq hP h ho]
  exact makes (k := .fromVector vs) hP h ⟨hfit, hl, hv⟩ rfl fun _ _ => rfl

example : ∃ w σ, Reachable mdd3 w σ ∧ Makes mdd3 w (.fromVector [0, 1, 2, 3, 4, 5, 6, 7, 8, 9, 5, 5])
    (fun x => [0, 1, 2, 3, 4, 5, 6, 7, 8, 9, 5, 5].getD (x 0 * 6 + (x 1 * 2 + (x 2 * 1 + 0))) 0) := by
  obtain ⟨w, h⟩ := mdd3_world
  refine ⟨w, _, h, ?_⟩
  obtain ⟨o, e', ho⟩ := asks (k := .getOrder) mdd3_ok h trivial rfl
  exact C11_from_vector (vs := [0, 1, 2, 3, 4, 5, 6, 7, 8, 9, 5, 5]) mdd3_ok h
    (show (12 : Nat) ≤ 9223372036854775807 by decide) rfl
    (by intro v hv; exact ⟨by revert v; decide, fun hc => by cases hc⟩) (ho ▸ e')

/-! ### C12 vector round trips -/

/-- `to_vector` lists the values of the diagram at all assignments in lexicographic order. -/
theorem C12_to_vector (hP : P.OK) (h : Reachable P w σ) (hfit : CountFits P.c) {a : Nat}
    {f : Asg → Int} (ha : Denotes P w a f) {order : List Nat}
    (ho : exec P.c .getOrder w = .ok (.nats order, w)) :
    exec P.c (.toVector a) w = .ok (.ints ((assignments P.c.dom order).map f), w) := by
  have R := reachable_rel hP h
  obtain ⟨f', hf, e1⟩ := R.of_denotes ha
  obtain ⟨o, e, ho'⟩ := asks (k := .toVector a) hP h ⟨⟨f', hf⟩, hfit⟩ rfl
  rw [e, ho', hf.fn, e1.truthVector R.perm, order_eq hP h ho]
  rfl

/-- `to_vector(from_vector(vs)) = vs`. -/
theorem C12_vector_diagram_vector (hP : P.OK) (h : Reachable P w σ) (hfit : CountFits P.c)
    {vs : List Int} (hl : vs.length = ((List.range P.c.n).map P.c.dom).prod)
    (hv : ∀ v ∈ vs, TermOK P.c v) :
    ∃ k w', exec P.c (.fromVector vs) w = .ok (.slot k, w') ∧
      exec P.c (.toVector k) w' = .ok (.ints vs, w') := by
  have R := reachable_rel hP h
  have hk : Adm P σ (.fromVector vs) := ⟨hfit, hl, hv⟩
  obtain ⟨w', e, hd, _⟩ := makes (k := .fromVector vs) hP h hk rfl fun _ _ => rfl
  have h' := Reachable.step h hk e
  have R' := reachable_rel hP h'
  refine ⟨_, w', e, ?_⟩
  obtain ⟨o, eo, ho⟩ := asks (k := .getOrder) hP h' trivial rfl
  rw [C12_to_vector hP h' hfit hd (ho ▸ eo)]
  change Except.ok (Out.ints (truthVector P.c.dom σ.order _), w') = _
  rw [truthVector_position R.nodup]
  rw [hl]
  exact (R.perm.map P.c.dom).prod_eq.symm

/-- `from_vector(to_vector(d))` is the same diagram as `d`. -/
theorem C12_diagram_vector_diagram (hP : P.OK) (h : Reachable P w σ) (hcanon : σ.canon = true)
    (hfit : CountFits P.c) {a : Nat} {f : Asg → Int} (ha : Denotes P w a f)
    (hv : ∀ x, InDomain P.c.n P.c.dom x → TermOK P.c (f x)) :
    ∃ vs k w', exec P.c (.toVector a) w = .ok (.ints vs, w) ∧
      exec P.c (.fromVector vs) w = .ok (.slot k, w') ∧
      exec P.c (.equals a k) w' = .ok (.bool true, w') := by
  have R := reachable_rel hP h
  obtain ⟨o, eo, ho⟩ := asks (k := .getOrder) hP h trivial rfl
  have e1 := C12_to_vector hP h hfit ha (ho ▸ eo)
  have hk : Adm P σ (.fromVector ((assignments P.c.dom σ.order).map f)) := by
    refine ⟨hfit, ?_, ?_⟩
    · rw [List.length_map, length_assignments]
      exact (R.perm.map P.c.dom).prod_eq
    · intro v hv'
      obtain ⟨x, hx, rfl⟩ := List.mem_map.1 hv'
      exact hv x (inDomain_of_mem R.perm hx)
  obtain ⟨w', e, hd, hold⟩ := makes (k := .fromVector _) hP h hk rfl fun _ _ => rfl
  have h' := Reachable.step h hk e
  have R' := reachable_rel hP h'
  refine ⟨_, _, w', e1, e, ?_⟩
  obtain ⟨f1, hf1, s1⟩ := R'.of_denotes (hold a f ha)
  obtain ⟨f2, hf2, s2⟩ := R'.of_denotes hd
  obtain ⟨o, e3, r, rfl, _, h2⟩ := asks (k := .equals a w.slots.length) hP h' ⟨⟨f1, hf1⟩, f2, hf2⟩ rfl
  rw [hf1.fn, hf2.fn] at h2
  rw [e3, h2 hcanon]
  intro x hx
  rw [s1 x hx, s2 x hx]
  symm
  refine getD_truthVector R.nodup (fun i hi => hx i ?_) ?_
  · exact List.mem_range.1 (R.perm.mem_iff.1 hi)
  · intro y hy
    exact R.denotes_eq ha hx fun i hi => (hy i (R.perm.mem_iff.2 (List.mem_range.2 hi))).symm

example : ∃ w σ, Reachable bdd3 w σ ∧ ∃ vs k w', exec bdd3.c (.toVector 2) w = .ok (.ints vs, w) ∧
    exec bdd3.c (.fromVector vs) w = .ok (.slot k, w') ∧
    exec bdd3.c (.equals 2 k) w' = .ok (.bool true, w') := by
  obtain ⟨w, h⟩ := bdd3_world
  refine ⟨w, _, h, C12_diagram_vector_diagram (f := fun x => Op.AND.val (x 0) (x 1)) bdd3_ok h rfl
    (show 3 < 63 by decide) ((reachable_rel bdd3_ok h).denotes rfl) ?_⟩
  intro x hx
  have h0 := hx 0 (by decide)
  have h1 := hx 1 (by decide)
  simp only [bdd3] at h0 h1
  refine term1_bdd3.of_le ?_ ?_ <;>
  · simp only [Op.AND, BinOp.val, min32, max32]; split_ifs <;> omega

example : ∃ w σ, Reachable bdd3 w σ ∧ ∃ k w',
    exec bdd3.c (.fromVector [0, 1, 1, 0, 1, 0, 0, 1]) w = .ok (.slot k, w') ∧
    exec bdd3.c (.toVector k) w' = .ok (.ints [0, 1, 1, 0, 1, 0, 0, 1], w') := by
  obtain ⟨w, h⟩ := bdd3_world
  refine ⟨w, _, h, C12_vector_diagram_vector bdd3_ok h (show 3 < 63 by decide) rfl ?_⟩
  intro v hv
  have : v = 0 ∨ v = 1 := by revert v; decide
  rcases this with rfl | rfl
  · exact term1_bdd3.of_le (by decide) (by decide)
  · exact term1_bdd3

/-! ### C13 folds -/

/-- `left_fold` evaluates to the left fold of the operation over the values.

Missing for the full property: as for `C01_apply_partial`, see `C13_violated`. -/
theorem C13_left_fold_partial (hP : P.OK) (h : Reachable P w σ) (hauto : σ.auto = false) (hcache : σ.cacheOK = true) {op : BinOp}
    (hΓ : P.Γ (opType P.c op).id = opType P.c op) {as : List Nat} {f : Asg → Int}
    {fs : List (Asg → Int)} (ha : List.Forall₂ (Denotes P w) as (f :: fs))
    (hop : FoldOK P.c (opType P.c op) f fs) :
    Makes P w (.leftFold op as) (fun x => (fs.map fun g => g x).foldl (opType P.c op).val (f x)) := by
  have R := reachable_rel hP h
  obtain ⟨fs', hf, e⟩ := R.of_denotesAll ha
  cases e with
  | @cons f' _ fs' _ e1 e2 =>
      refine makes (k := .leftFold op as) hP h ⟨hcache, hΓ, f', fs', hf, FoldOK.congr e1 e2 hop⟩
        rfl ?_
      rw [hf.fn]
      intro x hx
      simp only [foldFun]
      rw [e1 x hx]
      congr 1
      clear hf ha hop
      induction e2 with
      | nil => rfl
      | cons e1 _ ih => simp [e1 x hx, ih]

/-- x0 ∧ x1 ∧ (x0 ∧ x1) -/
example : ∃ w σ, Reachable bdd3 w σ ∧ Makes bdd3 w (.leftFold Op.AND [0, 1, 2])
    (fun x => Op.AND.val (Op.AND.val (x 0) (x 1)) (Op.AND.val (x 0) (x 1))) := by
  obtain ⟨w, h⟩ := bdd3_world
  have R := reachable_rel bdd3_ok h
  refine ⟨w, _, h, C13_left_fold_partial (as := [0, 1, 2]) bdd3_ok h rfl rfl rfl
    (.cons (R.denotes rfl) (.cons (R.denotes rfl) (.cons (R.denotes rfl) .nil))) ?_⟩
  refine FoldOK.of_closed (A := fun v => v = 0 ∨ v = 1) (opOK_AND ?_ ?_) and_closed ?_
  · exact Bits.vals term1_bdd3 fun _ h => h
  · exact Bits.vals term1_bdd3 fun _ h => h
  · exact bdd3_bits

/-- `tree_fold` gives the left fold too, for an operation associative on a set of values that
contains those of the operands and is closed under the operation.

Missing for the full property: as for `C01_apply_partial`, see `C13_violated`. -/
theorem C13_tree_fold_partial (hP : P.OK) (h : Reachable P w σ) (hauto : σ.auto = false) (hcache : σ.cacheOK = true) {op : BinOp}
    (hΓ : P.Γ (opType P.c op).id = opType P.c op) {as : List Nat} {f : Asg → Int}
    {fs : List (Asg → Int)} (ha : List.Forall₂ (Denotes P w) as (f :: fs)) {A : Int → Prop}
    (hop : OpOK P.c (opType P.c op) A A)
    (hcl : ∀ a b, A a → A b → A ((opType P.c op).val a b))
    (has : ∀ a b d, A a → A b → A d → (opType P.c op).val ((opType P.c op).val a b) d =
      (opType P.c op).val a ((opType P.c op).val b d))
    (hA : ∀ g ∈ f :: fs, ∀ x, InDomain P.c.n P.c.dom x → A (g x)) :
    Makes P w (.treeFold op as) (fun x => (fs.map fun g => g x).foldl (opType P.c op).val (f x)) := by
  have R := reachable_rel hP h
  obtain ⟨fs', hf, e⟩ := R.of_denotesAll ha
  cases e with
  | @cons f' _ fs' _ e1 e2 =>
      have hA' : ∀ g ∈ f' :: fs', ∀ x, InDomain P.c.n P.c.dom x → A (g x) := by
        have key : ∀ {gs hs : List (Asg → Int)}, List.Forall₂ (SameOn P.c.n P.c.dom) gs hs →
            (∀ g ∈ hs, ∀ x, InDomain P.c.n P.c.dom x → A (g x)) →
            ∀ g ∈ gs, ∀ x, InDomain P.c.n P.c.dom x → A (g x) := by
          intro gs hs hgs
          induction hgs with
          | nil => intro _ g hg; simp at hg
          | @cons g0 _ _ _ e1 _ ih =>
              intro hh g hg x hx
              rcases List.mem_cons.1 hg with rfl | hg
              · rw [e1 x hx]; exact hh _ List.mem_cons_self x hx
              · exact ih (fun g hg => hh g (List.mem_cons_of_mem _ hg)) g hg x hx
        exact key (.cons e1 e2) hA
      have hne : as ≠ [] := by
        rintro rfl
        cases hf
      refine makes (k := .treeFold op as) hP h ⟨hcache, hΓ, hne, _, hf, TreeOK.of_closed hop hcl _ hA'⟩
        rfl ?_
      rw [hf.fn]
      intro x hx
      rw [treeFun_eq hcl has (fun g hg => hA' g hg x hx), e1 x hx]
      congr 1
      clear hf ha hA hA'
      induction e2 with
      | nil => rfl
      | cons e1 _ ih => simp [e1 x hx, ih]

/-- The same by a tree fold. -/
example : ∃ w σ, Reachable bdd3 w σ ∧ Makes bdd3 w (.treeFold Op.AND [0, 1, 2])
    (fun x => Op.AND.val (Op.AND.val (x 0) (x 1)) (Op.AND.val (x 0) (x 1))) := by
  obtain ⟨w, h⟩ := bdd3_world
  have R := reachable_rel bdd3_ok h
  refine ⟨w, _, h, C13_tree_fold_partial (as := [0, 1, 2]) (A := fun v => v = 0 ∨ v = 1) bdd3_ok h rfl rfl rfl
    (.cons (R.denotes rfl) (.cons (R.denotes rfl) (.cons (R.denotes rfl) .nil)))
    (opOK_AND ?_ ?_) and_closed and_assoc' ?_⟩
  · exact Bits.vals term1_bdd3 fun _ h => h
  · exact Bits.vals term1_bdd3 fun _ h => h
  · exact bdd3_bits

/-! ### C18 the order is a permutation -/

/-- `get_order()` always lists each variable once. -/
theorem C18_order (hP : P.OK) (h : Reachable P w σ) :
    ∃ l, exec P.c .getOrder w = .ok (.nats l, w) ∧ l.Perm (List.range P.c.n) := by
  obtain ⟨o, e, rfl⟩ := asks (k := .getOrder) hP h trivial rfl
  exact ⟨_, e, (reachable_rel hP h).perm⟩

example : ∃ w σ, Reachable bdd3 w σ ∧ ∃ l, exec bdd3.c .getOrder w = .ok (.nats l, w) ∧
    l.Perm [0, 1, 2] := by
  obtain ⟨w, h⟩ := bdd3_world
  exact ⟨w, _, h, C18_order bdd3_ok h⟩

/-! ### C22 dependency set -/

/-- `get_dependency_set(d)` lists, without repetition, the variables the function depends on: all
of them always, and no others unless variables were reordered.

Missing for the full property: histories in which `from_expression_tree` left marks behind
(`C22_violated`). -/
theorem C22_dependency_set_partial (hP : P.OK) (h : Reachable P w σ) (hclean : σ.clean = true) {a : Nat}
    {f : Asg → Int} (ha : Denotes P w a f) :
    ∃ l, exec P.c (.dependencySet a) w = .ok (.nats l, w) ∧ l.Nodup ∧
      (∀ i, i < P.c.n → DependsOn P.c.n P.c.dom f i → i ∈ l) ∧
      (σ.canon = true → ∀ i, i ∈ l → i < P.c.n ∧ DependsOn P.c.n P.c.dom f i) := by
  obtain ⟨f', hf, e1⟩ := (reachable_rel hP h).of_denotes ha
  obtain ⟨o, e, l, rfl, h1, h2, h3⟩ := asks (k := .dependencySet a) hP h ⟨hclean, f', hf⟩ rfl
  rw [hf.fn] at h2 h3
  exact ⟨l, e, h1, fun i hi hd => h2 i hi (e1.symm.dependsOn hd),
    fun hc i hi => ⟨(h3 hc i hi).1, e1.dependsOn (h3 hc i hi).2⟩⟩

/-- x0 ∧ x1 does not list x2, but lists x0. -/
example : ∃ w σ, Reachable bdd3 w σ ∧ ∃ l, exec bdd3.c (.dependencySet 2) w = .ok (.nats l, w) ∧
    2 ∉ l ∧ 0 ∈ l := by
  obtain ⟨w, h⟩ := bdd3_world
  obtain ⟨l, e, _, h2, h3⟩ := C22_dependency_set_partial (a := 2) bdd3_ok h rfl
    ((reachable_rel bdd3_ok h).denotes rfl)
  refine ⟨w, _, h, l, e, ?_, ?_⟩
  · intro hm
    obtain ⟨_, x, k, _, _, hne⟩ := h3 rfl 2 hm
    exact hne rfl
  · refine h2 0 (by decide) ⟨fun _ => 1, 0, fun _ _ => Nat.one_lt_two, by decide, ?_⟩
    decide

/-! ### C23 node count of a diagram -/

/-- Without reordering, `get_node_count(d)` is the number of different functions obtained from that
of `d` by fixing the first variables of the order (the size of the reduced diagram).

Missing for the full property: histories in which `from_expression_tree` left marks behind
(`C23_violated`), and histories with reordering, after which diagrams need not be reduced. -/
theorem C23_node_count_partial (hP : P.OK) (h : Reachable P w σ) (hclean : σ.clean = true)
    (hcanon : σ.canon = true) {a : Nat} {f : Asg → Int} (ha : Denotes P w a f)
    {order : List Nat} (ho : exec P.c .getOrder w = .ok (.nats order, w)) :
    ∃ k, exec P.c (.nodeCountOf a) w = .ok (.nat k, w) ∧
      CountFuns P.c.n P.c.dom (Subfunction P.c.n P.c.dom order f) k := by
  obtain ⟨f', hf, e1⟩ := (reachable_rel hP h).of_denotes ha
  obtain ⟨o, e, k, rfl, _, h1⟩ := asks (k := .nodeCountOf a) hP h ⟨hclean, f', hf⟩ rfl
  have := h1 hcanon
  rw [hf.fn] at this
  rw [order_eq hP h ho]
  exact ⟨k, e, e1.countSubs this⟩

/-- In every state, also after reordering, a diagram has at least as many nodes as there are different functions
obtained from that of `d` by fixing the first variables of the current order. -/
theorem C23_lower_bound (hP : P.OK) (h : Reachable P w σ) (hclean : σ.clean = true)
    {a : Nat} {f : Asg → Int} (ha : Denotes P w a f)
    {order : List Nat} (ho : exec P.c .getOrder w = .ok (.nats order, w)) :
    ∃ k j, exec P.c (.nodeCountOf a) w = .ok (.nat k, w) ∧ j ≤ k ∧
      CountFuns P.c.n P.c.dom (Subfunction P.c.n P.c.dom order f) j := by
  obtain ⟨f', hf, e1⟩ := (reachable_rel hP h).of_denotes ha
  obtain ⟨o, e, k, rfl, ⟨j, hj, h1⟩, _⟩ := asks (k := .nodeCountOf a) hP h ⟨hclean, f', hf⟩ rfl
  rw [hf.fn] at h1
  rw [order_eq hP h ho]
  exact ⟨k, j, e, hj, e1.countSubs h1⟩

/-- There is at least the root. -/
example : ∃ w σ, Reachable bdd3 w σ ∧ ∃ k, exec bdd3.c (.nodeCountOf 2) w = .ok (.nat k, w) ∧
    0 < k := by
  obtain ⟨w, h⟩ := bdd3_world
  obtain ⟨o, e', ho⟩ := asks (k := .getOrder) bdd3_ok h trivial rfl
  obtain ⟨k, e, gs, hl, _, _, hc⟩ := C23_node_count_partial (a := 2) bdd3_ok h rfl rfl
    ((reachable_rel bdd3_ok h).denotes rfl) (ho ▸ e')
  obtain ⟨g, hg, _⟩ := hc _ ⟨0, fun _ => 0, fun _ _ => Nat.two_pos, rfl⟩
  exact ⟨w, _, h, k, e, by rw [← hl]; exact List.length_pos_of_mem hg⟩

/-- The bound also holds after a reordering. -/
example : ∃ w σ, Reachable bdd3 w σ ∧ σ.canon = false ∧ ∃ k, exec bdd3.c (.nodeCountOf 2) w = .ok (.nat k, w) ∧
    0 < k := by
  obtain ⟨o, w, h⟩ := Reachable.call bdd3_ok bdd3_world .forceReorder trivial
  obtain ⟨o', e', ho⟩ := asks (k := .getOrder) bdd3_ok h trivial rfl
  obtain ⟨k, j, e, hj, gs, hl, _, _, hc⟩ := C23_lower_bound (a := 2) bdd3_ok h rfl
    ((reachable_rel bdd3_ok h).denotes rfl) (ho ▸ e')
  obtain ⟨g, hg, _⟩ := hc _ ⟨0, fun _ => 0, fun _ _ => Nat.two_pos, rfl⟩
  have : 0 < gs.length := List.length_pos_of_mem hg
  exact ⟨w, _, h, rfl, k, e, by omega⟩

/-! ### C25 expression trees -/

/-- `from_expression_tree(e)` evaluates to the value of the expression. -/
theorem C25_from_expression (hP : P.OK) (h : Reachable P w σ) (hauto : σ.auto = false) {e : Expr} (he : e.OK P.c) :
    Makes P w (.fromExpr e) (fun x => e.val x) :=
  makes (k := .fromExpr e) hP h he rfl fun _ _ => rfl

example : ∃ w σ, Reachable mdd3 w σ ∧ Makes mdd3 w
    (.fromExpr (.op (fun a b => a + 2 * b) (.var 0) (.op max (.var 1) (.const 1))))
    (fun x => x 0 + 2 * max (x 1 : Int) 1) := by
  obtain ⟨w, h⟩ := mdd3_world
  refine ⟨w, _, h, C25_from_expression mdd3_ok h rfl ?_⟩
  have ht : ∀ v : Int, 0 ≤ v → v < 100 → TermOK mdd3.c v ∧ v ≠ Nondetermined := fun v h0 h1 =>
    ⟨⟨h0, fun hc => by cases hc⟩, by rw [nd_val]; omega⟩
  refine ⟨⟨by decide, by decide⟩, ⟨⟨by decide, by decide⟩, ht 1 (by decide) (by decide), ?_⟩, ?_⟩
  · intro x y hx hy
    have h1 : x 1 < 3 := hx 1 (by decide)
    exact ht _ (by simp only [Expr.val]; omega) (by simp only [Expr.val]; omega)
  · intro x y hx hy
    have h0 : x 0 < 2 := hx 0 (by decide)
    have h1 : y 1 < 3 := hy 1 (by decide)
    exact ht _ (by simp only [Expr.val]; omega) (by simp only [Expr.val]; omega)

end Properties
end Teddy
