import Verif.Proofs.Expressions
import Verif.Proofs.MakeDiagram
import Verif.Demo

/-!
# Properties of domain iterators, expressions and generators of the supporting library (C55–C58)

`toList n x` is the vector of the values `x 0, …, x (n - 1)`; `assignments dom order` lists all assignments of
the variables in `order` lexicographically, the last one changing fastest.
-/

namespace Teddy
namespace Properties

open SM Spec Tsl

variable {P : Setup} {w : World} {σ : SState}

/-! ## C55 -/

/-- A domain iterator with an order (at least one variable, all different, all existing; no empty domain)
visits the assignments of the variables in the order in lexicographic order, the other variables being 0, and
then ends.

Missing for the full property: the first variable of the order should change fastest
(`C55_violated_order`), fixed values (`C55_violated_fixed`), and an order without variables
(`C55_violated_empty`). -/
theorem C55_visits_partial {domains order : List Nat} (h0 : order ≠ []) (hn : order.Nodup)
    (ho : ∀ i ∈ order, i < domains.length) (hd : ∀ i ∈ order, 0 < sizes domains i) :
    ∃ it, DomIter.ofOrder domains order = .ok it ∧
      ∀ fuel, (order.map (sizes domains)).prod < fuel → DomIter.forEach .ok fuel it =
        .ok ((assignments (sizes domains) order).map (toList domains.length)) := by
  obtain ⟨it, e, h⟩ := ofOrder_forEach h0 hn ho hd
  exact ⟨it, e, fun fuel hf => h (fun _ _ => rfl) hf⟩

/-- Those are all the elements of the domain of these variables, each once. -/
theorem C55_once_partial {domains order : List Nat} (hn : order.Nodup) (hi : ∀ i ∈ order, i < domains.length) :
    ((assignments (sizes domains) order).map (toList domains.length)).Nodup ∧
      ∀ l, l ∈ (assignments (sizes domains) order).map (toList domains.length) ↔ l.length = domains.length ∧
        ∀ i < domains.length, (i ∈ order → l.getD i 0 < sizes domains i) ∧ (i ∉ order → l.getD i 0 = 0) := by
  constructor
  · refine List.Nodup.map_on ?_ (nodup_assignments hn)
    intro x hx y hy e
    rw [mem_assignments hn] at hx hy
    funext i
    by_cases h : i ∈ order
    · have h1 := getElem?_toList x (hi i h)
      have h2 := getElem?_toList y (hi i h)
      rw [e, h2] at h1
      exact (Option.some.inj h1).symm
    · rw [hx.2 i h, hy.2 i h]
  · intro l
    simp only [List.mem_map, mem_assignments hn]
    constructor
    · rintro ⟨x, ⟨h1, h2⟩, rfl⟩
      refine ⟨by simp [toList], fun i h => ?_⟩
      have e : (toList domains.length x).getD i 0 = x i := by
        rw [List.getD_eq_getElem?_getD, getElem?_toList x h]; rfl
      rw [e]
      exact ⟨h1 i, h2 i⟩
    · rintro ⟨hl, h⟩
      refine ⟨fun i => l.getD i 0, ⟨fun i h' => (h i (hi i h')).1 h', fun i h' => ?_⟩, ?_⟩
      · by_cases hb : i < domains.length
        · exact (h i hb).2 h'
        · simp only [List.getD_eq_getElem?_getD]
          rw [List.getElem?_eq_none (by omega)]; rfl
      · refine List.ext_getElem (by simp [toList, hl]) fun i h1 h2 => ?_
        simp [toList, List.getD_eq_getElem?_getD, h2]

/-- Without an order: all elements of the domain, the last variable changing fastest. -/
theorem C55_implicit_partial {domains : List Nat} (h0 : domains ≠ []) (hd : ∀ d ∈ domains, 0 < d) :
    ∃ it, DomIter.ofDomains domains = .ok it ∧
      ∀ fuel, domains.prod < fuel → DomIter.forEach .ok fuel it =
        .ok ((allAsg domains.length (sizes domains)).map (toList domains.length)) := by
  have e : (List.range domains.length).map (sizes domains) = domains := by
    refine List.ext_getElem (by simp) fun i h1 h2 => ?_
    simp [sizes, List.getD_eq_getElem?_getD, h2]
  have hpos : ∀ i ∈ List.range domains.length, 0 < sizes domains i := by
    intro i hi
    have : sizes domains i ∈ (List.range domains.length).map (sizes domains) := List.mem_map_of_mem hi
    rw [e] at this
    exact hd _ this
  obtain ⟨it, e1, h⟩ := C55_visits_partial (domains := domains) (order := List.range domains.length)
    (by simpa using h0) List.nodup_range (by simp) hpos
  rw [e] at h
  exact ⟨it, by rw [← e1]; simp [DomIter.ofDomains, DomIter.ofOrder, fillVector], h⟩

/-- Three variables, of which the iterator goes over two. -/
example : ∃ it, DomIter.ofOrder [2, 3, 2] [2, 1] = .ok it ∧ DomIter.forEach .ok 10 it =
    .ok [[0, 0, 0], [0, 1, 0], [0, 2, 0], [0, 0, 1], [0, 1, 1], [0, 2, 1]] := by
  obtain ⟨it, e, h⟩ := C55_visits_partial (domains := [2, 3, 2]) (order := [2, 1]) (by decide) (by decide)
    (by decide) (by decide)
  exact ⟨it, e, (h 10 (by decide)).trans (by rfl)⟩

example : ∃ it, DomIter.ofDomains [2, 2] = .ok it ∧
    DomIter.forEach .ok 10 it = .ok [[0, 0], [0, 1], [1, 0], [1, 1]] := by
  obtain ⟨it, e, h⟩ := C55_implicit_partial (domains := [2, 2]) (by decide) (by decide)
  exact ⟨it, e, (h 10 (by decide)).trans (by rfl)⟩

/-- iterators.hpp:40-45 promises that `order[0]` changes most often; it is the last one that does. -/
theorem C55_violated_order : ∃ it, DomIter.ofOrder [2, 2] [0, 1] = .ok it ∧ ∃ it', it.next = .ok it' ∧
    it'.varVals = [0, 1] := ⟨_, rfl, _, rfl, rfl⟩

/-- The constructor with fixed values writes to a vector that does not exist yet. -/
theorem C55_violated_fixed (domains order : List Nat) (p : Nat × Nat) (fixed : List (Nat × Nat)) :
    DomIter.make domains order (p :: fixed) = .error .uninit := rfl

/-- An iterator with an empty order never reaches the end. -/
theorem C55_violated_empty {domains : List Nat} (h : domains ≠ []) : ∃ it, DomIter.ofOrder domains [] = .ok it ∧
    ∀ fuel, DomIter.forEach .ok fuel it = .error .fuel := by
  refine ⟨_, rfl, fun fuel => ?_⟩
  induction fuel with
  | zero => rfl
  | succ k ih =>
      rw [DomIter.forEach]
      have : (DomIter.atEnd ⟨domains, [], List.replicate domains.length 0⟩) = false := by
        cases domains with
        | nil => exact absurd rfl h
        | cons d ds => rfl
      simp only [List.filter_nil, List.reverse_nil, this]
      show (do let as ← DomIter.forEach .ok k ⟨domains, [], List.replicate domains.length 0⟩; _) = _
      simp only [List.filter_nil, List.reverse_nil] at ih
      rw [ih]
      rfl

/-! ## C56 -/

/-- The expression can be used with `n` variables: there is a term, no term is empty, all variables exist. -/
def MinMaxOK (n : Nat) (terms : List (List Nat)) : Prop :=
  terms ≠ [] ∧ ∀ t ∈ terms, t ≠ [] ∧ ∀ i ∈ t, i < n

/-- `evaluate_expression` of a min-max expression is the greatest over the terms of the least value of a
variable of the term. -/
theorem C56_evaluate_minmax {n : Nat} {terms : List (List Nat)} (h : MinMaxOK n terms) {x : Asg}
    (hx : ∀ i < n, x i ≤ 2147483647) : evaluateMinMax terms (toList n x) = .ok (minMaxVal terms x) :=
  evaluateMinMax_ok h.1 fun t ht => ⟨(h.2 t ht).1, fun i hi => ⟨(h.2 t ht).2 i hi, hx i ((h.2 t ht).2 i hi)⟩⟩

/-- `minMaxVal` reads as it should. -/
theorem C56_minmax_value {n : Nat} {terms : List (List Nat)} (h : MinMaxOK n terms) (x : Asg) (v : Int) :
    v ≤ minMaxVal terms x ↔ ∃ t ∈ terms, ∀ i ∈ t, v ≤ x i := by
  have ht : ∀ t ∈ terms, (v ≤ termVal t x ↔ ∀ i ∈ t, v ≤ x i) := by
    intro t ht
    unfold termVal
    cases e : (t.map fun i => (x i : Int)).min? with
    | none => simp [List.min?_eq_none_iff, (h.2 t ht).1] at e
    | some m =>
        rw [Option.getD_some, List.le_min?_iff e]
        simp
  unfold minMaxVal
  cases e : (terms.map fun t => termVal t x).max? with
  | none => simp [List.max?_eq_none_iff, h.1] at e
  | some m =>
      rw [Option.getD_some]
      constructor
      · intro hv
        obtain ⟨t, ht', rfl⟩ := List.mem_map.1 (List.max?_mem e)
        exact ⟨t, ht', (ht t ht').1 hv⟩
      · rintro ⟨t, ht', hv⟩
        exact ((ht t ht').2 hv).trans ((List.max?_le_iff e).1 le_rfl _ (List.mem_map_of_mem ht'))

/-- `evaluate_expression` of an expression tree computes minima and maxima. -/
theorem C56_evaluate_tree {n : Nat} {e : ExprNode} (h : ∀ i ∈ e.vars, i < n) (x : Asg) :
    evaluateNode (toList n x) e = .ok (nodeVal x e) := evaluateNode_ok h

example : MinMaxOK 3 [[0, 1], [2, 1, 2]] ∧ evaluateMinMax [[0, 1], [2, 1, 2]] [0, 5, 4] = .ok 4 ∧
    evaluateNode [0, 5, 4] (.operation true (.variableN 1) (.operation false (.constantN 1) (.variableN 2))) = .ok 4 :=
  ⟨⟨by decide, by decide⟩, by rfl, by rfl⟩

/-- Evaluating an expression over the whole domain, in the manager's order, and giving the values to
`from_vector` makes a diagram of the expression. -/
theorem C56_from_vector (hP : P.OK) (h : Reachable P w σ) (hfit : CountFits P.c) {order : List Nat}
    (ho : exec P.c .getOrder w = .ok (.nats order, w)) {eval : List Nat → Except Err Int} {f : Asg → Int}
    (he : ∀ x, InDomain P.c.n P.c.dom x → eval (toList P.c.n x) = .ok (f x) ∧ TermOK P.c (f x)) :
    ∃ it vs, DomIter.ofOrder (toList P.c.n P.c.dom) order = .ok it ∧
      (∀ fuel, domProd P.c.dom order < fuel → DomIter.forEach eval fuel it = .ok vs) ∧
      Makes P w (.fromVector vs) f := by
  have R := reachable_rel hP h
  have heq := order_eq hP h ho
  have hp : order.Perm (List.range P.c.n) := by rw [heq]; exact R.perm
  have hnd : order.Nodup := by rw [heq]; exact R.nodup
  have hlen : (toList P.c.n P.c.dom).length = P.c.n := by simp [toList]
  have hsz : ∀ i ∈ order, sizes (toList P.c.n P.c.dom) i = P.c.dom i := by
    intro i hi
    have hi : i < P.c.n := List.mem_range.1 (hp.mem_iff.1 hi)
    rw [sizes, List.getD_eq_getElem?_getD, getElem?_toList _ hi]; rfl
  have h0 : order ≠ [] := by
    rintro rfl
    have := hp.length_eq
    have := hP.vars
    simp at *
    omega
  obtain ⟨it, e, hit⟩ := ofOrder_forEach (domains := toList P.c.n P.c.dom) h0 hnd
    (by rw [hlen]; intro i hi; exact List.mem_range.1 (hp.mem_iff.1 hi))
    (by intro i hi; rw [hsz i hi]; exact hP.cfg.1 i (List.mem_range.1 (hp.mem_iff.1 hi)))
  have hpr : (order.map (sizes (toList P.c.n P.c.dom))).prod = domProd P.c.dom order := by
    rw [domProd, List.map_congr_left hsz]
  have has := assignments_congr (vars := order) hsz
  rw [hpr] at hit
  simp only [hlen] at hit
  have hmem : ∀ x ∈ assignments P.c.dom order, InDomain P.c.n P.c.dom x :=
    fun x hx => inDomain_of_mem hp hx
  refine ⟨it, (assignments P.c.dom order).map f, e, ?_, ?_⟩
  · intro fuel hf
    have := hit (g := eval) (g' := f) (fuel := fuel) (fun x hx => (he x (hmem x (has ▸ hx))).1) hf
    rw [this, has]
  · subst heq
    refine makes (k := .fromVector _) hP h ⟨hfit, ?_, ?_⟩ rfl ?_
    · rw [List.length_map, length_assignments]
      exact (hp.map P.c.dom).prod_eq
    · intro v hv
      obtain ⟨x, hx, rfl⟩ := List.mem_map.1 hv
      exact (he x (hmem x hx)).2
    · intro x hx
      refine getD_truthVector hnd (fun i hi => hx i (List.mem_range.1 (hp.mem_iff.1 hi))) ?_
      intro y hy
      have hxy : toList P.c.n y = toList P.c.n x := by
        refine List.map_congr_left fun i hi => ?_
        exact hy i (hp.mem_iff.2 hi)
      have hyd : InDomain P.c.n P.c.dom y := fun i hi => by
        rw [hy i (hp.mem_iff.2 (List.mem_range.2 hi))]; exact hx i hi
      have h1 := (he x hx).1
      have h2 := (he y hyd).1
      rw [hxy, h1] at h2
      exact (Except.ok.inj h2).symm

/-- max(min(x0, x1), x2) over the order 2, 0, 1 -/
example : ∃ w σ, Reachable bdd3 w σ ∧ ∃ it, DomIter.ofOrder [2, 2, 2] [2, 0, 1] = .ok it ∧
    DomIter.forEach (evaluateMinMax [[0, 1], [2]]) 9 it = .ok [0, 0, 0, 1, 1, 1, 1, 1] ∧
    Makes bdd3 w (.fromVector [0, 0, 0, 1, 1, 1, 1, 1]) (fun x => max (min (x 0) (x 1)) (x 2)) := by
  obtain ⟨w, h⟩ := bdd3_world
  obtain ⟨o, e', ho⟩ := asks (k := .getOrder) bdd3_ok h trivial rfl
  cases ho
  obtain ⟨it, vs, e1, e2, e3⟩ := C56_from_vector (eval := evaluateMinMax [[0, 1], [2]])
    (f := minMaxVal [[0, 1], [2]]) bdd3_ok h (show 3 < 63 by decide) e' (by
      intro x hx
      have h0 : x 0 < 2 := hx 0 (by decide)
      have h1 : x 1 < 2 := hx 1 (by decide)
      have h2 : x 2 < 2 := hx 2 (by decide)
      refine ⟨C56_evaluate_minmax ⟨by decide, by decide⟩ ?_, ?_⟩
      · intro i hi
        have : x i < 2 := hx i hi
        omega
      · have e : minMaxVal [[0, 1], [2]] x = max (min (x 0 : Int) (x 1)) (x 2) := rfl
        rw [e]
        exact term1_bdd3.of_le (by omega) (by omega))
  have e4 := e2 9 (by decide)
  have e5 : DomIter.ofOrder [2, 2, 2] [2, 0, 1] = .ok it := e1
  have hvs : vs = [0, 0, 0, 1, 1, 1, 1, 1] := by
    cases e5
    have : DomIter.forEach (evaluateMinMax [[0, 1], [2]]) 9 ⟨[2, 2, 2], [1, 0, 2], [0, 0, 0]⟩ =
      .ok [0, 0, 0, 1, 1, 1, 1, 1] := by rfl
    exact (Except.ok.inj (this.symm.trans e4)).symm
  subst hvs
  exact ⟨w, _, h, it, e5, e4, e3⟩

/-- `make_diagram` makes a diagram of a min-max expression, by left folds and by tree folds, and leaves the
other diagrams alone. -/
theorem C56_make_diagram (hP : P.OK) (h : Reachable P w σ) (hauto : σ.auto = false) (hcache : σ.cacheOK = true)
    (hd : ∀ i < P.c.n, (P.c.dom i : Int) ≤ Nondetermined) (tree : Bool) (hmin : P.Γ Op.MIN.id = Op.MIN)
    (hmax : P.Γ (opType P.c Op.MAX).id = opType P.c Op.MAX) {terms : List (List Nat)}
    (ht : MinMaxOK P.c.n terms) :
    ∃ k w', makeDiagram P.c tree terms w = .ok (k, w') ∧ Denotes P w' k (minMaxVal terms) ∧
      ∀ a f, Denotes P w a f → Denotes P w' a f := by
  obtain ⟨k, w', e, T, g, hr, hg, _, hk, hT, _⟩ := makeDiagram_ok hP hd h hauto hcache tree hmin hmax ht.1 ht.2
  have R' := reachable_rel hP hr
  refine ⟨k, w', e, (R'.denotes (f := g) hk).congr hg, fun a f ha => ?_⟩
  obtain ⟨f', hf, s⟩ := (reachable_rel hP h).of_denotes ha
  refine (R'.denotes (f := f') ?_).congr s
  show T[a]? = _
  rw [hT a hf.lt]
  exact hf

/-- max(min(x0, x1), min(x1, x2)) -/
example : ∃ w σ, Reachable mdd3 w σ ∧ ∃ k w', makeDiagram mdd3.c true [[0, 1], [1, 2]] w = .ok (k, w') ∧
    Denotes mdd3 w' k (fun x => max (min (x 0) (x 1)) (min (x 1) (x 2))) := by
  obtain ⟨w, h⟩ := mdd3_world
  obtain ⟨k, w', e, hd, _⟩ := C56_make_diagram (terms := [[0, 1], [1, 2]]) mdd3_ok h rfl rfl
    (by intro i _; simp only [mdd3]; split <;> decide) true rfl rfl ⟨by decide, by decide⟩
  exact ⟨w, _, h, k, w', e, hd⟩

example : ∃ w σ, Reachable bdd3 w σ ∧ ∃ k w', makeDiagram bdd3.c false [[0, 1], [2]] w = .ok (k, w') ∧
    Denotes bdd3 w' k (fun x => max (min (x 0) (x 1)) (x 2)) := by
  obtain ⟨w, h⟩ := bdd3_world
  obtain ⟨k, w', e, hd, _⟩ := C56_make_diagram (terms := [[0, 1], [2]]) bdd3_ok h rfl rfl
    (by intro i _; simp only [bdd3]; decide) false rfl rfl ⟨by decide, by decide⟩
  exact ⟨w, _, h, k, w', e, hd⟩

/-- `make_diagram` of an expression tree makes a diagram of its value. -/
theorem C56_make_diagram_tree (hP : P.OK) (h : Reachable P w σ) (hauto : σ.auto = false)
    (hd : ∀ i < P.c.n, (P.c.dom i : Int) ≤ Nondetermined) {e : ExprNode} (hv : ∀ i ∈ e.vars, i < P.c.n)
    (hc : ∀ v ∈ e.consts, TermOK P.c v ∧ v ≠ Nondetermined) :
    Makes P w (.fromExpr e.toExpr) (fun x => nodeVal x e) :=
  makes (k := .fromExpr e.toExpr) hP h (toExpr_ok hP hd hv hc) rfl fun x _ => toExpr_val x e

/-- min(x1, max(1, x2)) -/
example : ∃ w σ, Reachable mdd3 w σ ∧ Makes mdd3 w
    (.fromExpr (ExprNode.operation true (.variableN 1) (.operation false (.constantN 1) (.variableN 2))).toExpr)
    (fun x => min (x 1) (max 1 (x 2))) := by
  obtain ⟨w, h⟩ := mdd3_world
  refine ⟨w, _, h, C56_make_diagram_tree
    (e := .operation true (.variableN 1) (.operation false (.constantN 1) (.variableN 2))) mdd3_ok h rfl ?_ ?_ ?_⟩
  · intro i _; simp only [mdd3]; split <;> decide
  · simp only [ExprNode.vars]; decide
  · intro v hv
    simp only [ExprNode.consts, List.nil_append, List.append_nil, List.mem_singleton] at hv
    subst hv
    exact ⟨⟨by decide, fun h => by cases h⟩, by decide⟩

/-! ## C57 -/

/-- `make_expression_tree`, whatever the random numbers and the order in which the compiler evaluates the
arguments: a tree with exactly the variables 0, …, n - 1 in its leaves, each once.

Missing for the full property: zero variables (`C57_violated_zero`). -/
theorem C57_tree_partial {ch : Nat → Choice} (hc : ∀ p, 2 ≤ (ch p).denom) {n : Nat} (hn : 1 ≤ n) :
    ∃ e, makeTree ch n = .ok e ∧ e.vars.Perm (List.range n) ∧ e.consts = [] ∧
      ((∀ p, (ch p).leftFirst = true) → e.vars = List.range n) := by
  obtain ⟨e, s, h, _, ⟨h1, h2⟩, h3⟩ := treeGo_ok hc n n ⟨0, 0⟩ hn (Nat.le_refl n)
  refine ⟨e, by simp only [makeTree, h]; rfl, ?_, h2, ?_⟩
  · rw [List.range_eq_range']; exact h1
  · intro h'; rw [List.range_eq_range']; exact h3 h'

example : makeTree (fun p => ⟨2 + p % 2, p % 2 == 0, p % 3 != 0⟩) 4 = .ok
    (.operation true (.operation true (.variableN 2) (.variableN 3))
      (.operation false (.variableN 0) (.variableN 1))) := by rfl

/-- Missing precondition of `make_expression_tree`: for zero variables the recursion does not end. -/
theorem C57_violated_zero {ch : Nat → Choice} (hc : ∀ p, 2 ≤ (ch p).denom) (fuel : Nat) (s : GenState) :
    treeGo ch fuel 0 s = .error .fuel := treeGo_zero hc fuel s

/-- `make_minmax_expression` gives as many terms as asked for, all of the size asked for, with existing
variables only. -/
theorem C57_minmax (asserts : Bool) {draw : Nat → Nat} {n : Nat} (hn : 1 ≤ n) (hd : ∀ k, draw k < n)
    (termCount termSize : Nat) :
    ∃ terms, makeMinMax asserts draw n termCount termSize = .ok terms ∧ terms.length = termCount ∧
      ∀ t ∈ terms, t.length = termSize ∧ ∀ i ∈ t, i < n := by
  refine ⟨_, by rw [makeMinMax, if_neg (by omega)], by simp, ?_⟩
  intro t ht
  obtain ⟨j, _, rfl⟩ := List.mem_map.1 ht
  refine ⟨by simp, fun i hi => ?_⟩
  obtain ⟨k, _, rfl⟩ := List.mem_map.1 hi
  exact hd _

example : makeMinMax true (fun k => k * k % 3) 3 2 3 = .ok [[0, 1, 1], [0, 1, 1]] := by rfl

/-! ## C58 -/

/-- `make_probability_matrix<M>`: one row per variable; row `i` has `M` entries, none negative, zero from the
size of the domain on, and they sum to one. -/
theorem C58_matrix {M : Nat} {domains : List Nat} {draw : Nat → Nat → Rat} (hM : ∀ d ∈ domains, 0 < d ∧ d ≤ M)
    (h0 : ∀ i j, 0 ≤ draw i j) (hpos : ∀ i < domains.length, ∃ j < domains.getD i 0, draw i j ≠ 0) :
    ∃ rows, probMatrix M domains draw = .ok rows ∧ rows.length = domains.length ∧
      ∀ i < domains.length, (rows.getD i []).length = M ∧ (rows.getD i []).sum = 1 ∧
        (∀ p ∈ rows.getD i [], 0 ≤ p) ∧ ∀ j, domains.getD i 0 ≤ j → (rows.getD i []).getD j 0 = 0 :=
  probMatrix_ok hM h0 hpos

example : probMatrix 3 [2, 3] (fun i j => (i + j + 1 : Nat) / 8) = .ok [[1/3, 2/3, 0], [2/9, 3/9, 4/9]] := by
  decide +kernel

end Properties
end Teddy
