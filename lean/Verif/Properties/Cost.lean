import Verif.Proofs.Parity
import Verif.Properties.Queries

/-!
# C81: Running times the documentation states

`evaluate` O(n), `satisfy_count` O(nodes), `satisfy_one` O(nodes), `satisfy_all` O(n · size of the answer)
(diagram_manager.hpp:410, 426, 438, 456).  A step is a node `evaluate` looks at, a node `satisfy_count` computes a number
for, a call of `satisfy_one_impl` or a call of `satisfy_all_impl`.
-/

namespace Teddy
namespace Properties

open SM Spec

variable {P : Setup} {w : World} {σ : SState}

/-- The counter of steps changes nothing: a call with the counter succeeds whenever the call without it does, with the same
result and the same effect. -/
theorem C81_counter (c : Cfg) (k : Call) (w w' : World) (o : Out) :
    exec c k w = .ok (o, w') ↔ ∃ n, execCost c k w = .ok ((o, n), w') :=
  ⟨of_fst (execCost_fst c k), fun ⟨_, e⟩ => to_fst (execCost_fst c k) e⟩

/-- `evaluate` looks at no more than one node for each variable and the terminal node, in every state. -/
theorem C81_evaluate (hP : P.OK) (h : Reachable P w σ) {a : Nat} {f : Asg → Int} (ha : Denotes P w a f) {x : Asg}
    (hx : InDomain P.c.n P.c.dom x) :
    ∃ n, execCost P.c (.evaluate a x) w = .ok ((.int (f x), n), w) ∧ n ≤ P.c.n + 1 := by
  have R := reachable_rel hP h
  obtain ⟨f', hf, e1⟩ := R.of_denotes ha
  obtain ⟨p, hp, hd⟩ := R.has a f' hf
  obtain ⟨n, e, hn⟩ := evalCost_ok R.good.inv R.good.ord (P.c.n + 1) p (f' x) (R.used hp) (hd x hx)
    (show P.c.n - _ < P.c.n + 1 by omega)
  refine ⟨n, ?_, hn.trans (Nat.succ_le_succ (Nat.sub_le _ _))⟩
  simp only [execCost]
  rw [bind_ok (rootOf_ok hp), bind_ok (a := (f' x, n)) (s' := w) (by simp only [onMgr, e]), e1 x hx]
  rfl

/-- x0 ∧ x1. -/
example : ∃ w σ n, Reachable bdd3 w σ ∧ execCost bdd3.c (.evaluate 2 fun _ => 1) w = .ok ((.int 1, n), w) ∧ n ≤ 4 := by
  obtain ⟨w, h⟩ := bdd3_world
  obtain ⟨n, e, hn⟩ := C81_evaluate bdd3_ok h ((reachable_rel bdd3_ok h).denotes (a := 2) rfl) (x := fun _ => 1)
    (fun i _ => show 1 < 2 by decide)
  exact ⟨w, _, n, h, e, hn⟩

/-- `satisfy_count` computes as many numbers as the diagram has nodes, in every state without stale marks. -/
theorem C81_satisfy_count_partial (hP : P.OK) (h : Reachable P w σ) (hclean : σ.clean = true) (hfit : CountFits P.c) {a : Nat}
    {f : Asg → Int} (ha : Denotes P w a f) {v : Int} (hv : ValueOK P v) :
    ∃ n, execCost P.c (.satisfyCount v a) w = .ok ((.int (countValue P.c.n P.c.dom f v : Nat), n), w) ∧
      exec P.c (.nodeCountOf a) w = .ok (.nat n, w) := by
  have R := reachable_rel hP h
  have e := C08_satisfy_count_partial hP h hclean hfit ha hv
  obtain ⟨f', hf, -⟩ := R.of_denotes ha
  obtain ⟨p, hp, -⟩ := R.has a f' hf
  obtain ⟨n, e'⟩ := (C81_counter _ _ _ _ _).1 e
  refine ⟨n, e', ?_⟩
  simp only [execCost] at e'
  rw [bind_ok (rootOf_ok hp), bind_run] at e'
  cases hm : satisfyCountCost P.c v p w.mgr with
  | error x => simp only [onMgr, hm] at e'; cases e'
  | ok r =>
      obtain ⟨⟨r, m⟩, S'⟩ := r
      simp only [onMgr, hm, pure_run, Except.ok.injEq, Prod.mk.injEq] at e'
      obtain ⟨vs, h1, h2, h3⟩ := satisfyCountCost_ok R.good.inv R.good.ord (R.used hp) (R.cleanBelow hclean p) hm
      obtain ⟨k, s', e2, rfl, us, h4, h5, rfl⟩ := nodeCountOf_ok R.good.inv R.good.ord (R.used hp) (R.cleanBelow hclean p)
      have hlen : us.length = vs.length :=
        ((List.perm_ext_iff_of_nodup h4 h1).2 fun q => (h5 q).trans (h2 q).symm).length_eq
      simp only [exec]
      rw [bind_ok (rootOf_ok hp), bind_ok (a := us.length) (s' := w)
        (by simp only [onMgr, show nodeCountOf P.c p w.mgr = _ from e2])]
      rw [hlen, ← h3, e'.1.2]
      rfl

example : ∃ w σ n, Reachable bdd3 w σ ∧ execCost bdd3.c (.satisfyCount 1 2) w = .ok ((.int 2, n), w) ∧
    exec bdd3.c (.nodeCountOf 2) w = .ok (.nat n, w) := by
  obtain ⟨w, h⟩ := bdd3_world
  obtain ⟨n, e, hn⟩ := C81_satisfy_count_partial bdd3_ok h rfl (show 3 < 63 by decide)
    ((reachable_rel bdd3_ok h).denotes (a := 2) rfl) (v := 1) (fun m hm _ => by cases hm; decide)
  rw [show countValue bdd3.c.n bdd3.c.dom (fun x => Op.AND.val (x 0) (x 1)) 1 = 2 by decide +kernel] at e
  exact ⟨w, _, n, h, e, hn⟩

/-- `satisfy_one` for a value of a function with two values: the number of calls is at most linear in the number of
nodes, and in the number of variables.  `D` bounds the domains.

Missing for the full property: functions with three or more values (`C81_violated`), and diagrams made before a reordering
and not reduced since. -/
theorem C81_satisfy_one_partial (hP : P.OK) (h : Reachable P w σ) (hclean : σ.clean = true) (hcanon : σ.canon = true) {a : Nat}
    {f : Asg → Int} (ha : Denotes P w a f) {v u : Int} (hv : ValueOK P v)
    (htwo : ∀ x, InDomain P.c.n P.c.dom x → f x = v ∨ f x = u) :
    ∃ r n k, execCost P.c (.satisfyOne v a) w = .ok ((.asg r, n), w) ∧ exec P.c (.nodeCountOf a) w = .ok (.nat k, w) ∧
      ∀ D, (∀ i, i < P.c.n → P.c.dom i ≤ D) → n ≤ 1 + D * k ∧ n ≤ 1 + D * P.c.n := by
  have R := reachable_rel hP h
  obtain ⟨f', hf, e1⟩ := R.of_denotes ha
  obtain ⟨p, hp, hd⟩ := R.has a f' hf
  have hu := R.used hp
  have hi : Inv P.c (extW w) [] w.mgr := R.good.inv
  have hor : Ordered P.c w.mgr := R.good.ord
  obtain ⟨o, e, r, rfl, -⟩ := asks (k := .satisfyOne v a) hP h ⟨⟨f', hf⟩, hv⟩ rfl
  obtain ⟨n, e'⟩ := (C81_counter _ _ _ _ _).1 e
  obtain ⟨k, s', e2, rfl, vs, h4, h5, rfl⟩ := nodeCountOf_ok R.good.inv R.good.ord hu (R.cleanBelow hclean p)
  refine ⟨r, n, vs.length, e', ?_, ?_⟩
  · simp only [exec]
    rw [bind_ok (rootOf_ok hp), bind_ok (a := vs.length) (s' := w)
      (by simp only [onMgr, show nodeCountOf P.c p w.mgr = _ from e2])]
    rfl
  · have hl : Live P.c w.mgr p v := live_of_two (E := envOf P σ) R.good hcanon hu hd (u := u) fun x hx => by
      rw [e1 x hx]; exact htwo x hx
    have bound : ∀ wt : Nat → Nat, (∀ i, Tested w.mgr p i → P.c.dom i ≤ wt i) → n ≤ 1 + sumFrom P.c w.mgr wt 0 := by
      intro wt hwt
      obtain ⟨b, y, m, e3, hm, -⟩ := satOneCost_ok hi hor hu hl hwt (P.c.n + 1) p (fun _ => 0) 0 .refl
        (show P.c.n - _ < P.c.n + 1 by omega)
      have e4 : satisfyOneCost P.c v p w.mgr =
          .ok ((if b then some ((List.range P.c.n).map y) else none, m), w.mgr) := by
        unfold satisfyOneCost
        rw [bind_ok (assertValue_ok hv), bind_ok e3]
        rfl
      simp only [execCost] at e'
      rw [bind_ok (rootOf_ok hp), bind_run] at e'
      simp only [onMgr, e4, pure_run, Except.ok.injEq, Prod.mk.injEq] at e'
      have := sumFrom_mono (c := P.c) (S := w.mgr) (wt := wt) (Nat.zero_le (w.mgr.levelOf P.c p))
      rw [← e'.1.2]
      refine hm.trans ?_
      omega
    intro D hD
    classical
    refine ⟨(bound (fun i => if Tested w.mgr p i then P.c.dom i else 0) fun i ht => by rw [if_pos ht]).trans
      (Nat.add_le_add_left (sum_tested hD hi.order h5) 1), (bound (fun _ => D) ?_).trans ?_⟩
    · rintro i ⟨q, ss, hr, hk⟩
      exact hD i (hi.sons q i ss (hr.used hi hu) hk).1
    · exact Nat.add_le_add_left (sumFrom_le hi.order fun _ _ => Nat.le_refl D) 1

/-- x0 ∧ x1 in a manager of three variables. -/
example : ∃ w σ r n k, Reachable bdd3 w σ ∧ execCost bdd3.c (.satisfyOne 1 2) w = .ok ((.asg r, n), w) ∧
    exec bdd3.c (.nodeCountOf 2) w = .ok (.nat k, w) ∧ n ≤ 1 + 2 * k ∧ n ≤ 7 := by
  obtain ⟨w, h⟩ := bdd3_world
  obtain ⟨r, n, k, e, hn, hb⟩ := C81_satisfy_one_partial bdd3_ok h rfl rfl
    ((reachable_rel bdd3_ok h).denotes (a := 2) rfl) (v := 1) (u := 0) (fun m hm _ => by cases hm; decide)
    (fun x hx => (bdd3_bits (fun x => Op.AND.val (x 0) (x 1)) (by simp) x hx).symm)
  exact ⟨w, _, r, n, k, h, e, hn, hb 2 fun _ _ => Nat.le_refl 2⟩

/-- `satisfy_all` for a value of a function with two values: the number of calls is at most linear in the product of the number
of variables and the length of the answer.  `D` bounds the domains.

Missing for the full property: functions with three or more values (`C81_violated`), and diagrams made before a reordering
and not reduced since. -/
theorem C81_satisfy_all_partial (hP : P.OK) (h : Reachable P w σ) (hcanon : σ.canon = true) {a : Nat} {f : Asg → Int}
    (ha : Denotes P w a f) {v u : Int} (hv : ValueOK P v) (htwo : ∀ x, InDomain P.c.n P.c.dom x → f x = v ∨ f x = u) :
    ∃ l n, execCost P.c (.satisfyAll v a) w = .ok ((.asgs l, n), w) ∧
      ∀ D, (∀ i, i < P.c.n → P.c.dom i ≤ D) → n ≤ 1 + D * P.c.n * l.length := by
  have R := reachable_rel hP h
  obtain ⟨f', hf, e1⟩ := R.of_denotes ha
  obtain ⟨p, hp, hd⟩ := R.has a f' hf
  have hu := R.used hp
  have hi : Inv P.c (extW w) [] w.mgr := R.good.inv
  have hor : Ordered P.c w.mgr := R.good.ord
  have hl : Live P.c w.mgr p v := live_of_two (E := envOf P σ) R.good hcanon hu hd (u := u) fun x hx => by
    rw [e1 x hx]; exact htwo x hx
  obtain ⟨y, out, m, k, e3, hk, hm⟩ := satAllCost_ok hi hor hP.cfg hu hl (P.c.n + 1) p 0 (fun _ => 0) [] 0 .refl
    (Nat.zero_le _) (by omega)
  have e4 : satisfyAllCost P.c v p w.mgr = .ok ((out, m), w.mgr) := by
    unfold satisfyAllCost
    rw [bind_ok (assertValue_ok hv), bind_ok e3]
    rfl
  refine ⟨out, m, ?_, ?_⟩
  · simp only [execCost]
    rw [bind_ok (rootOf_ok hp), bind_run]
    simp only [onMgr, e4]
    rfl
  · intro D hD
    have hs : sumFrom P.c w.mgr P.c.dom 0 ≤ D * P.c.n := sumFrom_le hi.order hD
    have := Nat.mul_le_mul_left k hs
    simp only [List.length_nil, Nat.zero_add] at hk hm
    rw [hk, Nat.mul_comm (D * P.c.n)]
    omega

example : ∃ w σ l n, Reachable bdd3 w σ ∧ execCost bdd3.c (.satisfyAll 1 2) w = .ok ((.asgs l, n), w) ∧
    n ≤ 1 + 6 * l.length := by
  obtain ⟨w, h⟩ := bdd3_world
  obtain ⟨l, n, e, hb⟩ := C81_satisfy_all_partial bdd3_ok h rfl
    ((reachable_rel bdd3_ok h).denotes (a := 2) rfl) (v := 1) (u := 0) (fun m hm _ => by cases hm; decide)
    (fun x hx => (bdd3_bits (fun x => Op.AND.val (x 0) (x 1)) (by simp) x hx).symm)
  exact ⟨w, _, l, n, h, e, hb 2 fun _ _ => Nat.le_refl 2⟩

/-- **C81.** The diagram of the parity of `n` variables, made with `variable` and `apply<XOR>` in an `imdd_manager` with binary
variables, has at most 2n + 2 nodes.  `satisfy_one(2, d)`, which finds nothing, makes 2^(n+1) − 1 calls; so does
`satisfy_all(2, d)`, whose answer is empty. -/
theorem C81_violated {n : Nat} (hn : 2 ≤ n) : ∃ w σ a k, Reachable (imddN n) w σ ∧
    Denotes (imddN n) w a (fun x => (((List.range n).map x).sum % 2 : Nat)) ∧
    exec (imddN n).c (.nodeCountOf a) w = .ok (.nat k, w) ∧ k ≤ 2 * n + 2 ∧
    execCost (imddN n).c (.satisfyOne 2 a) w = .ok ((.asg none, 2 ^ (n + 1) - 1), w) ∧
    execCost (imddN n).c (.satisfyAll 2 a) w = .ok ((.asgs [], 2 ^ (n + 1) - 1), w) := by
  have hP := imddN_ok hn
  obtain ⟨σ, a, f, ⟨w, h⟩, ho, hcan, -, hclean, -, hf, hpar⟩ := parity_reachable hn (n - 1) (by omega)
  rw [show n - 1 + 1 = n by omega] at hpar
  have R := reachable_rel hP h
  have hden : Denotes (imddN n) w a (parity (List.range n)) := by
    intro x hx
    rw [← hpar x hx]
    exact R.denotes hf x hx
  obtain ⟨o, eo, rfl⟩ := asks (k := .getOrder) hP h trivial rfl
  rw [ho] at eo
  obtain ⟨k, ek, hk⟩ := C23_node_count_partial hP h hclean hcan hden eo
  obtain ⟨p, hp, hd⟩ := R.has a f hf
  have hu := R.used hp
  have hd0 : Den (imddN n).c w.mgr p (parFrom (imddN n).c w.mgr 0 0) := by
    intro x hx
    have := hd x hx
    rw [hpar x hx] at this
    have e : parFrom (imddN n).c w.mgr 0 0 x = parity (List.range n) x := by
      unfold parFrom parity
      rw [varsFrom_zero, R.order, ho, Nat.zero_add]
    rw [e]
    exact this
  have hcn := R.good.canon hcan
  have h2 : ∀ i, i < (imddN n).c.n → (imddN n).c.dom i = 2 := fun _ _ => rfl
  have hval : ∀ m, (imddN n).c.fixedDom = some m → (imddN n).c.asserts = true → (2 : Int) < m := fun m hm => by cases hm
  have hi : Inv (imddN n).c (extW w) [] w.mgr := R.good.inv
  have hor : Ordered (imddN n).c w.mgr := R.good.ord
  obtain ⟨y, e1⟩ := satOneCost_parity hi hor hP.cfg hcn h2 (value := 2) ⟨by decide, by decide⟩ n 0 0 ((imddN n).c.n + 1) p
    (fun _ => 0) 0 rfl (Nat.zero_le _) (Nat.lt_succ_self n) hu hd0
  obtain ⟨z, e2⟩ := satAllCost_parity hi hor hP.cfg hcn h2 (value := 2) ⟨by decide, by decide⟩ n 0 0 ((imddN n).c.n + 1) p
    (fun _ => 0) [] 0 rfl (Nat.zero_le _) (Nat.lt_succ_self n) hu hd0
  refine ⟨w, σ, a, k, h, hden, ek, by have h' : k ≤ 2 * (n + 1) := parity_subfunctions hk; omega, ?_, ?_⟩
  · have e3 : satisfyOneCost (imddN n).c 2 p w.mgr = .ok ((none, 2 ^ (n + 1) - 1), w.mgr) := by
      unfold satisfyOneCost
      rw [bind_ok (assertValue_ok hval), bind_ok e1, Nat.zero_add]
      rfl
    simp only [execCost]
    rw [bind_ok (rootOf_ok hp), bind_run]
    simp only [onMgr, e3]
    rfl
  · have e3 : satisfyAllCost (imddN n).c 2 p w.mgr = .ok (([], 2 ^ (n + 1) - 1), w.mgr) := by
      unfold satisfyAllCost
      rw [bind_ok (assertValue_ok hval), bind_ok e2, Nat.zero_add]
      rfl
    simp only [execCost]
    rw [bind_ok (rootOf_ok hp), bind_run]
    simp only [onMgr, e3]
    rfl

/-- The hypothesis is met, for instance by 40 variables: 82 nodes and more than 10^12 calls. -/
example : ∃ w σ a k m, Reachable (imddN 40) w σ ∧ exec (imddN 40).c (.nodeCountOf a) w = .ok (.nat k, w) ∧ k ≤ 82 ∧
    execCost (imddN 40).c (.satisfyOne 2 a) w = .ok ((.asg none, m), w) ∧ 10 ^ 12 < m := by
  obtain ⟨w, σ, a, k, h, -, e, hk, e', -⟩ := C81_violated (n := 40) (by decide)
  exact ⟨w, σ, a, k, _, h, e, hk, e', by decide⟩

/-- **C81.** No constant bounds the number of calls of `satisfy_one` per node of the diagram, nor that of `satisfy_all` per
variable and assignment found (here counted as one when nothing is found). -/
theorem C81_violated_constant (K : Nat) : ∃ P w σ a r m k l j, P.OK ∧ Reachable P w σ ∧
    execCost P.c (.satisfyOne 2 a) w = .ok ((.asg r, m), w) ∧ exec P.c (.nodeCountOf a) w = .ok (.nat k, w) ∧ K * k < m ∧
    execCost P.c (.satisfyAll 2 a) w = .ok ((.asgs l, j), w) ∧ K * (P.c.n * (l.length + 1)) < j := by
  obtain ⟨w, σ, a, k, h, -, e1, hk, e2, e3⟩ := C81_violated (n := 2 * K + 4) (by omega)
  have big : ∀ n : Nat, (n + 3) * (n + 3) < 2 ^ (n + 5) - 1 := by
    intro n
    induction n with
    | zero => decide
    | succ n ih =>
        have : 2 ^ (n + 1 + 5) = 2 * 2 ^ (n + 5) := by rw [Nat.pow_succ 2 (n + 5), Nat.mul_comm]
        have e : (n + 1 + 3) * (n + 1 + 3) = (n + 3) * (n + 3) + 2 * n + 7 := by ring
        have h2 : 2 * n + 9 ≤ (n + 3) * (n + 3) := by nlinarith
        omega
  have hb := big (2 * K)
  have h1 : K * k < 2 ^ (2 * K + 4 + 1) - 1 := by
    refine Nat.lt_of_le_of_lt ?_ hb
    refine (Nat.mul_le_mul_left K hk).trans ?_
    nlinarith
  have h2 : K * ((2 * K + 4) * (([] : List (List Nat)).length + 1)) < 2 ^ (2 * K + 4 + 1) - 1 := by
    refine Nat.lt_of_le_of_lt ?_ hb
    simp only [List.length_nil]
    nlinarith
  exact ⟨imddN (2 * K + 4), w, σ, a, none, _, k, [], _, imddN_ok (by omega), h, e2, e1, h1, e3, h2⟩

end Properties
end Teddy
