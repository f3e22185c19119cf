import Verif.Proofs.CostTransform
import Verif.Properties.Diagrams
import Verif.Properties.Reordering

/-!
# C84: transform, negate, reduce and get_cofactor look at every node once

A step is a call of the recursive function (`transform_impl`, `get_cofactor_impl`); `transform` calls the user's function at
most once in each.
-/

namespace Teddy
namespace Properties

open SM Spec

variable {P : Setup} {w w' : World} {σ : SState} {o : Out}

/-- The counter of steps changes nothing: a call with the counter succeeds whenever the call without it does, with the same
result and the same effect. -/
theorem C84_counter (c : Cfg) (k : Call) (w w' : World) (o : Out) :
    exec c k w = .ok (o, w') ↔ ∃ n, execSteps c k w = .ok ((o, n), w') :=
  ⟨of_fst (execSteps_fst c k), fun ⟨_, e⟩ => to_fst (execSteps_fst c k) e⟩

/-- The nodes of the diagram of handle `a`, each once. -/
def NodesOf (w : World) (a : Nat) (vs : List Ptr) : Prop :=
  ∃ p, w.slots[a]? = some (some p) ∧ vs.Nodup ∧ ∀ q, q ∈ vs ↔ Reach w.mgr.kind p q

/-- The call returned `o`, in `n` steps: one step for the root, and at most one for each son of each node.  `D` bounds the
domains.  The number of nodes is what `get_node_count(a)` says if no node is marked by mistake (see C24). -/
def Linear (P : Setup) (σ : SState) (w w' : World) (o : Out) (a : Nat) (call : Call) : Prop :=
  ∃ n vs, execSteps P.c call w = .ok ((o, n), w') ∧ NodesOf w a vs ∧
    (σ.clean = true → exec P.c (.nodeCountOf a) w = .ok (.nat vs.length, w)) ∧
    ∀ D, (∀ i, i < P.c.n → P.c.dom i ≤ D) → n ≤ 1 + D * vs.length

private theorem linear (hP : P.OK) (h : Reachable P w σ) {a : Nat} {p : Ptr}
    {m : Ptr → M (Ptr × Nat)} {call : Call} (hp : w.slots[a]? = some (some p))
    (hm : execSteps P.c call = (do
      let p ← rootOf a
      let r ← onMgr (m p)
      let o ← push r.1
      pure (o, r.2)))
    (hle : ∀ vs : List Ptr, vs.Nodup → (∀ q, q ∈ vs ↔ Reach w.mgr.kind p q) → ∀ d n s',
      m p w.mgr = .ok ((d, n), s') → n ≤ 1 + (vs.map fun q => (w.mgr.sonsOf q).length).sum)
    (e : exec P.c call w = .ok (o, w')) : Linear P σ w w' o a call := by
  have R := reachable_rel hP h
  obtain ⟨n, e'⟩ := (C84_counter _ _ _ _ _).1 e
  obtain ⟨vs, h4, h5⟩ := nodes_list R.good.inv (R.used hp)
  refine ⟨n, vs, e', ⟨p, hp, h4, h5⟩, fun hclean => ?_, fun D hD => ?_⟩
  · obtain ⟨k, s', e2, rfl, us, h6, h7, rfl⟩ := nodeCountOf_ok R.good.inv R.good.ord (R.used hp) (R.cleanBelow hclean p)
    have hlen : us.length = vs.length :=
      ((List.perm_ext_iff_of_nodup h6 h4).2 fun q => (h7 q).trans (h5 q).symm).length_eq
    simp only [exec]
    rw [bind_ok (rootOf_ok hp), bind_ok (a := us.length) (s' := w)
      (by simp only [onMgr, show nodeCountOf P.c p w.mgr = _ from e2]), hlen]
    rfl
  · rw [hm, bind_ok (rootOf_ok hp)] at e'
    obtain ⟨d, s', e3⟩ := making_count e'
    have h6 := hle vs h4 h5 d n s' e3
    have h7 := sons_sum_le (E := envOf P σ) R.good.inv (R.used hp) h5 hD
    omega

/-- `transform(d, g)`, for every function `g` that returns values a terminal node can hold. -/
theorem C84_transform (hP : P.OK) (h : Reachable P w σ) {a : Nat} {f : Asg → Int}
    (ha : Denotes P w a f) {t : Int → Int} (ht : ∀ v, Range P.c f v → TermOK P.c (t v))
    (e : exec P.c (.transform t a) w = .ok (o, w')) : Linear P σ w w' o a (.transform t a) := by
  have R := reachable_rel hP h
  obtain ⟨f', hf, e1⟩ := R.of_denotes ha
  obtain ⟨p, hp, hd⟩ := R.has a f' hf
  refine linear hP h hp (m := transformCost P.c t) rfl (fun vs h1 h2 d n s' e3 => ?_) e
  refine transformCost_le (E := envOf P σ) R.good (.root (.inr (.inl (extL_pos hp)))) h1 h2 (fun b hb => ht b ?_) e3
  rw [← e1.range]
  exact (leafVal_iff R.good (R.used hp) hd).1 hb

/-- `negate(d)` of a Boolean function. -/
theorem C84_negate (hP : P.OK) (h : Reachable P w σ) {a : Nat} {f : Asg → Int}
    (ha : Denotes P w a f) (ht : ∀ v, Range P.c f v → TermOK P.c (1 - v))
    (e : exec P.c (.negate a) w = .ok (o, w')) : Linear P σ w w' o a (.negate a) := by
  have R := reachable_rel hP h
  obtain ⟨f', hf, e1⟩ := R.of_denotes ha
  obtain ⟨p, hp, hd⟩ := R.has a f' hf
  refine linear hP h hp (m := transformCost P.c fun v => 1 - v) rfl (fun vs h1 h2 d n s' e3 => ?_) e
  refine transformCost_le (E := envOf P σ) R.good (.root (.inr (.inl (extL_pos hp)))) h1 h2 (fun b hb => ht b ?_) e3
  rw [← e1.range]
  exact (leafVal_iff R.good (R.used hp) hd).1 hb

/-- `reduce(d)`; also for a diagram that is not reduced, as after a reordering. -/
theorem C84_reduce (hP : P.OK) (h : Reachable P w σ) {a : Nat} {f : Asg → Int}
    (ha : Denotes P w a f) (ht : ∀ v, Range P.c f v → TermOK P.c v)
    (e : exec P.c (.reduce a) w = .ok (o, w')) : Linear P σ w w' o a (.reduce a) := by
  have R := reachable_rel hP h
  obtain ⟨f', hf, e1⟩ := R.of_denotes ha
  obtain ⟨p, hp, hd⟩ := R.has a f' hf
  refine linear hP h hp (m := transformCost P.c fun v => v) rfl (fun vs h1 h2 d n s' e3 => ?_) e
  refine transformCost_le (E := envOf P σ) R.good (.root (.inr (.inl (extL_pos hp)))) h1 h2 (fun b hb => ht b ?_) e3
  rw [← e1.range]
  exact (leafVal_iff R.good (R.used hp) hd).1 hb

/-- `get_cofactor(d, i, v)`, with automatic reordering or without. -/
theorem C84_cofactor (hP : P.OK) (h : Reachable P w σ) {a i v : Nat} {f : Asg → Int}
    (ha : Denotes P w a f) (hv : i < P.c.n → v < P.c.dom i) :
    ∃ o w', exec P.c (.cofactor a i v) w = .ok (o, w') ∧ Linear P σ w w' o a (.cofactor a i v) := by
  have R := reachable_rel hP h
  obtain ⟨f', hf, e1⟩ := R.of_denotes ha
  obtain ⟨p, hp, hd⟩ := R.has a f' hf
  obtain ⟨o, w', e, -⟩ := cofactor_sim R (k := .cofactor a i v) rfl ⟨⟨f', hf⟩, hv⟩
  exact ⟨o, w', e, linear hP h hp (m := fun p => getCofactorCost P.c p i v) rfl (fun vs h1 h2 d n s' e3 =>
    getCofactorCost_le (E := envOf P σ) R.good (.root (.inr (.inl (extL_pos hp)))) h1 h2 hv e3) e⟩

/-- `get_cofactor(d, vars)`, with automatic reordering or without. -/
theorem C84_cofactors (hP : P.OK) (h : Reachable P w σ) {a : Nat} {vars : List (Nat × Nat)}
    {f : Asg → Int} (ha : Denotes P w a f) (hv : ∀ v ∈ vars, v.1 < P.c.n → v.2 < P.c.dom v.1) :
    ∃ o w', exec P.c (.cofactors a vars) w = .ok (o, w') ∧ Linear P σ w w' o a (.cofactors a vars) := by
  have R := reachable_rel hP h
  obtain ⟨f', hf, e1⟩ := R.of_denotes ha
  obtain ⟨p, hp, hd⟩ := R.has a f' hf
  obtain ⟨o, w', e, -⟩ := cofactor_sim R (k := .cofactors a vars) rfl ⟨⟨f', hf⟩, hv⟩
  exact ⟨o, w', e, linear hP h hp (m := fun p => getCofactorsCost P.c p vars) rfl (fun vs h1 h2 d n s' e3 =>
    getCofactorsCost_le (E := envOf P σ) R.good (.root (.inr (.inl (extL_pos hp)))) h1 h2 hv e3) e⟩

/-- x0 ∧ x1: negated, reduced, transformed and restricted. -/
example : ∃ w σ, Reachable bdd3 w σ ∧ σ.clean = true ∧
    (∃ o w', exec bdd3.c (.negate 2) w = .ok (o, w') ∧ Linear bdd3 σ w w' o 2 (.negate 2)) ∧
    (∃ o w', exec bdd3.c (.reduce 2) w = .ok (o, w') ∧ Linear bdd3 σ w w' o 2 (.reduce 2)) ∧
    (∃ o w', exec bdd3.c (.transform (fun v => v * v) 2) w = .ok (o, w') ∧
      Linear bdd3 σ w w' o 2 (.transform (fun v => v * v) 2)) ∧
    (∃ o w', exec bdd3.c (.cofactor 2 1 1) w = .ok (o, w') ∧ Linear bdd3 σ w w' o 2 (.cofactor 2 1 1)) ∧
    ∃ o w', exec bdd3.c (.cofactors 2 [(0, 1), (1, 1)]) w = .ok (o, w') ∧
      Linear bdd3 σ w w' o 2 (.cofactors 2 [(0, 1), (1, 1)]) := by
  obtain ⟨w, h⟩ := bdd3_world
  have ha := (reachable_rel bdd3_ok h).denotes (a := 2) rfl
  have hr : ∀ v, Range bdd3.c (fun x => Op.AND.val (x 0) (x 1)) v → v = 0 ∨ v = 1 := by
    rintro v ⟨x, hx, rfl⟩
    exact bdd3_bits (fun x => Op.AND.val (x 0) (x 1)) (by simp) x hx
  have t0 : TermOK bdd3.c 0 := ⟨by decide, fun _ m h => by cases h; decide⟩
  have t1 := term1_bdd3
  have n2 : ∀ v, Range bdd3.c (fun x => Op.AND.val (x 0) (x 1)) v → TermOK bdd3.c (1 - v) := by
    intro v hv
    rcases hr v hv with rfl | rfl
    · exact t1
    · exact t0
  have r2 : ∀ v, Range bdd3.c (fun x => Op.AND.val (x 0) (x 1)) v → TermOK bdd3.c v := by
    intro v hv
    rcases hr v hv with rfl | rfl
    · exact t0
    · exact t1
  have s2 : ∀ v, Range bdd3.c (fun x => Op.AND.val (x 0) (x 1)) v → TermOK bdd3.c (v * v) := by
    intro v hv
    rcases hr v hv with rfl | rfl
    · exact t0
    · exact t1
  obtain ⟨w1, e1, -⟩ := C05_negate bdd3_ok h rfl ha n2
  obtain ⟨w2, e2, -⟩ := C44_reduce_partial bdd3_ok h rfl ha r2
  obtain ⟨w3, e3, -⟩ := C05_transform bdd3_ok h rfl ha s2
  exact ⟨w, _, h, rfl, ⟨_, w1, e1, C84_negate bdd3_ok h ha n2 e1⟩, ⟨_, w2, e2, C84_reduce bdd3_ok h ha r2 e2⟩,
    ⟨_, w3, e3, C84_transform bdd3_ok h ha s2 e3⟩,
    C84_cofactor bdd3_ok h ha (fun _ => by decide), C84_cofactors bdd3_ok h ha (by decide)⟩

end Properties
end Teddy
