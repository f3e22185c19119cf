import Verif.Proofs.Restore
import Verif.Proofs.OpsLemmas

/-! From the refinement to what a caller can observe. -/

namespace Teddy

open SM Spec

section
variable {P : Setup} {σ : SState} {w : World}

theorem Rel.denotes (R : Rel P σ w) {a : Nat} {f : Asg → Int} (h : σ.Has a f) :
    Denotes P w a f := by
  intro x hx
  obtain ⟨p, hp, hd⟩ := R.has a f h
  simp only [exec]
  rw [bind_ok (rootOf_ok hp), bind_ok (a := f x) (s' := w) ?_]
  · rfl
  · simp only [onMgr]
    rw [show evaluate P.c p x w.mgr = _ from
      evaluate_ok R.good.inv R.good.ord (R.used hp) (hd x hx)]

theorem Rel.valid (R : Rel P σ w) : InDomain P.c.n P.c.dom (fun _ => 0) :=
  fun i hi => R.good.cfg.dom_pos i hi

theorem denotes_same {a : Nat} {f g : Asg → Int} (h : Denotes P w a f)
    (h' : Denotes P w a g) : SameOn P.c.n P.c.dom f g := by
  intro x hx
  have := (h x hx).symm.trans (h' x hx)
  simpa using this

theorem Denotes.congr {a : Nat} {f g : Asg → Int} (h : Denotes P w a f)
    (hfg : SameOn P.c.n P.c.dom f g) : Denotes P w a g := by
  intro x hx
  rw [h x hx, hfg x hx]

theorem Rel.of_denotes (R : Rel P σ w) {a : Nat} {f : Asg → Int} (h : Denotes P w a f) :
    ∃ f', σ.Has a f' ∧ SameOn P.c.n P.c.dom f' f := by
  have h0 := h _ R.valid
  simp only [exec] at h0
  cases hs : w.slots[a]? with
  | none => rw [bind_run, rootOf, hs] at h0; cases h0
  | some o =>
      cases o with
      | none => rw [bind_run, rootOf, hs] at h0; cases h0
      | some p =>
          have ha : a < σ.slots.length := by rw [← R.len]; exact lt_of_getElem?_some hs
          obtain ⟨o, t, h1, h2, h3⟩ := R.getSlot ha
          rw [hs] at h1
          cases h1
          cases t with
          | none => cases h3
          | some f' => exact ⟨f', h2, denotes_same (R.denotes h2) h⟩

/-- Only the variables of the manager matter. -/
theorem Rel.denotes_eq (R : Rel P σ w) {a : Nat} {f : Asg → Int} (h : Denotes P w a f) {x y : Asg}
    (hx : InDomain P.c.n P.c.dom x) (hxy : ∀ i, i < P.c.n → x i = y i) : f y = f x := by
  have hy : InDomain P.c.n P.c.dom y := fun i hi => by rw [← hxy i hi]; exact hx i hi
  obtain ⟨f', hf, hs⟩ := R.of_denotes h
  obtain ⟨p, hp, hd⟩ := R.has a f' hf
  rw [← hs x hx, ← hs y hy]
  have h1 := valOf_congr R.good.inv R.good.ord (R.used hp) hx hxy
  have h2 := Ev.det (hd x hx) (ev_valOf R.good.inv R.good.ord hx (R.used hp))
  have h3 := Ev.det (hd y hy) (ev_valOf R.good.inv R.good.ord hy (R.used hp))
  rw [h2, h3]
  exact h1

theorem Rel.of_denotesAll (R : Rel P σ w) {as : List Nat} {fs : List (Asg → Int)}
    (h : List.Forall₂ (Denotes P w) as fs) :
    ∃ fs', σ.HasAll as fs' ∧ List.Forall₂ (SameOn P.c.n P.c.dom) fs' fs := by
  induction h with
  | nil => exact ⟨[], .nil, .nil⟩
  | cons h1 _ ih =>
      obtain ⟨f', e1, e2⟩ := R.of_denotes h1
      obtain ⟨fs', e3, e4⟩ := ih
      exact ⟨f' :: fs', .cons e1 e3, .cons e2 e4⟩

theorem Spec.SameOn.range {f g : Asg → Int} (h : SameOn P.c.n P.c.dom f g) :
    Range P.c f = Range P.c g := by
  funext v
  apply propext
  constructor
  · rintro ⟨x, hx, e⟩; exact ⟨x, hx, (h x hx).symm.trans e⟩
  · rintro ⟨x, hx, e⟩; exact ⟨x, hx, (h x hx).trans e⟩

theorem Spec.SameOn.symm {n : Nat} {dom : Nat → Nat} {f g : Asg → Int} (h : SameOn n dom f g) :
    SameOn n dom g f := fun x hx => (h x hx).symm

theorem Spec.SameOn.trans {n : Nat} {dom : Nat → Nat} {f g k : Asg → Int} (h : SameOn n dom f g)
    (h' : SameOn n dom g k) : SameOn n dom f k := fun x hx => (h x hx).trans (h' x hx)

/-- Calls that make a diagram. -/
theorem makes {k : Call} (hP : P.OK) (h : Reachable P w σ) (hk : Adm P σ k) {f g : Asg → Int}
    (hm : made P.c σ k = some f) (hfg : SameOn P.c.n P.c.dom f g)
    (ha : k.defers = true → σ.auto = false := by no_defer) : Makes P w k g := by
  have R := reachable_rel hP h
  obtain ⟨o, w', e, ho, R'⟩ := sim R hk ha
  have hn : ∃ b, next P.c σ k o = { σ with slots := σ.slots ++ [some f], clean := b } := by
    cases k <;> simp only [made, Option.some.injEq, reduceCtorEq] at hm <;> subst hm <;>
      exact ⟨_, rfl⟩
  obtain ⟨b, hn⟩ := hn
  have ho : o = .slot w.slots.length := by
    rw [R.len]
    cases k <;> first | exact ho | cases hm
  subst ho
  rw [hn] at R'
  refine ⟨w', e, ?_, ?_⟩
  · refine (R'.denotes (f := f) ?_).congr hfg
    simp [SState.Has, R.len]
  · intro j h0 hj
    obtain ⟨h', hh, hs⟩ := R.of_denotes hj
    refine (R'.denotes (f := h') ?_).congr hs
    unfold SState.Has
    dsimp only
    rw [List.getElem?_append_left hh.lt]
    exact hh

/-- Cofactors, also if a reordering may be due. -/
theorem makes_cofactor {k : Call} (hP : P.OK) (h : Reachable P w σ) (hc : k.isCofactor = true) (hk : Adm P σ k)
    {f g : Asg → Int} (hm : made P.c σ k = some f) (hfg : SameOn P.c.n P.c.dom f g) : Makes P w k g := by
  have R := reachable_rel hP h
  obtain ⟨o, w', e, rfl, R'⟩ := cofactor_sim R hc hk
  have hn : ∀ o, (next P.c σ k o).slots = σ.slots ++ [some f] := by
    cases k <;> simp only [made, Option.some.injEq, reduceCtorEq] at hm <;> subst hm <;> first | exact fun _ => rfl | cases hc
  refine ⟨w', by rw [R.len]; exact e, ?_, ?_⟩
  · refine (R'.denotes (f := f) ?_).congr hfg
    simp [SState.Has, R.len, hn]
  · intro j h0 hj
    obtain ⟨h', hh, hs⟩ := R.of_denotes hj
    refine (R'.denotes (f := h') ?_).congr hs
    unfold SState.Has
    dsimp only
    rw [hn, List.getElem?_append_left hh.lt]
    exact hh

/-- Queries. -/
theorem asks {k : Call} (hP : P.OK) (h : Reachable P w σ) (hk : Adm P σ k)
    (hq : k.isQuery = true) : ∃ o, exec P.c k w = .ok (o, w) ∧ OutOK P σ o k := by
  obtain ⟨o, w', e, ho, ha⟩ := sim_after (reachable_rel hP h) hk (fun hd => by cases k <;> cases hq <;> cases hd)
  unfold After at ha
  rw [hq] at ha
  cases ha
  exact ⟨o, e, ho⟩

end

theorem nary_foldr {op : BinOp} : ∀ {vs : List Int} {v r : Int}, op.nary (vs ++ [v]) = .ok r →
    r = vs.foldr op.val v
  | [], v, r, h => by cases h; rfl
  | t :: ts, v, r, h => by
      have h' : (do let r ← op.nary (ts ++ [v]); op.fn t r) = Except.ok r := by
        cases ts <;> exact h
      cases e : op.nary (ts ++ [v]) with
      | error _ => rw [e] at h'; cases h'
      | ok r' =>
          rw [e] at h'
          rw [List.foldr_cons, ← nary_foldr e]
          change op.fn t r' = .ok r at h'
          unfold BinOp.val
          rw [h']

theorem updAll_eq_fixAll (x : Asg) : ∀ vars : List (Nat × Nat), updAll x vars = fixAll x vars
  | [] => rfl
  | v :: vars => by
      have ih := updAll_eq_fixAll x vars
      funext i
      have ih := congrFun ih i
      simp only [fixAll, List.foldr_cons] at ih ⊢
      rw [upd_apply]
      unfold updAll findVar at ih ⊢
      by_cases h : i = v.1
      · rw [if_pos h, List.find?_cons_of_pos (by simpa using h.symm)]; rfl
      · rw [if_neg h, List.find?_cons_of_neg (by simpa using Ne.symm h)]; exact ih

section
variable {P : Setup} {σ : SState} {w : World}

theorem Rel.perm (R : Rel P σ w) : σ.order.Perm (List.range P.c.n) := by
  rw [← R.order]; exact levelVars_perm R.good.inv

theorem Rel.nodup (R : Rel P σ w) : σ.order.Nodup := R.perm.symm.nodup List.nodup_range

theorem order_eq (hP : P.OK) (h : Reachable P w σ) {order : List Nat} {w' : World}
    (ho : exec P.c .getOrder w = .ok (.nats order, w')) : order = σ.order := by
  obtain ⟨o, e, ho'⟩ := asks (k := .getOrder) hP h trivial rfl
  rw [ho] at e
  cases ho'
  cases e
  rfl

theorem inDomain_of_mem {n : Nat} {dom : Nat → Nat} {order : List Nat}
    (hp : order.Perm (List.range n)) {x : Asg} (hx : x ∈ assignments dom order) :
    InDomain n dom x := fun i hi =>
  ((mem_assignments (hp.symm.nodup List.nodup_range)).1 hx).1 i
    (hp.mem_iff.2 (List.mem_range.2 hi))

theorem Spec.SameOn.filter {n : Nat} {dom : Nat → Nat} {f g : Asg → Int} (h : SameOn n dom f g)
    {order : List Nat} (hp : order.Perm (List.range n)) (v : Int) :
    (assignments dom order).filter (fun x => f x = v) =
      (assignments dom order).filter (fun x => g x = v) := by
  refine List.filter_congr fun x hx => ?_
  rw [h x (inDomain_of_mem hp hx)]

theorem Spec.SameOn.countValue {n : Nat} {dom : Nat → Nat} {f g : Asg → Int}
    (h : SameOn n dom f g) (v : Int) : countValue n dom f v = countValue n dom g v := by
  unfold Spec.countValue allAsg
  rw [h.filter (List.Perm.refl _)]

theorem Spec.SameOn.truthVector {n : Nat} {dom : Nat → Nat} {f g : Asg → Int}
    (h : SameOn n dom f g) {order : List Nat} (hp : order.Perm (List.range n)) :
    truthVector dom order f = truthVector dom order g := by
  unfold Spec.truthVector
  exact List.map_congr_left fun x hx => h x (inDomain_of_mem hp hx)

theorem Spec.SameOn.dependsOn {n : Nat} {dom : Nat → Nat} {f g : Asg → Int}
    (h : SameOn n dom f g) {i : Nat} (hd : DependsOn n dom f i) : DependsOn n dom g i := by
  obtain ⟨x, k, hx, hk, hne⟩ := hd
  refine ⟨x, k, hx, hk, ?_⟩
  rw [← h x hx, ← h (upd x i k)]
  · exact hne
  · intro j hj
    by_cases e : j = i
    · subst e; simpa using hk
    · rw [upd_other _ _ e]; exact hx j hj

theorem inDomain_fixFirst {n : Nat} {dom : Nat → Nat} {order : List Nat} {l : Nat} {y x : Asg}
    (hy : InDomain n dom y) (hx : InDomain n dom x) : InDomain n dom (fixFirst order l y x) := by
  intro i hi
  unfold fixFirst
  split
  · exact hy i hi
  · exact hx i hi

theorem Spec.CountFuns.congr {n : Nat} {dom : Nat → Nat} {F G : (Asg → Int) → Prop} {k : Nat}
    (h : CountFuns n dom F k) (h1 : ∀ f, F f → ∃ g, G g ∧ SameOn n dom f g)
    (h2 : ∀ g, G g → ∃ f, F f ∧ SameOn n dom g f) : CountFuns n dom G k := by
  obtain ⟨fs, hl, hp, hF, hc⟩ := h
  have hex : ∀ f, ∃ g, f ∈ fs → G g ∧ SameOn n dom f g := by
    intro f
    by_cases hf : f ∈ fs
    · obtain ⟨g, hg⟩ := h1 f (hF f hf)
      exact ⟨g, fun _ => hg⟩
    · exact ⟨f, fun h => absurd h hf⟩
  choose T hT using hex
  refine ⟨fs.map T, by rw [List.length_map, hl], ?_, ?_, ?_⟩
  · rw [List.pairwise_map]
    refine hp.imp_of_mem ?_
    intro a b ha hb hab hs
    exact hab (((hT a ha).2.trans hs).trans (hT b hb).2.symm)
  · intro g hg
    obtain ⟨f, hf, rfl⟩ := List.mem_map.1 hg
    exact (hT f hf).1
  · intro g hg
    obtain ⟨f, hf, hs⟩ := h2 g hg
    obtain ⟨f', hf', hs'⟩ := hc f hf
    exact ⟨T f', List.mem_map.2 ⟨f', hf', rfl⟩, (hs.trans hs').trans (hT f' hf').2⟩

theorem Spec.SameOn.subfunction {n : Nat} {dom : Nat → Nat} {order : List Nat} {f g : Asg → Int}
    (h : SameOn n dom f g) {u : Asg → Int} (hu : Subfunction n dom order f u) :
    ∃ v, Subfunction n dom order g v ∧ SameOn n dom u v := by
  obtain ⟨l, y, hy, rfl⟩ := hu
  exact ⟨_, ⟨l, y, hy, rfl⟩, fun x hx => h _ (inDomain_fixFirst hy hx)⟩

theorem Spec.SameOn.countSubs {n : Nat} {dom : Nat → Nat} {order : List Nat} {f g : Asg → Int}
    (h : SameOn n dom f g) {k : Nat} (hk : CountFuns n dom (Subfunction n dom order f) k) :
    CountFuns n dom (Subfunction n dom order g) k :=
  hk.congr (fun _ hu => h.subfunction hu) (fun _ hu => h.symm.subfunction hu)

end

section
variable {c : Cfg}

theorem FoldOK.congr {op : BinOp} : ∀ {fs gs : List (Asg → Int)} {f g : Asg → Int},
    SameOn c.n c.dom f g → List.Forall₂ (SameOn c.n c.dom) fs gs → FoldOK c op g gs →
    FoldOK c op f fs := by
  intro fs gs f g h hs
  induction hs generalizing f g with
  | nil => exact fun _ => trivial
  | @cons a b l₁ l₂ h1 _ ih =>
      intro hk
      have r : ∀ {f g : Asg → Int}, SameOn c.n c.dom f g → ∀ v, Range c f v → Range c g v := by
        rintro f g h v ⟨x, hx, e⟩
        exact ⟨x, hx, (h x hx).symm.trans e⟩
      refine ⟨hk.1.mono (r h) (r h1), ih ?_ hk.2⟩
      intro x hx
      dsimp only
      rw [h x hx, h1 x hx]

end

section
variable {P : Setup} {σ : SState} {w : World}

theorem inDeg_eq_sum (s : Mgr) (p : Ptr) : s.inDeg p =
    (((List.range s.next).filter fun q => s.used q).map fun q => (s.sonsOf q).count p).sum := by
  unfold Mgr.inDeg
  induction s.next with
  | zero => rfl
  | succ n ih =>
      rw [Finset.sum_range_succ, ih, List.range_succ, List.filter_append, List.map_append,
        List.sum_append]
      congr 1
      cases h : s.used n <;> simp [h]

theorem construct_eq {m : Mgr} (h : construct P.c P.pool P.order = .ok m) :
    m = Mgr.init P.c P.pool P.order := by
  unfold construct at h
  split_ifs at h <;> cases h <;> rfl

/-! ### Reliability analysis -/

/-- A call known to make a diagram of `f`. -/
theorem makes_of {k : Call} (R : Rel P σ w) {f g : Asg → Int} (h : Ok (exec P.c k) w (fun o w' =>
    o = .slot σ.slots.length ∧ Rel P { σ with slots := σ.slots ++ [some f] } w'))
    (hfg : SameOn P.c.n P.c.dom f g) : Makes P w k g := by
  obtain ⟨o, w', e, rfl, R'⟩ := h
  refine ⟨w', by rw [R.len]; exact e, ?_, ?_⟩
  · refine (R'.denotes (f := f) ?_).congr hfg
    simp [SState.Has, R.len]
  · intro j h0 hj
    obtain ⟨h', hh, hs⟩ := R.of_denotes hj
    refine (R'.denotes (f := h') ?_).congr hs
    unfold SState.Has
    dsimp only
    rw [List.getElem?_append_left hh.lt]
    exact hh

theorem answers {k : Call} (hP : P.OK) (h : Reachable P w σ) (hk : Adm P σ k)
    (hn : ∀ o, next P.c σ k o = σ) (ha : k.defers = true → σ.auto = false := by no_defer) :
    ∃ o, Answers P w k o ∧ OutOK P σ o k := by
  have R := reachable_rel hP h
  obtain ⟨o, w', e, ho, R'⟩ := sim R hk ha
  rw [hn] at R'
  refine ⟨o, ⟨w', e, ?_⟩, ho⟩
  intro j h0 hj
  obtain ⟨h', hh, hs⟩ := R.of_denotes hj
  exact (R'.denotes hh).congr hs

theorem Spec.SameOn.probability {n : Nat} {dom : Nat → Nat} {f g : Asg → Int} (h : SameOn n dom f g)
    (pr : Nat → Nat → Rat) (φ : Int → Bool) :
    probability n dom pr (fun x => φ (f x)) = probability n dom pr (fun x => φ (g x)) := by
  unfold Spec.probability
  congr 2
  refine List.filter_congr fun x hx => ?_
  rw [h x (inDomain_of_mem (List.Perm.refl _) hx)]

theorem Spec.SameOn.defined {c : Cfg} {f g : Asg → Int} (h : SameOn c.n c.dom f g)
    (hg : Defined c g) : Defined c f := fun x hx => by rw [h x hx]; exact hg x hx

theorem listsExactly (R : Rel P σ w) {φ ψ : Asg → Prop} [DecidablePred φ]
    (hφ : ∀ x, InDomain P.c.n P.c.dom x → (φ x ↔ ψ x))
    (hψ : ∀ x y, InDomain P.c.n P.c.dom x → (∀ i, i < P.c.n → x i = y i) → ψ x → ψ y) :
    ListsExactly P ψ (((assignments P.c.dom σ.order).filter fun x => φ x).map (toList P.c.n)) := by
  refine ⟨?_, ?_⟩
  · refine List.Nodup.map_on ?_ ((nodup_assignments R.nodup).filter _)
    intro x hx y hy exy
    have hx := (mem_assignments R.nodup).1 (List.mem_filter.1 hx).1
    have hy := (mem_assignments R.nodup).1 (List.mem_filter.1 hy).1
    funext i
    by_cases hi : i < P.c.n
    · exact List.map_inj_left.1 exy i (List.mem_range.2 hi)
    · have hm : i ∉ σ.order := fun hm => hi (List.mem_range.1 (R.perm.mem_iff.1 hm))
      rw [hx.2 i hm, hy.2 i hm]
  · intro y
    simp only [List.mem_map, List.mem_filter, decide_eq_true_eq]
    constructor
    · rintro ⟨x, ⟨hx, hfx⟩, rfl⟩
      have hx := inDomain_of_mem R.perm hx
      exact ⟨x, hx, (hφ x hx).1 hfx, rfl⟩
    · rintro ⟨x, hx, hfx, rfl⟩
      have hx' : InDomain P.c.n P.c.dom (fun i => if i < P.c.n then x i else 0) := by
        intro i hi
        simp only [hi, if_true]
        exact hx i hi
      refine ⟨fun i => if i < P.c.n then x i else 0, ⟨?_, ?_⟩, ?_⟩
      · refine (mem_assignments R.nodup).2 ⟨?_, ?_⟩
        · intro i hi
          exact hx' i (List.mem_range.1 (R.perm.mem_iff.1 hi))
        · intro i hi
          rw [if_neg fun hc => hi (R.perm.mem_iff.2 (List.mem_range.2 hc))]
      · refine (hφ _ hx').2 (hψ x _ hx (fun i hi => (if_pos hi).symm) hfx)
      · refine List.map_congr_left fun i hi => ?_
        rw [if_pos (List.mem_range.1 hi)]

theorem inDomain_upd {n : Nat} {dom : Nat → Nat} {x : Asg} (hx : InDomain n dom x) {i v : Nat}
    (hv : v < dom i) : InDomain n dom (upd x i v) := by
  intro j hj
  simp only [upd_apply]
  split
  · subst_vars; exact hv
  · exact hx j hj

theorem extendedDerivative (hP : P.OK) (h : Reachable P w σ) (hauto : σ.auto = false) {a : Nat} {f : Asg → Int}
    (ha : Denotes P w a f) (h1 : TermOK P.c 1) (hU : TermOK P.c Undefined) {vc : VarChange}
    (hi : vc.index < P.c.n) (hfrom : vc.from < P.c.dom vc.index) (hto : vc.to < P.c.dom vc.index)
    (ch : Int → Int → Bool) :
    ∃ w', exec P.c (.dpld vc ch a) w = .ok (.slot w.slots.length, w') ∧
      Makes P w' (.toDpldE vc.from vc.index w.slots.length) (fun x =>
        if x vc.index = vc.from then
          if ch (f x) (f (upd x vc.index vc.to)) = true then 1 else 0
        else Undefined) := by
  have R := reachable_rel hP h
  obtain ⟨f', hf', e1⟩ := R.of_denotes ha
  obtain ⟨p, hp, hd⟩ := R.has a f' hf'
  obtain ⟨r, s', e, nd, av⟩ := dpld_good (E := envOf P σ) (vc := vc) (ch := ch) hauto R.good
    (handle_prot (extL_pos hp)) hd (fun _ => hfrom) (fun _ => hto)
    (h1.of_le (by omega) (by omega)) h1
  have e' : exec P.c (.dpld vc ch a) w = .ok (.slot w.slots.length, ⟨s', w.slots ++ [some r]⟩) := by
    simp only [exec]
    rw [bind_ok (rootOf_ok hp)]
    simp only [making, onMgr, push, bind_run]
    rw [show dpld P.c vc ch p w.mgr = _ from e]
  obtain ⟨o2, w2, e2, _, R2⟩ := sim R (k := .dpld vc ch a) ⟨⟨f', hf'⟩, h1, fun _ => ⟨hfrom, hto⟩⟩
  rw [e'] at e2
  cases e2
  refine ⟨_, e', ?_⟩
  have hslot : (w.slots ++ [some r])[w.slots.length]? = some (some r) := by simp
  have hden : Den P.c s' r _ := nd.den
  refine makes_of (f := fun x => if x vc.index = vc.from then
    b2i (ch (f' (upd x vc.index vc.from)) (f' (upd x vc.index vc.to))) else Undefined) R2 ?_ ?_
  · simp only [exec]
    refine Ok.bindEq (rootOf_ok (w := ⟨s', w.slots ++ [some r]⟩) hslot) ?_
    refine making_ok R2 ((toDpldE_good (varFrom := vc.from) hauto R2.good hU hi
      (handle_prot (extL_pos (xs := w.slots ++ [some r]) hslot)) hden av).mono fun _ _ h => h.res)
  · intro x hx
    dsimp only
    split
    · rename_i hxv
      rw [upd_self x _ hxv, e1 x hx, e1 _ (inDomain_upd hx hto)]
      rfl
    · rfl

theorem upd_agree {n : Nat} {x y : Asg} (h : ∀ i, i < n → x i = y i) (i v : Nat) :
    ∀ j, j < n → upd x i v j = upd y i v j := by
  intro j hj
  simp only [upd_apply]
  split
  · rfl
  · exact h j hj

end

theorem inDomain_fix {n : Nat} {dom : Nat → Nat} {order : List Nat} {l i a : Nat} {y z : Asg}
    (hy : InDomain n dom y) (hz : InDomain n dom z) (ha : a < dom i) :
    InDomain n dom (fixFirst order l y (upd z i a)) := by
  intro j hj
  unfold fixFirst
  split
  · exact hy j hj
  · unfold upd
    split
    · next h => rw [h]; exact ha
    · exact hz j hj

theorem layered_congr {n : Nat} {dom : Nat → Nat} {order : List Nat} {f g : Asg → Int}
    (h : SameOn n dom f g) (hg : Layered n dom order g) : Layered n dom order f := by
  intro l i y a b ho hy hab hb
  rcases hg l i y a b ho hy hab hb with h1 | h1
  · refine .inl fun z hz => ?_
    rw [h _ (inDomain_fix hy hz (hab.trans hb))]
    exact h1 z hz
  · refine .inr fun z hz e => ?_
    rw [h _ (inDomain_fix hy hz hb)] at e
    obtain ⟨z', hz', hle, e'⟩ := h1 z hz e
    exact ⟨z', hz', hle, by rw [h _ (inDomain_fix hy hz' (hab.trans hb))]; exact e'⟩

theorem covered_congr {n : Nat} {dom : Nat → Nat} {f g : Asg → Int} (h : SameOn n dom f g) :
    Covered n dom f = Covered n dom g := by
  funext x
  refine propext (exists_congr fun y => and_congr_right fun hy => and_congr_right fun _ => ?_)
  rw [h y fun i hi => ((mem_assignments List.nodup_range).1 hy).1 i (List.mem_range.2 hi)]

/-- A derivative that stays 1 when components get worse is layered. -/
theorem layered_of_closed {n : Nat} {dom : Nat → Nat} {order : List Nat} {f : Asg → Int}
    (hf : ∀ x y, InDomain n dom y → (∀ i, i < n → x i ≤ y i) → f y = 1 → f x = 1) :
    Layered n dom order f := by
  intro l i y a b _ hy hab hb
  refine .inr fun z hz e => ⟨z, hz, fun _ _ => le_refl _, ?_⟩
  refine hf _ _ (inDomain_fix hy hz hb) (fun j _ => ?_) e
  unfold fixFirst upd
  split
  · exact le_refl _
  · split
    · exact hab.le
    · exact le_refl _

end Teddy
