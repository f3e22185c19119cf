import Verif.TestSpec
import Verif.Proofs.MakeDiagram
import Verif.Proofs.Restore
import Verif.Proofs.NodeCount
import Verif.Proofs.ApplyCongr

/-!
# Proofs about the unit tests
-/

namespace Teddy
namespace Tests

open SM Spec Tsl

section
variable {P : Setup} {w : World} {σ : SState} {c : Cfg}

/-! ### Calls -/

theorem lift_ok {α : Type} {e : Except Err α} {a : α} (h : e = .ok a) : lift e w = .ok (a, w) := by
  subst h; rfl

theorem askInt_ok {k : Call} {v : Int} {w' : World} (h : exec c k w = .ok (.int v, w')) : askInt c k w = .ok (v, w') := by
  unfold askInt; rw [bind_ok h]; rfl

theorem askNat_ok {k : Call} {v : Nat} {w' : World} (h : exec c k w = .ok (.nat v, w')) : askNat c k w = .ok (v, w') := by
  unfold askNat; rw [bind_ok h]; rfl

theorem askBool_ok {k : Call} {v : Bool} {w' : World} (h : exec c k w = .ok (.bool v, w')) :
    askBool c k w = .ok (v, w') := by
  unfold askBool; rw [bind_ok h]; rfl

theorem askNats_ok {k : Call} {v : List Nat} {w' : World} (h : exec c k w = .ok (.nats v, w')) :
    askNats c k w = .ok (v, w') := by
  unfold askNats; rw [bind_ok h]; rfl

theorem askInts_ok {k : Call} {v : List Int} {w' : World} (h : exec c k w = .ok (.ints v, w')) :
    askInts c k w = .ok (v, w') := by
  unfold askInts; rw [bind_ok h]; rfl

theorem askAsg_ok {k : Call} {v : Option (List Nat)} {w' : World} (h : exec c k w = .ok (.asg v, w')) :
    askAsg c k w = .ok (v, w') := by
  unfold askAsg; rw [bind_ok h]; rfl

theorem askAsgs_ok {k : Call} {v : List (List Nat)} {w' : World} (h : exec c k w = .ok (.asgs v, w')) :
    askAsgs c k w = .ok (v, w') := by
  unfold askAsgs; rw [bind_ok h]; rfl

theorem require_ok {b : Bool} {rest : SM World Bool} {Q : Bool → World → Prop} (hb : b = true) (h : Ok rest w Q) :
    Ok (require b rest) w Q := by
  subst hb; exact h

/-- The call `get_node_count(d)` for a message. -/
theorem message_ok (hP : P.OK) (h : Reachable P w σ) (hc : σ.clean = true) {d : Nat} {g : Asg → Int} (hd : σ.Has d g) :
    ∃ k, askNat P.c (.nodeCountOf d) w = .ok (k, w) := by
  obtain ⟨o, e, k, rfl, -⟩ := asks (k := .nodeCountOf d) hP h ⟨hc, g, hd⟩ rfl
  exact ⟨k, askNat_ok e⟩

theorem equals_ok (hP : P.OK) (h : Reachable P w σ) (hc : σ.canon = true) {d e : Nat} {f g : Asg → Int}
    (hd : σ.Has d f) (he : σ.Has e g) (hfg : ∀ x, InDomain P.c.n P.c.dom x → f x = g x) :
    askBool P.c (.equals d e) w = .ok (true, w) := by
  obtain ⟨o, e1, r, rfl, -, hr⟩ := asks (k := .equals d e) hP h ⟨⟨f, hd⟩, g, he⟩ rfl
  have : r = true := hr hc (by rw [hd.fn, he.fn]; exact hfg)
  rw [this] at e1
  exact askBool_ok e1

/-! ### Iterators -/

theorem domainsOf_eq (c : Cfg) : domainsOf c = toList c.n c.dom := rfl

theorem visit_order (hP : P.OK) (h : Reachable P w σ) : ∃ it, DomIter.ofOrder (domainsOf P.c) σ.order = .ok it ∧
    orderIter P.c w = .ok (it, w) ∧ ∀ {eval : List Nat → Except Err Int} {f : Asg → Int},
    (∀ x, InDomain P.c.n P.c.dom x → eval (toList P.c.n x) = .ok (f x)) →
    visit P.c eval it = .ok ((assignments P.c.dom σ.order).map fun x => (toList P.c.n x, f x)) := by
  have R := reachable_rel hP h
  obtain ⟨o, e0, rfl⟩ := asks (k := .getOrder) hP h trivial rfl
  have hp : σ.order.Perm (List.range P.c.n) := R.perm
  have hlen : (domainsOf P.c).length = P.c.n := by simp [domainsOf, fillVector]
  have hsz : ∀ i ∈ σ.order, sizes (domainsOf P.c) i = P.c.dom i := by
    intro i hi
    have hi : i < P.c.n := List.mem_range.1 (hp.mem_iff.1 hi)
    rw [domainsOf_eq, sizes, List.getD_eq_getElem?_getD, getElem?_toList _ hi]; rfl
  have h0 : σ.order ≠ [] := by
    intro e
    have := hp.length_eq
    have := hP.vars
    simp [e] at *
    omega
  obtain ⟨it, e, hit⟩ := ofOrder_forEach (domains := domainsOf P.c) h0 R.nodup
    (by rw [hlen]; intro i hi; exact List.mem_range.1 (hp.mem_iff.1 hi))
    (by intro i hi; rw [hsz i hi]; exact hP.cfg.1 i (List.mem_range.1 (hp.mem_iff.1 hi)))
  refine ⟨it, e, ?_, ?_⟩
  · unfold orderIter
    rw [bind_ok (askNats_ok e0)]
    exact lift_ok e
  · intro eval f he
    have hpr : (σ.order.map (sizes (domainsOf P.c))).prod = (domainsOf P.c).prod := by
      rw [List.map_congr_left hsz, (hp.map P.c.dom).prod_eq]
      rfl
    have has := assignments_congr (vars := σ.order) hsz
    unfold visit
    rw [hit (g' := fun x => (toList P.c.n x, f x)) ?_ (by omega), has]
    intro x hx
    rw [has] at hx
    rw [hlen, he x (inDomain_of_mem hp hx)]
    rfl

theorem visit_domains (hP : P.OK) : ∃ it, DomIter.ofDomains (domainsOf P.c) = .ok it ∧
    ∀ {eval : List Nat → Except Err Int} {f : Asg → Int},
    (∀ x, InDomain P.c.n P.c.dom x → eval (toList P.c.n x) = .ok (f x)) →
    visit P.c eval it = .ok ((allAsg P.c.n P.c.dom).map fun x => (toList P.c.n x, f x)) := by
  have hlen : (domainsOf P.c).length = P.c.n := by simp [domainsOf, fillVector]
  have hsz : ∀ i ∈ List.range P.c.n, sizes (domainsOf P.c) i = P.c.dom i := by
    intro i hi
    rw [domainsOf_eq, sizes, List.getD_eq_getElem?_getD, getElem?_toList _ (List.mem_range.1 hi)]; rfl
  obtain ⟨it, e, hit⟩ := ofOrder_forEach (domains := domainsOf P.c) (order := List.range P.c.n)
    (by have := hP.vars; simp; omega) List.nodup_range
    (by rw [hlen]; intro i hi; exact List.mem_range.1 hi)
    (by intro i hi; rw [hsz i hi]; exact hP.cfg.1 i (List.mem_range.1 hi))
  refine ⟨it, ?_, ?_⟩
  · rw [← e, DomIter.ofDomains, hlen]
    simp [fillVector, DomIter.ofOrder]
  · intro eval f he
    have hpr : ((List.range P.c.n).map (sizes (domainsOf P.c))).prod = (domainsOf P.c).prod := by
      rw [List.map_congr_left hsz]
      rfl
    have has := assignments_congr (vars := List.range P.c.n) hsz
    unfold visit
    rw [hit (g' := fun x => (toList P.c.n x, f x)) ?_ (by omega), has]
    · rfl
    · intro x hx
      rw [has] at hx
      rw [hlen, he x (inDomain_of_mem (.refl _) hx)]
      rfl

theorem asgOf_toList {n : Nat} (x : Asg) {i : Nat} (h : i < n) : asgOf (toList n x) i = x i := by
  rw [asgOf, List.getD_eq_getElem?_getD, getElem?_toList x h]; rfl

theorem toList_asgOf {n : Nat} (x : Asg) : toList n (asgOf (toList n x)) = toList n x :=
  List.map_congr_left fun _ hi => asgOf_toList x (List.mem_range.1 hi)

/-- `evaluate` with the values of an iterator. -/
theorem evaluate_ok (hP : P.OK) (h : Reachable P w σ) {d : Nat} {g f : Asg → Int} (hd : σ.Has d g)
    (hg : ∀ x, InDomain P.c.n P.c.dom x → g x = f x) (hf : ∀ x y, toList P.c.n x = toList P.c.n y → f x = f y) {x : Asg}
    (hx : InDomain P.c.n P.c.dom x) : askInt P.c (.evaluate d (asgOf (toList P.c.n x))) w = .ok (f x, w) := by
  have hy : InDomain P.c.n P.c.dom (asgOf (toList P.c.n x)) := fun i hi => by rw [asgOf_toList x hi]; exact hx i hi
  obtain ⟨o, e, rfl⟩ := asks (k := .evaluate d _) hP h ⟨⟨g, hd⟩, hy⟩ rfl
  rw [hd.fn, hg _ hy, hf _ x (toList_asgOf x)] at e
  exact askInt_ok e

theorem compareAll_ok (hP : P.OK) (h : Reachable P w σ) {d : Nat} {g f : Asg → Int} (hd : σ.Has d g)
    (hg : ∀ x, InDomain P.c.n P.c.dom x → g x = f x) (hf : ∀ x y, toList P.c.n x = toList P.c.n y → f x = f y)
    {rest : SM World Bool} {Q : Bool → World → Prop} (hr : Ok rest w Q) :
    ∀ xs : List Asg, (∀ x ∈ xs, InDomain P.c.n P.c.dom x) →
      Ok (compareAll P.c d (xs.map fun x => (toList P.c.n x, f x)) rest) w Q
  | [], _ => hr
  | x :: xs, hx => by
      rw [List.map_cons, compareAll]
      refine Ok.bindEq (evaluate_ok hP h hd hg hf (hx x (by simp))) (require_ok (by simp) ?_)
      exact compareAll_ok hP h hd hg hf hr xs fun y hy => hx y (by simp [hy])

theorem compareEval_ok (hP : P.OK) (h : Reachable P w σ) {d : Nat} {g f : Asg → Int} (hd : σ.Has d g)
    (hg : ∀ x, InDomain P.c.n P.c.dom x → g x = f x) (hf : ∀ x y, toList P.c.n x = toList P.c.n y → f x = f y)
    {rest : SM World Bool} {Q : Bool → World → Prop} (hr : Ok rest w Q) {eval : List Nat → Except Err Int} {it : DomIter}
    {xs : List Asg} (hxs : ∀ x ∈ xs, InDomain P.c.n P.c.dom x)
    (he : visit P.c eval it = .ok (xs.map fun x => (toList P.c.n x, f x))) :
    Ok (compareEval P.c eval it d rest) w Q := by
  unfold compareEval
  exact Ok.bindEq (lift_ok he) (compareAll_ok hP h hd hg hf hr xs hxs)

/-! ### The expression -/

/-- The expression can be used. -/
def ExprOK (n : Nat) (terms : List (List Nat)) : Prop := terms ≠ [] ∧ ∀ t ∈ terms, t ≠ [] ∧ ∀ i ∈ t, i < n

theorem minMax_congr {n : Nat} {terms : List (List Nat)} (ht : ExprOK n terms) (x y : Asg)
    (h : toList n x = toList n y) : minMaxVal terms x = minMaxVal terms y := by
  have hi : ∀ i < n, x i = y i := by
    intro i hi
    have h1 := getElem?_toList x hi
    rw [h, getElem?_toList y hi] at h1
    exact (Option.some.inj h1).symm
  unfold minMaxVal
  congr 2
  refine List.map_congr_left fun t htm => ?_
  unfold termVal
  congr 2
  refine List.map_congr_left fun i him => ?_
  rw [hi i ((ht.2 t htm).2 i him)]

theorem varVal_minMax {terms : List (List Nat)} (ht : ExprOK P.c.n terms) {x : Asg} (hx : InDomain P.c.n P.c.dom x) :
    VarVal P.c (minMaxVal terms x) := by
  unfold minMaxVal
  cases h : (terms.map fun t => termVal t x).max? with
  | none => simp [List.max?_eq_none_iff, ht.1] at h
  | some v =>
      obtain ⟨t, htm, rfl⟩ := List.mem_map.1 (List.max?_mem h)
      exact varVal_term hx (ht.2 t htm).1 (ht.2 t htm).2

theorem evalExpr_ok (S : Suitable P) {terms : List (List Nat)} (ht : ExprOK P.c.n terms) {x : Asg}
    (hx : InDomain P.c.n P.c.dom x) : evaluateMinMax terms (toList P.c.n x) = .ok (minMaxVal terms x) := by
  refine evaluateMinMax_ok ht.1 fun t h => ⟨(ht.2 t h).1, fun i hi => ⟨(ht.2 t h).2 i hi, ?_⟩⟩
  have h1 := S.fit i ((ht.2 t h).2 i hi)
  have h2 := hx i ((ht.2 t h).2 i hi)
  rw [nd_val] at h1
  omega

theorem Suitable.term1 (S : Suitable P) : TermOK P.c 1 := by
  refine ⟨by decide, fun _ m hm => ?_⟩
  have h0 : 0 < P.c.n := Nat.lt_of_lt_of_le Nat.two_pos S.ok.vars
  have := S.two 0 h0
  rw [S.ok.cfg.2 m hm 0 h0] at this
  omega

/-- The diagram of a test. -/
theorem diagram_ok (S : Suitable P) {terms : List (List Nat)} (ht : ExprOK P.c.n terms) (h : Reachable P w σ)
    (hauto : σ.auto = false) (hcache : σ.cacheOK = true) (tree : Bool) :
    Ok (makeDiagram P.c tree terms) w (fun k w' => ∃ T g, Reachable P w' (withSlots σ T) ∧ (withSlots σ T).Has k g ∧
      (∀ x, InDomain P.c.n P.c.dom x → g x = minMaxVal terms x) ∧
      (∀ j f, σ.Has j f → (withSlots σ T).Has j f) ∧
      ∀ j f, (withSlots σ T).Has j f → j = k ∨ σ.Has j f) := by
  refine (makeDiagram_ok S.ok S.fit h hauto hcache tree ?_ (S.ops Op.MAX (by simp)) ht.1 ht.2).mono ?_
  · have := S.ops Op.MIN (by simp)
    rwa [opType_MIN] at this
  · rintro k w' ⟨T, g, h1, h2, h3, h4, h5, h6⟩
    refine ⟨T, g, h1, h4, h2, ?_, ?_⟩
    · intro j f hj
      show T[j]? = _
      rw [h5 j hj.lt]; exact hj
    · intro j f hj
      by_cases hk : j = k
      · exact .inl hk
      · right
        by_cases hl : j < σ.slots.length
        · show σ.slots[j]? = _
          rw [← h5 j hl]; exact hj
        · exact absurd hj (h6 j (by omega) hk f)

/-- A new manager. -/
theorem start (hP : P.OK) : ∃ m, construct P.c P.pool P.order = .ok m ∧ Reachable P ⟨m, []⟩ (SState.init P) := by
  obtain ⟨m, e, -⟩ := construct_sim hP
  exact ⟨m, e, .init e⟩

theorem Reports.of {t : SM World Bool} {b : Bool} (hP : P.OK) (h : ∀ w, Reachable P w (SState.init P) →
    Ok t w (fun r _ => r = b)) : Reports P t b := by
  obtain ⟨m, e, hr⟩ := start hP
  obtain ⟨r, w, e', rfl⟩ := h _ hr
  exact ⟨m, w, e, e'⟩

/-! ### Tests -/

theorem evaluate_passes (S : Suitable P) {terms : List (List Nat)} (ht : ExprOK P.c.n terms) :
    Passes P (evaluate P.c terms) := by
  refine Reports.of S.ok fun w h => ?_
  unfold evaluate
  refine (diagram_ok S ht h rfl rfl false).bind ?_
  rintro d w1 ⟨T, g, h1, hd, hg, -, -⟩
  obtain ⟨k, e⟩ := message_ok S.ok h1 rfl hd
  refine Ok.bindEq e ?_
  obtain ⟨it, -, e1, e2⟩ := visit_order S.ok h1
  refine Ok.bindEq e1 ?_
  exact compareEval_ok S.ok h1 hd hg (minMax_congr ht) (Ok.pure rfl)
    (fun x hx => inDomain_of_mem (reachable_rel S.ok h1).perm hx) (e2 fun x hx => evalExpr_ok S ht hx)

theorem fold_passes (S : Suitable P) {terms : List (List Nat)} (ht : ExprOK P.c.n terms) :
    Passes P (fold P.c terms) := by
  refine Reports.of S.ok fun w h => ?_
  unfold fold
  refine (diagram_ok S ht h rfl rfl false).bind ?_
  rintro d w1 ⟨T, g, h1, hd, hg, -, -⟩
  refine (diagram_ok S ht h1 rfl rfl true).bind ?_
  rintro d2 w2 ⟨T2, g2, h2, hd2, hg2, hk, -⟩
  obtain ⟨k, e⟩ := message_ok S.ok h2 rfl (hk d g hd)
  refine Ok.bindEq e (Ok.bindEq (equals_ok S.ok h2 rfl (hk d g hd) hd2 fun x hx => ?_) (require_ok rfl (Ok.pure rfl)))
  rw [hg x hx, hg2 x hx]

/-- After garbage collection the nodes of the only diagram are the only ones. -/
theorem gc_counts (hP : P.OK) (h : Reachable P w σ) (hc : σ.clean = true) {d : Nat} {r : Ptr}
    (hd : w.slots[d]? = some (some r)) (hall : ∀ (a : Nat) (r' : Ptr), w.slots[a]? = some (some r') → r' = r) :
    ∃ w' k, exec P.c .forceGc w = .ok (.unit, w') ∧ Reachable P w' σ ∧ w'.slots = w.slots ∧
      askNat P.c (.nodeCountOf d) w' = .ok (k, w') ∧ askNat P.c .nodeCount w' = .ok (k, w') := by
  have R := reachable_rel hP h
  obtain ⟨o, w', e, rfl, R', hs, hp⟩ := forceGc_sim R
  have h' : Reachable P w' σ := .step (k := .forceGc) h trivial e
  obtain ⟨us, hnd, hmem, hlen⟩ := used_list R'.good.inv
  have hd' : w'.slots[d]? = some (some r) := by rw [hs]; exact hd
  obtain ⟨k, s', e1, rfl, vs, hnd', hvs, rfl⟩ := nodeCountOf_ok R'.good.inv R'.good.ord (R'.used hd') (R'.cleanBelow hc r)
  have hlen' : vs.length = us.length := by
    refine List.Perm.length_eq ((List.perm_ext_iff_of_nodup hnd' hnd).2 fun q => ?_)
    rw [hvs q, hmem q]
    constructor
    · intro hr
      exact hr.used R'.good.inv (R'.used hd')
    · intro hu
      obtain ⟨a, r', h1, h2⟩ := rooted (R'.clean hc) (hp q hu)
      rw [hs] at h1
      rw [hall a r' h1] at h2
      exact h2
  refine ⟨w', vs.length, e, h', hs, askNat_ok ?_, ?_⟩
  · simp only [exec]
    rw [bind_ok (rootOf_ok hd'), bind_ok (a := vs.length) (s' := w')]
    · rfl
    · show onMgr (nodeCountOf P.c r) w' = _
      unfold onMgr
      rw [show nodeCountOf P.c r w'.mgr = _ from e1]
  · rw [hlen', hlen]
    exact askNat_ok rfl

/-- Roots of handles that hold the same function. -/
theorem same_root (hP : P.OK) (h : Reachable P w σ) (hc : σ.canon = true) {a b : Nat} {f g : Asg → Int} {p q : Ptr}
    (ha : σ.Has a f) (hb : σ.Has b g) (hfg : ∀ x, InDomain P.c.n P.c.dom x → f x = g x)
    (hp : w.slots[a]? = some (some p)) (hq : w.slots[b]? = some (some q)) : p = q := by
  have e := equals_ok hP h hc ha hb hfg
  have e' : askBool P.c (.equals a b) w = .ok (p == q, w) := by
    refine askBool_ok ?_
    simp only [exec]
    rw [bind_ok (ptrOf_ok hp), bind_ok (ptrOf_ok hq)]
    rfl
  rw [e'] at e
  exact beq_iff_eq.1 (Prod.mk.inj (Except.ok.inj e)).1

/-- The handle of a root. -/
theorem has_of_root (hP : P.OK) (h : Reachable P w σ) {a : Nat} {p : Ptr} (hp : w.slots[a]? = some (some p)) :
    ∃ f, σ.Has a f := by
  have R := reachable_rel hP h
  obtain ⟨o, t, h1, h2, h3⟩ := R.getSlot (a := a) (by rw [← R.len]; exact lt_of_getElem?_some hp)
  rw [hp] at h1
  cases h1
  cases t with
  | none => cases h3
  | some f => exact ⟨f, h2⟩

theorem gc_passes (S : Suitable P) {terms : List (List Nat)} (ht : ExprOK P.c.n terms) :
    Passes P (gc P.c terms) := by
  refine Reports.of S.ok fun w h => ?_
  unfold gc
  refine (diagram_ok S ht h rfl rfl false).bind ?_
  rintro d w1 ⟨T, g, h1, hd, hg, -, ho1⟩
  refine (diagram_ok S ht h1 rfl rfl true).bind ?_
  rintro d2 w2 ⟨T2, g2, h2, hd2, hg2, hk, ho2⟩
  have hd' := hk d g hd
  obtain ⟨k, e⟩ := message_ok S.ok h2 rfl hd'
  refine Ok.bindEq e ?_
  obtain ⟨r, hr, -⟩ := (reachable_rel S.ok h2).has d g hd'
  obtain ⟨w3, k, e1, h3, hs, e2, e3⟩ := gc_counts S.ok h2 rfl hr (by
    intro a r' hr'
    obtain ⟨f, hf⟩ := has_of_root S.ok h2 hr'
    have hfg : ∀ x, InDomain P.c.n P.c.dom x → f x = g x := by
      rcases ho2 a f hf with rfl | hf1
      · rw [← hf.fn, hd2.fn]
        intro x hx
        rw [hg x hx, hg2 x hx]
      · rcases ho1 a f hf1 with rfl | hf0
        · rw [← hf1.fn, hd.fn]
          exact fun _ _ => rfl
        · cases hf0
    exact same_root S.ok h2 rfl hf hd' hfg hr' hr)
  exact Ok.bindEq e1 (Ok.bindEq e2 (Ok.bindEq e3 (require_ok (by simp) (Ok.pure rfl))))

theorem oneVarSift_passes (S : Suitable P) {terms : List (List Nat)} (ht : ExprOK P.c.n terms) :
    Passes P (oneVarSift P.c terms) := by
  refine Reports.of S.ok fun w h => ?_
  unfold oneVarSift
  refine (diagram_ok S ht h rfl rfl false).bind ?_
  rintro d w1 ⟨T, g, h1, hd, hg, -, ho1⟩
  obtain ⟨k, e⟩ := message_ok S.ok h1 rfl hd
  refine Ok.bindEq e ?_
  obtain ⟨o2, w2, e2, -, -⟩ := sim (reachable_rel S.ok h1) (k := .forceGc) trivial
  have h2 := Reachable.step (k := .forceGc) h1 trivial e2
  refine Ok.bindEq e2 ?_
  obtain ⟨o3, w3, e3, -, -⟩ := sim (reachable_rel S.ok h2) (k := .forceReorder) trivial
  have h3 := Reachable.step (k := .forceReorder) h2 trivial e3
  refine Ok.bindEq e3 ?_
  have hd3 : (next P.c (next P.c (withSlots (SState.init P) T) .forceGc o2) .forceReorder o3).Has d g := hd
  obtain ⟨r, hr, -⟩ := (reachable_rel S.ok h3).has d g hd3
  obtain ⟨w4, k, e4, h4, hs, e5, e6⟩ := gc_counts S.ok h3 rfl hr (by
    intro a r' hr'
    obtain ⟨f, hf⟩ := has_of_root S.ok h3 hr'
    have hf' : (withSlots (SState.init P) T).Has a f := hf
    rcases ho1 a f hf' with rfl | hf0
    · rw [hr] at hr'
      exact (Option.some.inj (Option.some.inj hr')).symm
    · cases hf0)
  refine Ok.bindEq e4 (Ok.bindEq e6 (Ok.bindEq e5 (require_ok (by simp) ?_)))
  obtain ⟨it, -, e7, e8⟩ := visit_order S.ok h4
  refine Ok.bindEq e7 ?_
  exact compareEval_ok S.ok h4 hd3 hg (minMax_congr ht) (Ok.pure rfl)
    (fun x hx => inDomain_of_mem (reachable_rel S.ok h4).perm hx) (e8 fun x hx => evalExpr_ok S ht hx)

/-! ### Counting -/

theorem tally_ok {B : Nat} : ∀ (vs : List (List Nat × Int)) (cs : List Nat), cs.length ≤ B →
    (∀ p ∈ vs, 0 ≤ p.2 ∧ p.2 < B) → ∃ cs', tally vs cs = .ok cs' ∧ cs'.length ≤ B ∧
      ∀ j, cs'.getD j 0 = cs.getD j 0 + (vs.filter fun p => p.2 = (j : Int)).length
  | [], cs, hl, _ => ⟨cs, rfl, hl, by simp⟩
  | (l, v) :: vs, cs, hl, hv => by
      obtain ⟨h0, h1⟩ := hv (l, v) (by simp)
      dsimp only at h0 h1
      rw [tally, if_neg (by omega)]
      dsimp only
      obtain ⟨ds, hds, hdl, hdg, hdj⟩ : ∃ ds : List Nat,
          ds = (if cs.length ≤ v.toNat then cs ++ List.replicate (v.toNat + 1 - cs.length) 0 else cs) ∧ ds.length ≤ B ∧
            (∀ j, ds.getD j 0 = cs.getD j 0) ∧ v.toNat < ds.length := by
        refine ⟨_, rfl, ?_, ?_, ?_⟩
        · split_ifs
          · rw [List.length_append, List.length_replicate]; omega
          · exact hl
        · intro j
          split_ifs with hc
          · by_cases hj : j < cs.length
            · rw [List.getD_eq_getElem?_getD, List.getElem?_append_left hj, ← List.getD_eq_getElem?_getD]
            · have e : cs.getD j 0 = 0 := by
                rw [List.getD_eq_getElem?_getD, List.getElem?_eq_none (by omega)]; rfl
              rw [e, List.getD_eq_getElem?_getD, List.getElem?_append_right (by omega), List.getElem?_replicate]
              split_ifs <;> rfl
          · rfl
        · split_ifs
          · rw [List.length_append, List.length_replicate]; omega
          · omega
      rw [← hds]
      obtain ⟨cs', e, h2, h3⟩ := tally_ok vs (ds.set v.toNat (ds.getD v.toNat 0 + 1)) (by simpa using hdl)
        (fun p hp => hv p (by simp [hp]))
      refine ⟨cs', e, h2, fun j => ?_⟩
      rw [h3 j, ← hdg j]
      by_cases hj : j = v.toNat
      · subst hj
        have : v = (v.toNat : Int) := by omega
        rw [List.getD_eq_getElem?_getD, List.getElem?_set_self hdj, List.filter_cons_of_pos (by simpa using this),
          List.length_cons]
        simp only [Option.getD_some]
        omega
      · rw [List.getD_eq_getElem?_getD, List.getElem?_set_ne (fun h => hj h.symm), ← List.getD_eq_getElem?_getD,
          List.filter_cons_of_neg]
        simp only [decide_eq_true_eq]
        omega

theorem list_eq_range {l : List Nat} {f : Nat → Nat} (h : ∀ j < l.length, l.getD j 0 = f j) :
    l = (List.range l.length).map f := by
  refine List.ext_getElem (by simp) fun i h1 h2 => ?_
  have := h i h1
  rw [List.getD_eq_getElem?_getD, List.getElem?_eq_getElem h1] at this
  simpa using this

theorem expectedCounts_ok (S : Suitable P) {terms : List (List Nat)} (ht : ExprOK P.c.n terms) :
    ∃ cs, expectedCounts P.c terms = .ok cs ∧
      cs = (List.range cs.length).map (fun (j : Nat) => countValue P.c.n P.c.dom (minMaxVal terms) j) ∧
      ∀ m, P.c.fixedDom = some m → cs.length ≤ m := by
  obtain ⟨it, e1, e2⟩ := visit_domains S.ok
  have e3 := e2 fun x hx => evalExpr_ok S ht hx
  have key : ∀ B : Nat, (∀ x, InDomain P.c.n P.c.dom x → minMaxVal terms x < B) → ∃ cs,
      tally ((allAsg P.c.n P.c.dom).map fun x => (toList P.c.n x, minMaxVal terms x)) [] = .ok cs ∧ cs.length ≤ B ∧
      ∀ j, cs.getD j 0 = countValue P.c.n P.c.dom (minMaxVal terms) j := by
    intro B hB
    obtain ⟨cs, e, h1, h2⟩ := tally_ok (B := B) ((allAsg P.c.n P.c.dom).map fun x => (toList P.c.n x, minMaxVal terms x)) []
      (by simp) (by
        rintro p hp
        obtain ⟨x, hx, rfl⟩ := List.mem_map.1 hp
        have hx := inDomain_of_mem (.refl _) hx
        exact ⟨(vals_var S.ok S.fit _ (varVal_minMax ht hx)).1.1, hB x hx⟩)
    refine ⟨cs, e, h1, fun j => ?_⟩
    rw [h2 j]
    simp only [List.getD_nil, Nat.zero_add, List.filter_map, List.length_map, countValue]
    rfl
  have e4 : ∀ {cs}, tally ((allAsg P.c.n P.c.dom).map fun x => (toList P.c.n x, minMaxVal terms x)) [] = .ok cs →
      expectedCounts P.c terms = .ok cs := by
    intro cs h
    unfold expectedCounts
    rw [e1]
    show (do let vs ← visit P.c (evaluateMinMax terms) it; _) = _
    rw [e3]
    exact h
  cases hm : P.c.fixedDom with
  | some m =>
      obtain ⟨cs, h1, h2, h3⟩ := key m (by
        intro x hx
        obtain ⟨i, k, hi, hk, e⟩ := varVal_minMax ht hx
        have := S.ok.cfg.2 m hm i hi
        omega)
      exact ⟨cs, e4 h1, list_eq_range fun j _ => h3 j, fun m' h => by cases h; exact h2⟩
  | none =>
      obtain ⟨cs, h1, h2, h3⟩ := key 2147483647 (by
        intro x hx
        have := (vals_var S.ok S.fit _ (varVal_minMax ht hx)).2
        rw [nd_val] at this
        omega)
      exact ⟨cs, e4 h1, list_eq_range fun j _ => h3 j, fun m' h => by cases h⟩

theorem mapL_asks {α β : Type} {f : α → SM World β} {g : α → β} : ∀ {l : List α}, (∀ a ∈ l, f a w = .ok (g a, w)) →
    mapL f l w = .ok (l.map g, w)
  | [], _ => rfl
  | a :: l, h => by
      simp only [mapL]
      rw [bind_ok (h a (by simp)), bind_ok (mapL_asks fun b hb => h b (by simp [hb]))]
      rfl

theorem satisfyCount_passes (S : Suitable P) {terms : List (List Nat)} (ht : ExprOK P.c.n terms) :
    Passes P (satisfyCount P.c terms) := by
  refine Reports.of S.ok fun w h => ?_
  unfold satisfyCount
  refine (diagram_ok S ht h rfl rfl false).bind ?_
  rintro d w1 ⟨T, g, h1, hd, hg, -, -⟩
  obtain ⟨k, e⟩ := message_ok S.ok h1 rfl hd
  refine Ok.bindEq e ?_
  obtain ⟨cs, e1, e2, hm⟩ := expectedCounts_ok S ht
  refine Ok.bindEq (lift_ok e1) ?_
  refine Ok.bindEq (mapL_asks (g := fun (j : Nat) => (countValue P.c.n P.c.dom (minMaxVal terms) j : Int)) ?_)
    (require_ok ?_ (Ok.pure rfl))
  · intro j hj
    obtain ⟨o, e3, rfl⟩ := asks (k := .satisfyCount j d) S.ok h1 ⟨rfl, S.count, ⟨g, hd⟩, fun m h _ => by
      have := hm m h
      have := List.mem_range.1 hj
      omega⟩ rfl
    rw [hd.fn, Spec.SameOn.countValue (g := minMaxVal terms) hg] at e3
    exact askInt_ok e3
  · refine decide_eq_true ?_
    conv => rhs; rw [e2]
    rw [List.map_map]
    rfl

theorem satisfyAll_passes (S : Suitable P) {terms : List (List Nat)} (ht : ExprOK P.c.n terms) :
    Passes P (satisfyAll P.c terms) := by
  refine Reports.of S.ok fun w h => ?_
  unfold satisfyAll
  refine (diagram_ok S ht h rfl rfl false).bind ?_
  rintro d w1 ⟨T, g, h1, hd, hg, -, -⟩
  obtain ⟨k, e⟩ := message_ok S.ok h1 rfl hd
  refine Ok.bindEq e ?_
  obtain ⟨cs, e1, e2, hm⟩ := expectedCounts_ok S ht
  refine Ok.bindEq (lift_ok e1) ?_
  have R := reachable_rel S.ok h1
  refine Ok.bindEq (mapL_asks (g := fun (j : Nat) => countValue P.c.n P.c.dom (minMaxVal terms) j) ?_)
    (require_ok (decide_eq_true e2.symm) (Ok.pure rfl))
  intro j hj
  obtain ⟨o, e3, rfl⟩ := asks (k := .satisfyAll j d) S.ok h1 ⟨⟨g, hd⟩, fun m h _ => by
    have := hm m h
    have := List.mem_range.1 hj
    omega⟩ rfl
  rw [hd.fn, Spec.SameOn.filter (g := minMaxVal terms) hg R.perm] at e3
  rw [bind_ok (askAsgs_ok e3)]
  show Except.ok (_, w1) = _
  have hp := perm_assignments (dom := P.c.dom) R.perm R.nodup
  rw [List.length_map, (hp.filter _).length_eq]
  rfl

theorem satisfyOneLoop_ok (hP : P.OK) (h : Reachable P w σ) {d : Nat} {g f : Asg → Int} (hd : σ.Has d g)
    (hg : ∀ x, InDomain P.c.n P.c.dom x → g x = f x) (hf : ∀ x y, toList P.c.n x = toList P.c.n y → f x = f y)
    {rest : SM World Bool} {Q : Bool → World → Prop} (hr : Ok rest w Q) : ∀ js : List Nat,
    (∀ j ∈ js, (∀ m, P.c.fixedDom = some m → j < m) ∧ ∃ x, InDomain P.c.n P.c.dom x ∧ f x = j) →
    Ok (satisfyOneLoop P.c d js rest) w Q
  | [], _ => hr
  | j :: js, hj => by
      obtain ⟨hm, y, hy, ey⟩ := hj j (by simp)
      obtain ⟨o, e, r, rfl, h1, -⟩ := asks (k := .satisfyOne j d) hP h ⟨⟨g, hd⟩, fun m h _ => by
        have := hm m h
        omega⟩ rfl
      rw [satisfyOneLoop]
      refine Ok.bindEq (askAsg_ok e) ?_
      cases r with
      | none =>
          have := h1 y hy
          rw [hd.fn, hg y hy] at this
          exact absurd ey this
      | some l =>
          obtain ⟨x, hx, ex, rfl⟩ := h1
          rw [hd.fn, hg x hx] at ex
          refine Ok.bindEq (evaluate_ok hP h hd hg hf hx) (require_ok (decide_eq_true ex.symm) ?_)
          exact satisfyOneLoop_ok hP h hd hg hf hr js fun j' h' => hj j' (by simp [h'])

theorem satisfyOneLoop_false (hP : P.OK) (h : Reachable P w σ) {d : Nat} {g f : Asg → Int} (hd : σ.Has d g)
    (hg : ∀ x, InDomain P.c.n P.c.dom x → g x = f x) (hf : ∀ x y, toList P.c.n x = toList P.c.n y → f x = f y)
    {rest : SM World Bool} : ∀ js : List Nat, (∀ j ∈ js, ∀ m, P.c.fixedDom = some m → j < m) →
    (∃ j ∈ js, ∀ x, InDomain P.c.n P.c.dom x → f x ≠ j) → Ok (satisfyOneLoop P.c d js rest) w (fun r _ => r = false)
  | [], _, hn => by obtain ⟨j, hj, -⟩ := hn; cases hj
  | j :: js, hm, hn => by
      obtain ⟨o, e, r, rfl, h1, -⟩ := asks (k := .satisfyOne j d) hP h ⟨⟨g, hd⟩, fun m h _ => by
        have := hm j (by simp) m h
        omega⟩ rfl
      rw [satisfyOneLoop]
      refine Ok.bindEq (askAsg_ok e) ?_
      cases r with
      | none => exact Ok.pure rfl
      | some l =>
          obtain ⟨x, hx, ex, rfl⟩ := h1
          rw [hd.fn, hg x hx] at ex
          refine Ok.bindEq (evaluate_ok hP h hd hg hf hx) (require_ok (decide_eq_true ex.symm) ?_)
          refine satisfyOneLoop_false hP h hd hg hf js (fun j' h' => hm j' (by simp [h'])) ?_
          obtain ⟨j', hj', hn⟩ := hn
          rcases List.mem_cons.1 hj' with rfl | hj'
          · exact absurd ex (hn x hx)
          · exact ⟨j', hj', hn⟩

theorem satisfyOneConst_ok (S : Suitable P) (h : Reachable P w σ) :
    Ok (satisfyOneConst P.c) w (fun r _ => r = true) := by
  unfold satisfyOneConst
  have hm : ∀ m, P.c.fixedDom = some m → (1 : Int) < m := by
    intro m hm
    have h0 : 0 < P.c.n := Nat.lt_of_lt_of_le Nat.two_pos S.ok.vars
    have := S.two 0 h0
    rw [S.ok.cfg.2 m hm 0 h0] at this
    omega
  refine (newSlot_ok (k := .constant 1) S.ok h S.term1 rfl fun _ => rfl).bind ?_
  rintro j w1 ⟨rfl, h1⟩
  have hd : (withSlots σ (σ.slots ++ [some fun _ => (1 : Int)])).Has σ.slots.length (fun _ => 1) := by
    simp [SState.Has, withSlots]
  obtain ⟨o, e, r, rfl, h2, -⟩ := asks (k := .satisfyOne 0 σ.slots.length) S.ok h1 ⟨⟨_, hd⟩, fun m h _ => by
    have := hm m h; omega⟩ rfl
  refine Ok.bindEq (askAsg_ok e) ?_
  obtain ⟨o', e', r', rfl, h3, -⟩ := asks (k := .satisfyOne 1 σ.slots.length) S.ok h1 ⟨⟨_, hd⟩, fun m h _ => hm m h⟩ rfl
  refine Ok.bindEq (askAsg_ok e') ?_
  rw [hd.fn] at h2 h3
  have hz : InDomain P.c.n P.c.dom fun _ => 0 := fun i hi => S.ok.cfg.1 i hi
  cases r with
  | some l =>
      obtain ⟨x, _, ex, _⟩ := h2
      cases ex
  | none =>
      refine require_ok rfl ?_
      cases r' with
      | none => exact absurd rfl (h3 _ hz)
      | some l =>
          obtain ⟨x, hx, ex, rfl⟩ := h3
          exact Ok.bindEq (evaluate_ok (f := fun _ => 1) S.ok h1 hd (fun _ _ => rfl) (fun _ _ _ => rfl) hx)
            (require_ok rfl (Ok.pure rfl))

theorem satisfyOne_passes (S : Suitable P) {terms : List (List Nat)} (ht : ExprOK P.c.n terms) {mv : Nat}
    (hmv : ∀ m, P.c.fixedDom = some m → mv ≤ m)
    (hall : ∀ j < mv, ∃ x, InDomain P.c.n P.c.dom x ∧ minMaxVal terms x = j) :
    Passes P (satisfyOne P.c mv terms) := by
  refine Reports.of S.ok fun w h => ?_
  unfold satisfyOne
  refine (diagram_ok S ht h rfl rfl false).bind ?_
  rintro d w1 ⟨T, g, h1, hd, hg, -, -⟩
  obtain ⟨k, e⟩ := message_ok S.ok h1 rfl hd
  refine Ok.bindEq e ?_
  refine satisfyOneLoop_ok S.ok h1 hd hg (minMax_congr ht) (satisfyOneConst_ok S h1) _ fun j hj => ?_
  have hj := List.mem_range.1 hj
  exact ⟨fun m hm => by have := hmv m hm; omega, hall j hj⟩

theorem satisfyOne_fails (S : Suitable P) {terms : List (List Nat)} (ht : ExprOK P.c.n terms) {mv : Nat}
    (hmv : ∀ m, P.c.fixedDom = some m → mv ≤ m)
    (hn : ∃ j < mv, ∀ x, InDomain P.c.n P.c.dom x → minMaxVal terms x ≠ j) :
    Reports P (satisfyOne P.c mv terms) false := by
  refine Reports.of S.ok fun w h => ?_
  unfold satisfyOne
  refine (diagram_ok S ht h rfl rfl false).bind ?_
  rintro d w1 ⟨T, g, h1, hd, hg, -, -⟩
  obtain ⟨k, e⟩ := message_ok S.ok h1 rfl hd
  refine Ok.bindEq e ?_
  obtain ⟨j, hj, hn⟩ := hn
  exact satisfyOneLoop_false S.ok h1 hd hg (minMax_congr ht) _
    (fun j hj m hm => by have := hmv m hm; have := List.mem_range.1 hj; omega) ⟨j, List.mem_range.2 hj, hn⟩

/-! ### Operations -/

theorem opType_other (c : Cfg) {op : BinOp} (h : op.id ≠ Op.MAX.id) : opType c op = op := by
  unfold opType
  cases c.fixedDom with
  | none => rfl
  | some m => simp [h]

/-- Applied to the values of `f` and `g`, the operations do the same. -/
def Same (P : Setup) (op' op : BinOp) (f g : Asg → Int) : Prop :=
  op' = op ∨ op'.id = op.id ∧ op'.comm = op.comm ∧ op'.id ≠ Op.MAX.id ∧
    ∃ v, g = (fun _ => v) ∧ ∀ u, Range P.c f u ∨ u = Nondetermined → op'.fn u v = op.fn u v

/-- One requirement. -/
theorem applyEquals_ok (hP : P.OK) (h : Reachable P w σ) (hauto : σ.auto = false) (hcache : σ.cacheOK = true)
    (hcanon : σ.canon = true) {op : BinOp} (hΓ : P.Γ (opType P.c op).id = opType P.c op) {a b e : Nat}
    {f g r : Asg → Int} (ha : σ.Has a f) (hb : σ.Has b g) (he : σ.Has e r)
    (hop : OpOK P.c (opType P.c op) (Range P.c f) (Range P.c g))
    (hv : ∀ x, InDomain P.c.n P.c.dom x → (opType P.c op).val (f x) (g x) = r x)
    {op' : BinOp} (ho : Same P op' op f g) {rest : SM World Bool} {Q : Bool → World → Prop}
    (hr : ∀ w', Reachable P w' (withSlots σ (σ.slots ++ [none])) → Ok rest w' Q) :
    Ok (applyEquals P.c op' a b e rest) w Q := by
  unfold applyEquals
  have es : newSlot P.c (.apply op' a b) w = newSlot P.c (.apply op a b) w := by
    rcases ho with rfl | ⟨h1, h2, h3, v, rfl, h4⟩
    · rfl
    · have hid : opType P.c op = op := opType_other P.c (by rw [← h1]; exact h3)
      rw [hid] at hΓ hop
      unfold newSlot
      rw [bind_run, bind_run,
        exec_apply_congr (reachable_rel hP h) hcanon hcache h1 h2 h3 hΓ ha hb (fun _ _ => rfl) hop h4]
  obtain ⟨j, w1, e1, rfl, h1⟩ := newSlot_ok (k := .apply op a b) hP h ⟨hcache, hΓ, f, g, ha, hb, hop⟩ rfl (fun _ => rfl)
  refine Ok.bindEq (es.trans e1) ?_
  have hl : e < σ.slots.length := he.lt
  refine Ok.bindEq (equals_ok hP h1 hcanon (d := σ.slots.length) (e := e)
    (f := fun x => (opType P.c op).val (σ.fn a x) (σ.fn b x)) (g := r) ?_ ?_ ?_) ?_
  · simp [SState.Has, withSlots]
  · show (σ.slots ++ _)[e]? = _
    rw [List.getElem?_append_left hl]; exact he
  · rw [ha.fn, hb.fn]; exact hv
  obtain ⟨o, w2, e2, -, -⟩ := sim (reachable_rel hP h1) (k := .drop σ.slots.length) (by simp [Adm, withSlots])
  have h2 := Reachable.step (k := .drop σ.slots.length) h1 (by simp [Adm, withSlots]) e2
  refine Ok.bindEq e2 (require_ok rfl (hr w2 ?_))
  simpa [next, withSlots] using h2

theorem has_none {j : Nat} {f : Asg → Int} (h : σ.Has j f) : (withSlots σ (σ.slots ++ [none])).Has j f := by
  show (σ.slots ++ _)[j]? = _
  rw [List.getElem?_append_left h.lt]; exact h

theorem has_some {j : Nat} {f : Asg → Int} (o : Asg → Int) (h : σ.Has j f) :
    (withSlots σ (σ.slots ++ [some o])).Has j f := by
  show (σ.slots ++ _)[j]? = _
  rw [List.getElem?_append_left h.lt]; exact h

theorem has_new (σ : SState) (o : Asg → Int) : (withSlots σ (σ.slots ++ [some o])).Has σ.slots.length o := by
  simp [SState.Has, withSlots]

/-- The requirement `apply<op>(a, b).equals(e)` is met. -/
def Req (P : Setup) (σ : SState) (r : BinOp × Nat × Nat × Nat) : Prop :=
  ∃ op, P.Γ (opType P.c op).id = opType P.c op ∧ ∃ f g v, σ.Has r.2.1 f ∧ σ.Has r.2.2.1 g ∧ σ.Has r.2.2.2 v ∧
    OpOK P.c (opType P.c op) (Range P.c f) (Range P.c g) ∧
    (∀ x, InDomain P.c.n P.c.dom x → (opType P.c op).val (f x) (g x) = v x) ∧ Same P r.1 op f g

theorem checks_ok (hP : P.OK) {σ0 : SState} : ∀ (rs : List (BinOp × Nat × Nat × Nat)) {w : World} {σ : SState},
    Reachable P w σ → σ.auto = false → σ.cacheOK = true → σ.canon = true → (∀ j f, σ0.Has j f → σ.Has j f) →
    (∀ r ∈ rs, Req P σ0 r) → Ok (checks P.c rs) w (fun r _ => r = true)
  | [], _, _, _, _, _, _, _, _ => Ok.pure rfl
  | (op, a, b, e) :: rs, w, σ, h, h1, h2, h3, hk, hr => by
      obtain ⟨op', hΓ, f, g, v, hf, hg, hv, hop, hval, hs⟩ := hr _ (List.mem_cons_self ..)
      rw [checks]
      refine applyEquals_ok hP h h1 h2 h3 hΓ (hk _ _ hf) (hk _ _ hg) (hk _ _ hv) hop hval hs fun w' h' => ?_
      exact checks_ok hP rs h' h1 h2 h3 (fun j f hj => has_none (hk j f hj)) fun r hm => hr r (List.mem_cons_of_mem _ hm)

/-- The largest value of a variable. -/
theorem sup_ok (S : Suitable P) : ∃ i k : Nat, i < P.c.n ∧ k < P.c.dom i ∧ 1 ≤ k ∧
    ((domainsOf P.c).max?.getD 0 - 1 : Int) = k := by
  have h0 : 0 < P.c.n := Nat.lt_of_lt_of_le Nat.two_pos S.ok.vars
  cases h : (domainsOf P.c).max? with
  | none =>
      rw [List.max?_eq_none_iff, domainsOf_eq] at h
      simp [toList] at h
      omega
  | some v =>
      have hm := List.max?_mem h
      rw [domainsOf_eq] at hm
      obtain ⟨i, hi, rfl⟩ := List.mem_map.1 hm
      have hi := List.mem_range.1 hi
      have := S.two i hi
      refine ⟨i, P.c.dom i - 1, hi, by omega, by omega, ?_⟩
      simp only [Option.getD_some]
      omega

/-- A new diagram, without the details of the state. -/
theorem slot_ok {k : Call} (hP : P.OK) (h : Reachable P w σ) (hk : Adm P σ k) {f : Asg → Int}
    (hm : made P.c σ k = some f) (hn : ∀ o, next P.c σ k o = withSlots σ (σ.slots ++ [some f])) (hauto : σ.auto = false) :
    Ok (newSlot P.c k) w (fun j w' => ∃ T, Reachable P w' (withSlots σ T) ∧ (withSlots σ T).Has j f ∧
      ∀ i g, σ.Has i g → (withSlots σ T).Has i g) := by
  refine (newSlot_ok hP h hk hm hn fun _ => hauto).mono ?_
  rintro j w' ⟨rfl, h'⟩
  exact ⟨_, h', has_new σ f, fun i g hi => has_some f hi⟩

theorem operators1_passes (S : Suitable P) {terms : List (List Nat)} (ht : ExprOK P.c.n terms) :
    Passes P (operators1 P.c terms) := by
  refine Reports.of S.ok fun w h => ?_
  unfold operators1
  refine (diagram_ok S ht h rfl rfl false).bind ?_
  rintro d w1 ⟨T, g, h1, hd, hg, -, -⟩
  obtain ⟨k, e⟩ := message_ok S.ok h1 rfl hd
  refine Ok.bindEq e ?_
  obtain ⟨si, sk, hsi, hsk, hs1, hs⟩ := sup_ok S
  have t1 := S.term1
  have t0 : TermOK P.c 0 := t1.of_le (by omega) (by omega)
  have vsup : VarVal P.c sk := ⟨si, sk, hsi, hsk, rfl⟩
  have tsup := vals_var S.ok S.fit _ vsup
  have v0 : VarVal P.c 0 := ⟨si, 0, hsi, by omega, rfl⟩
  have v1 : VarVal P.c 1 := ⟨si, 1, hsi, by omega, rfl⟩
  rw [hs]
  refine (slot_ok (k := .constant 0) S.ok h1 t0 rfl (fun _ => rfl) rfl).bind ?_
  rintro zer w2 ⟨T2, h2, hz2, k2⟩
  refine (slot_ok (k := .constant 1) S.ok h2 t1 rfl (fun _ => rfl) rfl).bind ?_
  rintro one w3 ⟨T3, h3, ho3, k3⟩
  refine (slot_ok (k := .constant sk) S.ok h3 tsup.1 rfl (fun _ => rfl) rfl).bind ?_
  rintro sup w4 ⟨T4, h4, hs4, k4⟩
  have hd4 := k4 _ _ (k3 _ _ (k2 _ _ hd))
  refine (slot_ok (k := .transform (fun v => if v ≠ 0 then 1 else 0) d) S.ok h4 ⟨g, hd4, ?_⟩ rfl (fun _ => rfl)
    rfl).bind ?_
  · intro v _
    by_cases hv : v = 0
    · simpa [hv] using t0
    · simpa [hv] using t1
  rintro b w5 ⟨T5, h5, hb, k5⟩
  have hz := k5 _ _ (k4 _ _ (k3 _ _ hz2))
  have ho := k5 _ _ (k4 _ _ ho3)
  have hsu := k5 _ _ hs4
  obtain ⟨B, hb, hB⟩ : ∃ B, (withSlots (withSlots (withSlots (withSlots (withSlots (SState.init P) T) T2) T3) T4) T5).Has b B ∧
      ∀ x, B x = 0 ∨ B x = 1 := ⟨_, hb, fun x => by dsimp only; split <;> simp⟩
  refine checks_ok S.ok _ h5 rfl rfl rfl (fun _ _ hj => hj) ?_
  have bB : Bits (Range P.c B) := by rintro v ⟨x, -, rfl⟩; exact hB x
  have b0 : Bits (Range P.c fun _ => 0) := by rintro v ⟨x, -, rfl⟩; exact .inl rfl
  have b1 : Bits (Range P.c fun _ => 1) := by rintro v ⟨x, -, rfl⟩; exact .inr rfl
  have vS : Vals P.c (Range P.c fun _ => (sk : Int)) := by rintro v ⟨x, -, rfl⟩; exact tsup
  have vB := bB.vals t1
  have w0 : ∀ v, Range P.c (fun _ => 0) v → VarVal P.c v := by rintro v ⟨x, -, rfl⟩; exact v0
  have wS : ∀ v, Range P.c (fun _ => (sk : Int)) v → VarVal P.c v := by rintro v ⟨x, -, rfl⟩; exact vsup
  have wB' : ∀ x, VarVal P.c (B x) := fun x => by
    rcases hB x with e | e <;> rw [e]
    · exact v0
    · exact v1
  have wB : ∀ v, Range P.c B v → VarVal P.c v := by rintro v ⟨x, -, rfl⟩; exact wB' x
  have oMax := opOK_opTypeMAX S.ok S.fit
  have hΓ := S.ops
  simp only [List.forall_mem_cons] at hΓ ⊢
  obtain ⟨g1, g2, g3, g4, g5, g6, g7, g8, g9, g10, g11, g12, g13, -⟩ := hΓ
  have oTimes {A B : Int → Prop} (hA : Bits A) (hB : Bits B) : OpOK P.c (Op.MULTIPLIESwrap 4) A B :=
    .of_bits t1 hA hB (by decide +kernel) (by decide +kernel)
  have oPlus : OpOK P.c (Op.PLUSwrap 4) (Range P.c B) (Range P.c fun _ => 0) := by
    refine ⟨vB.ne, (b0.vals t1).ne, fun a' b' ha hb => ?_, fun _ a b ha hb => ?_⟩
    · have hb : b' = 0 ∨ b' = Nondetermined := hb.imp_left fun ⟨_, _, h⟩ => h.symm
      have ha : (a' = 0 ∨ a' = 1) ∨ a' = Nondetermined := ha.imp_left (bB a')
      have table : ∀ a' ∈ [0, 1, Nondetermined], ∀ b' ∈ [0, Nondetermined], ∃ v ∈ [0, 1, Nondetermined],
          (Op.PLUSwrap 4).fn a' b' = .ok v ∧ (v = Nondetermined → a' = Nondetermined ∨ b' = Nondetermined) ∧
          (v ≠ Nondetermined → ∀ a ∈ [0, 1], (a' = Nondetermined ∨ a = a') → (Op.PLUSwrap 4).fn a 0 = .ok v) := by
        decide +kernel
      obtain ⟨v, hv, e1, e2, e3⟩ := table a' (by simpa [or_assoc] using ha) b' (by simpa using hb)
      refine ⟨v, e1, e2, fun hn => ⟨?_, fun a b hA hB h1 _ => ?_⟩⟩
      · simp only [List.mem_cons, List.not_mem_nil, or_false] at hv
        rcases hv with rfl | rfl | rfl
        · exact t0
        · exact t1
        · exact absurd rfl hn
      · obtain ⟨_, _, rfl⟩ := hB
        exact e3 hn a (by simpa using bB a hA) h1
    · obtain ⟨_, _, rfl⟩ := hb
      dsimp only
      rcases bB a ha with rfl | rfl <;> decide
  have one' {op : BinOp} {a b e : Nat} {f g r : Asg → Int} {σ : SState} (hid : op.id ≠ Op.MAX.id)
      (hΓ : P.Γ (opType P.c op).id = opType P.c op) (ha : σ.Has a f) (hb : σ.Has b g) (he : σ.Has e r)
      (hop : OpOK P.c op (Range P.c f) (Range P.c g)) (hv : ∀ x, op.val (f x) (g x) = r x) {op' : BinOp}
      (hs : Same P op' op f g) : Req P σ (op', a, b, e) := by
    refine ⟨op, hΓ, f, g, r, ha, hb, he, ?_, fun x _ => ?_, hs⟩
    · rw [opType_other _ hid]; exact hop
    · rw [opType_other _ hid]; exact hv x
  have one {op : BinOp} {a b e : Nat} {f g r : Asg → Int} {σ : SState} (hid : op.id ≠ Op.MAX.id)
      (hΓ : P.Γ (opType P.c op).id = opType P.c op) (ha : σ.Has a f) (hb : σ.Has b g) (he : σ.Has e r)
      (hop : OpOK P.c op (Range P.c f) (Range P.c g)) (hv : ∀ x, op.val (f x) (g x) = r x) : Req P σ (op, a, b, e) :=
    one' hid hΓ ha hb he hop hv (.inl rfl)
  have same {op' op : BinOp} {v : Int} (h1 : op'.id = op.id) (h2 : op'.comm = op.comm) (h3 : op'.id ≠ Op.MAX.id)
      (h : ∀ u ∈ [0, 1, Nondetermined], op'.fn u v = op.fn u v) : Same P op' op B (fun _ => v) := by
    refine .inr ⟨h1, h2, h3, v, rfl, fun u hu => h u ?_⟩
    rcases hu with hu | rfl
    · rcases bB u hu with rfl | rfl <;> simp
    · simp
  have kk : (sk : Int) < Nondetermined := tsup.2
  refine ⟨one (by decide) g1 hb hz hz (opOK_AND vB (b0.vals t1)) ?_, one (by decide) g1 hb ho hb (opOK_AND vB (b1.vals t1)) ?_,
    one (by decide) g2 hb ho ho (opOK_OR t1 bB b1) ?_, one (by decide) g2 hb hz hb (opOK_OR t1 bB b0) ?_,
    one (by decide) g3 hb hb hz (opOK_XOR t1 bB bB) ?_,
    one' (by decide) g12 hb hz hz (oTimes bB b0) ?_ (same rfl rfl (by decide) (by decide +kernel)),
    one' (by decide) g12 hb ho hb (oTimes bB b1) ?_ (same rfl rfl (by decide) (by decide +kernel)),
    one' (by decide) g13 hb hz hb oPlus ?_ (same rfl rfl (by decide) (by decide +kernel)), one (by decide) g4 hb hb ho (opOK_EQUAL_TO t1 vB vB) ?_,
    one (by decide) g5 hb hb hz (opOK_NOT_EQUAL_TO t1 vB vB) ?_, one (by decide) g6 hb hb hz (opOK_LESS t1 vB vB) ?_,
    one (by decide) g7 hb hb hz (opOK_GREATER t1 vB vB) ?_, one (by decide) g8 hb hb ho (opOK_LESS_EQUAL t1 vB vB) ?_,
    one (by decide) g9 hb hb ho (opOK_GREATER_EQUAL t1 vB vB) ?_, one (by decide) g10 hb hz hz (opOK_MIN vB (b0.vals t1)) ?_,
    one (by decide) g10 hb hsu hb (opOK_MIN vB vS) ?_,
    ⟨_, g11, _, _, _, hb, hsu, hsu, oMax.mono wB wS, ?_, .inl rfl⟩, ⟨_, g11, _, _, _, hb, hz, hb, oMax.mono wB w0, ?_, .inl rfl⟩,
    fun _ h => nomatch h⟩
  case refine_16 =>
    intro x
    rw [val_MIN (by rw [nd_val]; rcases hB x with e | e <;> omega) kk]
    rcases hB x with e | e <;> omega
  case refine_17 =>
    intro x _
    rw [opType_MAX S.ok (wB' x) vsup]
    rcases hB x with e | e <;> omega
  case refine_18 =>
    intro x _
    rw [opType_MAX S.ok (wB' x) v0]
    rcases hB x with e | e <;> omega
  all_goals intro x; rcases hB x with e | e <;> rw [e] <;> decide

/-! ### Vectors -/

/-- `from_vector` of the values of an expression. -/
theorem vector_ok (S : Suitable P) {terms : List (List Nat)} (ht : ExprOK P.c.n terms) (h : Reachable P w σ)
    (hauto : σ.auto = false) (hcanon : σ.canon = true) {d : Nat} {g : Asg → Int} (hd : σ.Has d g)
    (hg : ∀ x, InDomain P.c.n P.c.dom x → g x = minMaxVal terms x) :
    Ok (do
      let v ← newSlot P.c (.fromVector (truthVector P.c.dom σ.order (minMaxVal terms)))
      let b ← askBool P.c (.equals d v)
      require b (pure true)) w (fun r _ => r = true) := by
  have R := reachable_rel S.ok h
  refine (slot_ok (k := .fromVector (truthVector P.c.dom σ.order (minMaxVal terms))) S.ok h ⟨S.count, ?_, ?_⟩ rfl
    (fun _ => rfl) hauto).bind ?_
  · rw [truthVector, List.length_map, length_assignments, domProd, (R.perm.map P.c.dom).prod_eq]
  · intro v hv
    obtain ⟨x, hx, rfl⟩ := List.mem_map.1 hv
    exact (vals_var S.ok S.fit _ (varVal_minMax ht (inDomain_of_mem R.perm hx))).1
  rintro v w1 ⟨T, h1, hv, hk⟩
  refine Ok.bindEq (equals_ok S.ok h1 hcanon (hk _ _ hd) hv fun x hx => ?_) (require_ok rfl (Ok.pure rfl))
  rw [hg x hx, getD_truthVector R.nodup (fun i hi => hx i (List.mem_range.1 (R.perm.mem_iff.1 hi)))]
  intro y hy
  refine minMax_congr ht y x (List.map_congr_left fun i hi => ?_)
  exact hy i (R.perm.mem_iff.2 hi)

theorem fromVector_passes (S : Suitable P) {terms : List (List Nat)} (ht : ExprOK P.c.n terms) :
    Passes P (fromVector P.c terms) := by
  refine Reports.of S.ok fun w h => ?_
  unfold fromVector
  refine (diagram_ok S ht h rfl rfl false).bind ?_
  rintro d w1 ⟨T, g, h1, hd, hg, -, -⟩
  obtain ⟨k, e⟩ := message_ok S.ok h1 rfl hd
  refine Ok.bindEq e ?_
  obtain ⟨it, -, e1, e2⟩ := visit_order S.ok h1
  refine Ok.bindEq e1 (Ok.bindEq (lift_ok (e2 fun x hx => evalExpr_ok S ht hx)) ?_)
  have := vector_ok S ht h1 rfl rfl hd hg
  rw [truthVector] at this
  rw [List.map_map]
  exact this

theorem toVector_passes (S : Suitable P) {terms : List (List Nat)} (ht : ExprOK P.c.n terms) :
    Passes P (toVector P.c terms) := by
  refine Reports.of S.ok fun w h => ?_
  unfold toVector
  refine (diagram_ok S ht h rfl rfl false).bind ?_
  rintro d w1 ⟨T, g, h1, hd, hg, -, -⟩
  obtain ⟨k, e⟩ := message_ok S.ok h1 rfl hd
  refine Ok.bindEq e ?_
  obtain ⟨o, e1, rfl⟩ := asks (k := .toVector d) S.ok h1 ⟨⟨g, hd⟩, S.count⟩ rfl
  have R := reachable_rel S.ok h1
  have : truthVector P.c.dom (withSlots (SState.init P) T).order ((withSlots (SState.init P) T).fn d) =
      truthVector P.c.dom (withSlots (SState.init P) T).order (minMaxVal terms) := by
    rw [hd.fn]
    exact List.map_congr_left fun x hx => hg x (inDomain_of_mem R.perm hx)
  rw [this] at e1
  exact Ok.bindEq (askInts_ok e1) (vector_ok S ht h1 rfl rfl hd hg)

/-! ### Expression trees -/

theorem nodeVal_congr {n : Nat} (x y : Asg) (h : toList n x = toList n y) {e : ExprNode} (hv : ∀ i ∈ e.vars, i < n) :
    nodeVal x e = nodeVal y e := by
  have h1 := evaluateNode_ok (x := x) hv
  rw [h, evaluateNode_ok hv] at h1
  exact (Except.ok.inj h1).symm

theorem fromExpression_passes (S : Suitable P) {ch : Nat → Choice} (hc : ∀ p, 2 ≤ (ch p).denom) :
    Passes P (fromExpression P.c ch) := by
  refine Reports.of S.ok fun w h => ?_
  unfold fromExpression
  have hn : 1 ≤ P.c.n := by have := S.ok.vars; omega
  obtain ⟨e, s, e1, -, ⟨hv, hcs⟩, -⟩ := treeGo_ok hc P.c.n P.c.n ⟨0, 0⟩ hn (Nat.le_refl _)
  have e2 : makeTree ch P.c.n = .ok e := by simp only [makeTree, e1]; rfl
  have hvars : ∀ i ∈ e.vars, i < P.c.n := by
    intro i hi
    have := hv.mem_iff.1 hi
    simp at this
    omega
  refine Ok.bindEq (lift_ok e2) ?_
  have hadm : Adm P (SState.init P) (.fromExpr e.toExpr) := toExpr_ok S.ok S.fit hvars (by simp [hcs])
  obtain ⟨o, w1, e3, ho, -⟩ := sim (reachable_rel S.ok h) (k := .fromExpr e.toExpr) hadm (fun _ => rfl)
  have h1 := Reachable.step h hadm e3 (fun _ => rfl)
  have ho : o = .slot 0 := ho
  subst ho
  refine Ok.bindEq (a := 0) (s' := w1) ?_ ?_
  · unfold newSlot; rw [bind_ok e3]; rfl
  obtain ⟨it, e4, e5⟩ := visit_domains S.ok
  refine Ok.bindEq (lift_ok e4) ?_
  have hd : (next P.c (SState.init P) (.fromExpr e.toExpr) (.slot 0)).Has 0 (fun x => e.toExpr.val x) := rfl
  refine compareEval_ok S.ok h1 hd (f := fun x => nodeVal x e) (fun x _ => toExpr_val x e)
    (fun x y hxy => nodeVal_congr x y hxy hvars) (Ok.pure rfl) (fun x hx => inDomain_of_mem (.refl _) hx)
    (e5 fun x hx => evaluateNode_ok hvars)

/-! ### Cofactors -/

theorem updAll_two (x : Asg) {i1 i2 : Nat} (a b : Nat) (hne : i1 ≠ i2) :
    updAll x [(i1, a), (i2, b)] = upd (upd x i1 a) i2 b := by
  funext i
  simp only [updAll, findVar, upd]
  by_cases h1 : i = i1
  · subst h1; simp [hne]
  · by_cases h2 : i = i2
    · subst h2; simp [Ne.symm h1]
    · simp [h1, h2, Ne.symm h1, Ne.symm h2]

/-- The part of the test after the iterator has been made. -/
def cofactorRest (c : Cfg) (terms : List (List Nat)) (d1 d2 : Nat) (it : DomIter) : SM World Bool :=
  compareEval c (evaluateMinMax terms) it d1 <|
    compareEval c (evaluateMinMax terms) it d2 <| do
      let b ← askBool c (.equals d1 d2)
      require b (pure true)

/-- The part of the test before the iterator is made. -/
theorem cofactor_start (S : Suitable P) {terms : List (List Nat)} (ht : ExprOK P.c.n terms)
    (h : Reachable P w (SState.init P)) {i1 i2 : Nat} (hi1 : i1 < P.c.n) (hi2 : i2 < P.c.n) (hne : i1 ≠ i2)
    (mk : List Nat → List Nat → List (Nat × Nat) → Except Err DomIter) :
    ∃ w' σ d1 d2 g1 g2, Reachable P w' σ ∧ σ.canon = true ∧ σ.Has d1 g1 ∧ σ.Has d2 g2 ∧ 
      (∀ x, InDomain P.c.n P.c.dom x → g1 x = minMaxVal terms (upd (upd x i1 0) i2 1)) ∧
      (∀ x, InDomain P.c.n P.c.dom x → g2 x = minMaxVal terms (upd (upd x i1 0) i2 1)) ∧
      cofactor mk P.c terms i1 i2 w = (do
        let it ← lift (mk (domainsOf P.c) P.order [(i1, 0), (i2, 1)])
        cofactorRest P.c terms d1 d2 it) w' := by
  unfold cofactor
  obtain ⟨d, w1, e0, T, g, h1, hd, hg, -, -⟩ := diagram_ok S ht h rfl rfl false
  obtain ⟨k, e⟩ := message_ok S.ok h1 rfl hd
  rw [bind_ok e0, bind_ok e]
  have z1 : 0 < P.c.dom i1 := S.ok.cfg.1 i1 hi1
  have z2 : 1 < P.c.dom i2 := S.two i2 hi2
  obtain ⟨c1, w2, e2, T2, h2, hc1, k2⟩ := slot_ok (k := .cofactor d i1 0) S.ok h1 ⟨⟨g, hd⟩, fun _ => z1⟩ rfl
    (fun _ => rfl) rfl
  obtain ⟨d1, w3, e3, T3, h3, hd1, k3⟩ := slot_ok (k := .cofactor c1 i2 1) S.ok h2 ⟨⟨_, hc1⟩, fun _ => z2⟩ rfl
    (fun _ => rfl) rfl
  have hd3 := k3 _ _ (k2 _ _ hd)
  obtain ⟨d2, w4, e4, T4, h4, hd2, k4⟩ := slot_ok (k := .cofactors d [(i1, 0), (i2, 1)]) S.ok h3 ⟨⟨g, hd3⟩, by
    simp only [List.forall_mem_cons]
    exact ⟨fun _ => z1, fun _ => z2, fun _ h => nomatch h⟩⟩ rfl (fun _ => rfl) rfl
  obtain ⟨o, e5, rfl⟩ := asks (k := .getOrder) S.ok h4 trivial rfl
  rw [bind_ok e2, bind_ok e3, bind_ok e4, bind_ok (askNats_ok e5)]
  have hup : ∀ x, InDomain P.c.n P.c.dom x → InDomain P.c.n P.c.dom (upd (upd x i1 0) i2 1) := by
    intro x hx i hi
    unfold upd
    split_ifs with ha hb
    · rw [ha]; exact z2
    · rw [hb]; exact z1
    · exact hx i hi
  refine ⟨w4, _, d1, d2, _, _, h4, rfl, k4 _ _ hd1, hd2, ?_, ?_, rfl⟩
  · intro x hx
    rw [hc1.fn, hd.fn]
    show g (upd (upd x i2 1) i1 0) = _
    rw [upd_comm _ _ _ hne.symm]
    exact hg _ (hup x hx)
  · intro x hx
    rw [hd3.fn, updAll_two x 0 1 hne]
    exact hg _ (hup x hx)

theorem cofactor_undefined (S : Suitable P) {terms : List (List Nat)} (ht : ExprOK P.c.n terms) {i1 i2 : Nat}
    (hi1 : i1 < P.c.n) (hi2 : i2 < P.c.n) (hne : i1 ≠ i2) :
    ∃ m, construct P.c P.pool P.order = .ok m ∧
      cofactor DomIter.make P.c terms i1 i2 ⟨m, []⟩ = .error .uninit := by
  obtain ⟨m, e, h⟩ := start S.ok
  obtain ⟨w', σ, d1, d2, g1, g2, -, -, -, -, -, -, e'⟩ := cofactor_start S ht h hi1 hi2 hne DomIter.make
  exact ⟨m, e, e'⟩

theorem cofactor_passes (S : Suitable P) {terms : List (List Nat)} (ht : ExprOK P.c.n terms) {i1 i2 : Nat}
    (hi1 : i1 < P.c.n) (hi2 : i2 < P.c.n) (hne : i1 ≠ i2)
    {mk : List Nat → List Nat → List (Nat × Nat) → Except Err DomIter} {it : DomIter} {xs : List Asg}
    (hmk : mk (domainsOf P.c) P.order [(i1, 0), (i2, 1)] = .ok it)
    (hxs : ∀ x ∈ xs, InDomain P.c.n P.c.dom x ∧ x i1 = 0 ∧ x i2 = 1)
    (hit : ∀ {eval : List Nat → Except Err Int} {f : Asg → Int}, (∀ x ∈ xs, eval (toList P.c.n x) = .ok (f x)) →
      visit P.c eval it = .ok (xs.map fun x => (toList P.c.n x, f x))) :
    Passes P (cofactor mk P.c terms i1 i2) := by
  refine Reports.of S.ok fun w h => ?_
  obtain ⟨w', σ, d1, d2, g1, g2, h1, hcanon, hd1, hd2, hg1, hg2, e'⟩ := cofactor_start S ht h hi1 hi2 hne mk
  have hself : ∀ x ∈ xs, upd (upd x i1 0) i2 1 = x := by
    intro x hx
    obtain ⟨-, h0, h1⟩ := hxs x hx
    funext i
    simp only [upd]
    split_ifs with ha hb
    · rw [ha, h1]
    · rw [hb, h0]
    · rfl
  have hv : visit P.c (evaluateMinMax terms) it = .ok (xs.map fun x => (toList P.c.n x,
      minMaxVal terms (upd (upd x i1 0) i2 1))) := by
    refine hit fun x hx => ?_
    rw [hself x hx]
    exact evalExpr_ok S ht (hxs x hx).1
  have hcongr : ∀ x y, toList P.c.n x = toList P.c.n y → minMaxVal terms (upd (upd x i1 0) i2 1) =
      minMaxVal terms (upd (upd y i1 0) i2 1) := by
    intro x y hxy
    refine minMax_congr ht _ _ (List.map_congr_left fun i hi => ?_)
    have h1 := getElem?_toList x (List.mem_range.1 hi)
    rw [hxy, getElem?_toList y (List.mem_range.1 hi)] at h1
    simp only [upd]
    rw [Option.some.inj h1]
  have : Ok (do
        let it ← lift (mk (domainsOf P.c) P.order [(i1, 0), (i2, 1)])
        cofactorRest P.c terms d1 d2 it) w' (fun r _ => r = true) := by
    refine Ok.bindEq (lift_ok hmk) ?_
    unfold cofactorRest
    refine compareEval_ok S.ok h1 hd1 hg1 hcongr ?_ (fun x hx => (hxs x hx).1) hv
    refine compareEval_ok S.ok h1 hd2 hg2 hcongr ?_ (fun x hx => (hxs x hx).1) hv
    refine Ok.bindEq (equals_ok S.ok h1 hcanon hd1 hd2 fun x hx => ?_) (require_ok rfl (Ok.pure rfl))
    rw [hg1 x hx, hg2 x hx]
  obtain ⟨r, w2, e2, hr⟩ := this
  exact ⟨r, w2, e'.trans e2, hr⟩

/-! ### The intended iterator -/

theorem mem_enumOn {dom : Nat → Nat} : ∀ {vars : List Nat} {z x : Asg}, x ∈ enumOn dom vars z → vars.Nodup →
    (∀ i ∈ vars, x i < dom i) ∧ ∀ i, i ∉ vars → x i = z i
  | [], z, x, h, _ => by
      simp only [enumOn, List.mem_singleton] at h
      subst h
      exact ⟨fun i hi => by simp at hi, fun _ _ => rfl⟩
  | i :: is, z, x, h, hn => by
      simp only [enumOn, List.mem_flatMap, List.mem_range] at h
      obtain ⟨k, hk, hx⟩ := h
      obtain ⟨hi, hn⟩ := List.nodup_cons.1 hn
      obtain ⟨h1, h2⟩ := mem_enumOn hx hn
      refine ⟨?_, ?_⟩
      · intro j hj
        rcases List.mem_cons.1 hj with rfl | hj
        · rw [h2 j hi]; simpa [upd] using hk
        · exact h1 j hj
      · intro j hj
        rw [List.mem_cons, not_or] at hj
        rw [h2 j hj.2]
        simp [upd, hj.1]

theorem length_enumOn {dom : Nat → Nat} : ∀ {vars : List Nat} {z : Asg}, (enumOn dom vars z).length = (vars.map dom).prod
  | [], _ => rfl
  | i :: is, z => by
      simp only [enumOn, List.length_flatMap, length_enumOn, List.map_cons, List.prod_cons]
      simp

theorem prod_filter_le {dom : Nat → Nat} (p : Nat → Bool) : ∀ {vars : List Nat}, (∀ i ∈ vars, 0 < dom i) →
    ((vars.filter p).map dom).prod ≤ (vars.map dom).prod
  | [], _ => Nat.le_refl _
  | i :: is, h => by
      have ih := prod_filter_le p (vars := is) fun j hj => h j (by simp [hj])
      have h0 := h i (by simp)
      simp only [List.filter_cons, List.map_cons, List.prod_cons]
      split
      · exact Nat.mul_le_mul_left _ ih
      · exact ih.trans (Nat.le_mul_of_pos_left _ h0)

theorem intended_visit (hP : P.OK) (hn : 3 ≤ P.c.n) {i1 i2 : Nat} (hi1 : i1 < P.c.n) (hi2 : i2 < P.c.n) (hne : i1 ≠ i2)
    (hd2 : 1 < P.c.dom i2) :
    ∃ (it : DomIter) (xs : List Asg), intended (domainsOf P.c) P.order [(i1, 0), (i2, 1)] = .ok it ∧
      (∀ x ∈ xs, InDomain P.c.n P.c.dom x ∧ x i1 = 0 ∧ x i2 = 1) ∧
      ∀ {eval : List Nat → Except Err Int} {f : Asg → Int}, (∀ x ∈ xs, eval (toList P.c.n x) = .ok (f x)) →
        visit P.c eval it = .ok (xs.map fun x => (toList P.c.n x, f x)) := by
  have hp := hP.perm
  have hlen : (domainsOf P.c).length = P.c.n := by simp [domainsOf, fillVector]
  have hsz : ∀ i, i < P.c.n → (domainsOf P.c).getD i 0 = P.c.dom i := by
    intro i hi
    rw [domainsOf_eq, List.getD_eq_getElem?_getD, getElem?_toList _ hi]; rfl
  let free := P.order.filter fun i => (([(i1, 0), (i2, 1)] : List (Nat × Nat)).find? fun p => p.1 == i).isNone
  have hfree : ∀ i, i ∈ free ↔ i < P.c.n ∧ i ≠ i1 ∧ i ≠ i2 := by
    intro i
    simp only [free, List.mem_filter, hp.mem_iff, List.mem_range, List.find?_cons, List.find?_nil]
    by_cases h1 : i1 = i
    · simp [h1]
    · by_cases h2 : i2 = i
      · simp [h1, h2, beq_false_of_ne]
      · simp [h1, h2, Ne.symm h1, Ne.symm h2, beq_false_of_ne]
  have hnd : free.Nodup := (hp.nodup_iff.2 List.nodup_range).filter _
  have hne0 : free ≠ [] := by
    have : ∃ i, i < P.c.n ∧ i ≠ i1 ∧ i ≠ i2 := by
      by_cases h0 : 0 ≠ i1 ∧ 0 ≠ i2
      · exact ⟨0, by omega, h0.1, h0.2⟩
      · by_cases h1 : 1 ≠ i1 ∧ 1 ≠ i2
        · exact ⟨1, by omega, h1.1, h1.2⟩
        · exact ⟨2, by omega, by omega, by omega⟩
    obtain ⟨i, hi⟩ := this
    exact List.ne_nil_of_mem ((hfree i).2 hi)
  let z : Asg := upd (upd (fun _ => 0) i1 0) i2 1
  have hz : ∀ i ∈ free, z i = 0 := by
    intro i hi
    obtain ⟨-, h1, h2⟩ := (hfree i).1 hi
    simp [z, upd, h1, h2]
  have hw := walk_enum (dom := fun i => (domainsOf P.c).getD i 0) (z := z) hnd (by
    intro i hi
    have := ((hfree i).1 hi).1
    rw [hsz i this]; exact hP.cfg.1 i this) hz
  refine ⟨⟨domainsOf P.c, free.reverse, toList P.c.n z⟩, enumOn (fun i => (domainsOf P.c).getD i 0) free z, ?_, ?_, ?_⟩
  rotate_left
  · intro x hx
    obtain ⟨h1, h2⟩ := mem_enumOn hx hnd
    have e1 : x i1 = 0 := by rw [h2 i1 (by simp [hfree])]; simp [z, upd, hne]
    have e2 : x i2 = 1 := by rw [h2 i2 (by simp [hfree])]; simp [z]
    refine ⟨fun i hi => ?_, e1, e2⟩
    by_cases h3 : i = i1
    · rw [h3, e1]; exact hP.cfg.1 i1 hi1
    · by_cases h4 : i = i2
      · rw [h4, e2]; exact hd2
      · have := h1 i ((hfree i).2 ⟨hi, h3, h4⟩)
        rwa [hsz i hi] at this
  · intro eval f he
    have := forEach_walk (domains := domainsOf P.c) (is := free.reverse) (g := fun l => do let v ← eval l; .ok (l, v))
      (g' := fun x => (toList P.c.n x, f x)) (by
        intro i hi
        rw [hlen]
        exact ((hfree i).1 (by simpa using hi)).1) (by simpa using hne0) hw (by
        intro x hx
        rw [hlen, he x hx]; rfl) (fuel := (domainsOf P.c).prod + 1) (by
        rw [length_enumOn]
        have := prod_filter_le (dom := P.c.dom) (fun i => (([(i1, 0), (i2, 1)] : List (Nat × Nat)).find?
          fun p => p.1 == i).isNone) (vars := P.order) (fun i hi => hP.cfg.1 i (List.mem_range.1 (hp.mem_iff.1 hi)))
        rw [(hp.map P.c.dom).prod_eq] at this
        rw [List.map_congr_left fun i hi => hsz i ((hfree i).1 hi).1]
        exact Nat.lt_succ_of_le this)
    rw [hlen] at this
    exact this
  · simp only [intended, List.foldl_cons, List.foldl_nil, hlen]
    congr 2
    refine List.ext_getElem? fun i => ?_
    by_cases hi : i < P.c.n
    · rw [getElem?_toList _ hi]
      simp only [z, upd]
      by_cases h2 : i = i2
      · subst h2; simp [hi]
      · rw [List.getElem?_set_ne (Ne.symm h2)]
        by_cases h1 : i = i1
        · subst h1; simp [hi, h2]
        · rw [List.getElem?_set_ne (Ne.symm h1)]; simp [hi, h1, h2]
    · rw [List.getElem?_eq_none (by simpa using hi), List.getElem?_eq_none (by simpa [toList] using hi)]

end

end Tests
end Teddy
