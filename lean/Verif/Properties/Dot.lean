import Verif.Proofs.DotText
import Verif.Properties.Violations

/-!
# C65: the printed graph
-/

namespace Teddy
namespace Properties

open SM Spec

variable {P : Setup} {w : World} {σ : SState}

/-- `to_dot_graph(out, d)` prints a graph that shows the function of `d`: no two nodes have the same number, exactly one
node has no arc to it, and following the arcs for the values of the variables from there leads to one square, labelled
with the value of `d`.  The graph has as many nodes as `get_node_count(d)` says; the nodes of each level are the nodes
labelled with the variable the order has at that level, and the last level is the squares.  The manager does not change.

`binary` is true for BDD managers, whose arcs are drawn dashed and solid.  Numbers are addresses, so different nodes
have different ones (`hinj`).

Missing for the full property: no `from_expression_tree` before (`C65_violated`). -/
theorem C65_dot_partial (hP : P.OK) (h : Reachable P w σ) (hclean : σ.clean = true)
    (hinj : Function.Injective P.c.addr) {binary : Bool} (hb : binary = true → ∀ i, i < P.c.n → P.c.dom i ≤ 2)
    {a : Nat} {f : Asg → Int} (ha : Denotes P w a f) :
    ∃ g : Dot, toDotOf P.c binary a w = .ok (g.text, w) ∧ g.ids.Nodup ∧
      (∃ root, g.IsRoot root ∧ ∀ x, InDomain P.c.n P.c.dom x → ∀ l,
        g.Follows binary x root l ↔ l = Dot.valueText (f x)) ∧
      exec P.c (.nodeCountOf a) w = .ok (.nat g.nodes.length, w) ∧
      g.ranks.length = P.c.n + 1 ∧ g.ranks.getD P.c.n [] = g.squares ∧
      ∀ l < P.c.n, ∀ id, id ∈ g.ranks.getD l [] ↔
        id ∉ g.squares ∧ ∃ tip, (id, Dot.varText (σ.order.getD l 0), tip) ∈ g.nodes := by
  have R := reachable_rel hP h
  obtain ⟨f', hf', e1⟩ := R.of_denotes ha
  obtain ⟨p, hp, hd⟩ := R.has a f' hf'
  have hu := R.used hp
  have hI := R.good.inv
  obtain ⟨t, s', he, hs, vs, hn, hvs, rfl⟩ := toDot_ok hI R.good.ord hu (R.cleanBelow hclean p) binary
  obtain ⟨k, s'', hk, hs', vs', hn', hvs', rfl⟩ := nodeCountOf_ok hI R.good.ord hu (R.cleanBelow hclean p)
  have huv : ∀ q ∈ vs, w.mgr.used q = true := fun q hq => ((hvs q).1 hq).used hI hu
  refine ⟨dotOf P.c w.mgr binary vs, ?_, ids_nodup hinj hn,
    ⟨P.c.addr p, dot_root hinj hI R.good.ord hu hvs, ?_⟩, ?_, by simp [dotOf], dot_ranks_last hI huv, ?_⟩
  · unfold toDotOf
    rw [bind_run, (rootOf_ok hp : rootOf a w = _)]
    dsimp only [onMgr]
    have he' : toDot P.c binary p w.mgr = .ok ((dotOf P.c w.mgr binary vs).text, s') := he
    rw [he', hs]
  · intro x hx l
    have hev := hd x hx
    rw [e1 x hx] at hev
    constructor
    · intro hl
      obtain ⟨v, rfl, hv, q, hq, hk⟩ := ev_of_follows hinj hI hb hx huv hl p rfl
      rw [hv.det hev]
    · rintro rfl
      exact follows_of_ev hinj hev (fun q hq => Or.inl ((hvs q).2 hq))
  · have hlen : vs'.length = vs.length :=
      ((List.perm_ext_iff_of_nodup hn' hn).2 fun q => (hvs' q).trans (hvs q).symm).length_eq
    simp only [exec]
    rw [bind_run, (rootOf_ok hp : rootOf a w = _)]
    have hk' : nodeCountOf P.c p w.mgr = .ok (vs'.length, s'') := hk
    dsimp only
    rw [bind_run]
    dsimp only [onMgr]
    rw [hk', hs', hlen]
    simp [dotOf]
  · intro l hl id
    have e : σ.order = levelVars P.c w.mgr := R.order.symm
    rw [e]
    exact dot_ranks hinj hI huv hl

/-- x0 ∧ x1 in a manager of three variables with the order 2, 0, 1: the picture shows x0 ∧ x1. -/
example : ∃ w σ, Reachable bdd3 w σ ∧ ∃ g : Dot, toDotOf bdd3.c true 2 w = .ok (g.text, w) ∧
    ∃ root, g.IsRoot root ∧ ∀ x, InDomain 3 (fun _ => 2) x → ∀ l,
      g.Follows true x root l ↔ l = Dot.valueText (Op.AND.val (x 0) (x 1)) := by
  obtain ⟨w, h⟩ := bdd3_world
  obtain ⟨g, h1, -, h2, -⟩ := C65_dot_partial (a := 2) (binary := true) bdd3_ok h rfl (fun _ _ e => e)
    (fun _ _ _ => le_refl 2) ((reachable_rel bdd3_ok h).denotes rfl)
  exact ⟨w, _, h, g, h1, h2⟩

/-- Diagrams whose printed graphs are the same text, in any two states, have the same function.

Missing for the full property: as `C65_dot_partial`. -/
theorem C65_determines_partial (hP : P.OK) {w' : World} {σ' : SState} (h : Reachable P w σ) (h' : Reachable P w' σ')
    (hclean : σ.clean = true) (hclean' : σ'.clean = true) (hinj : Function.Injective P.c.addr) {binary : Bool}
    (hb : binary = true → ∀ i, i < P.c.n → P.c.dom i ≤ 2) {a a' : Nat} {f f' : Asg → Int} (ha : Denotes P w a f)
    (ha' : Denotes P w' a' f') {t : String} (ht : toDotOf P.c binary a w = .ok (t, w))
    (ht' : toDotOf P.c binary a' w' = .ok (t, w')) : SameOn P.c.n P.c.dom f f' := by
  have R := reachable_rel hP h
  have R' := reachable_rel hP h'
  obtain ⟨f1, hf1, e1⟩ := R.of_denotes ha
  obtain ⟨f1', hf1', e1'⟩ := R'.of_denotes ha'
  obtain ⟨p, hp, hd⟩ := R.has a f1 hf1
  obtain ⟨p', hp', hd'⟩ := R'.has a' f1' hf1'
  have hI := R.good.inv
  have hI' := R'.good.inv
  obtain ⟨u, s1, he, hs, vs, hn, hvs, rfl⟩ := toDot_ok hI R.good.ord (R.used hp) (R.cleanBelow hclean p) binary
  obtain ⟨u', s2, he', hs', vs', hn', hvs', rfl⟩ :=
    toDot_ok hI' R'.good.ord (R'.used hp') (R'.cleanBelow hclean' p') binary
  have huv : ∀ q ∈ vs, w.mgr.used q = true := fun q hq => ((hvs q).1 hq).used hI (R.used hp)
  have huv' : ∀ q ∈ vs', w'.mgr.used q = true := fun q hq => ((hvs' q).1 hq).used hI' (R'.used hp')
  have k1 : toDotOf P.c binary a w = .ok ((dotOf P.c w.mgr binary vs).text, w) := by
    unfold toDotOf
    rw [bind_run, (rootOf_ok hp : rootOf a w = _)]
    dsimp only [onMgr]
    have he1 : toDot P.c binary p w.mgr = .ok ((dotOf P.c w.mgr binary vs).text, s1) := he
    rw [he1, hs]
  have k2 : toDotOf P.c binary a' w' = .ok ((dotOf P.c w'.mgr binary vs').text, w') := by
    unfold toDotOf
    rw [bind_run, (rootOf_ok hp' : rootOf a' w' = _)]
    dsimp only [onMgr]
    have he1 : toDot P.c binary p' w'.mgr = .ok ((dotOf P.c w'.mgr binary vs').text, s2) := he'
    rw [he1, hs']
  rw [k1] at ht
  rw [k2] at ht'
  have et : (dotOf P.c w.mgr binary vs).text = (dotOf P.c w'.mgr binary vs').text :=
    (Prod.mk.inj (Except.ok.inj ht)).1.trans (Prod.mk.inj (Except.ok.inj ht')).1.symm
  obtain ⟨g1, g2, g3⟩ := Dot.text_inj dotOf_plain dotOf_plain et
  have r1 := dot_root (binary := binary) hinj hI R.good.ord (R.used hp) hvs
  have r2 := dot_root (binary := binary) hinj hI' R'.good.ord (R'.used hp') hvs'
  have er : P.c.addr p = P.c.addr p' := by
    unfold Dot.IsRoot Dot.ids at r1 r2
    rw [← g1, ← g3] at r2
    exact (r2.2 _ r1.1).1 ((r1.2 _ r1.1).2 rfl)
  intro x hx
  have hev := hd x hx
  rw [e1 x hx] at hev
  have hev' := hd' x hx
  rw [e1' x hx] at hev'
  have hl := follows_of_ev (binary := binary) hinj hev (fun q hq => Or.inl ((hvs q).2 hq))
  have hl' : (dotOf P.c w'.mgr binary vs').Follows binary x (P.c.addr p') (Dot.valueText (f x)) := by
    rw [← er]
    exact follows_congr g1 g2 g3 hl
  obtain ⟨v, hv, hvv, -⟩ := ev_of_follows hinj hI' hb hx huv' hl' p' rfl
  have := hvv.det hev'
  rw [this] at hv
  exact valueText_inj (ev_nonneg hI (R.used hp) hev) (ev_nonneg hI' (R'.used hp') hev') hv

/-- The hypotheses hold for x0 ∧ x1 printed twice. -/
example : ∃ w t, toDotOf bdd3.c true 2 w = .ok (t, w) ∧
    SameOn 3 (fun _ => 2) (fun x => Op.AND.val (x 0) (x 1)) (fun x => Op.AND.val (x 0) (x 1)) := by
  obtain ⟨w, h⟩ := bdd3_world
  have hd := (reachable_rel bdd3_ok h).denotes (a := 2) rfl
  obtain ⟨g, h1, -⟩ := C65_dot_partial (a := 2) (binary := true) bdd3_ok h rfl (fun _ _ e => e)
    (fun _ _ _ => le_refl 2) hd
  exact ⟨w, _, h1, C65_determines_partial bdd3_ok h h rfl rfl (fun _ _ e => e) (fun _ _ _ => le_refl 2) hd hd h1 h1⟩

/-- The number `to_dot_graph` prints for the root of handle `a`. -/
def dotId (P : Setup) (w : World) (a : Nat) : Nat :=
  match w.slots[a]? with
  | some (some p) => P.c.addr p
  | _ => 0

theorem handles_count {P : Setup} {w : World} (hinj : Function.Injective P.c.addr) (p : Ptr) : extW w p =
    (List.range w.slots.length).countP fun a => (w.slots.getD a none).isSome && dotId P w a == P.c.addr p := by
  have e : w.slots = (List.range w.slots.length).map fun a => w.slots.getD a none := by
    refine List.ext_getElem (by simp) ?_
    intro i h1 h2
    simp [List.getD, List.getElem?_eq_getElem h1]
  have e0 : extW w p = w.slots.count (some p) := by simp [extW, extL]
  rw [e0]
  conv => lhs; rw [e]
  rw [List.count, List.countP_map]
  refine List.countP_congr ?_
  intro a ha
  have ha' := List.mem_range.1 ha
  simp only [Function.comp, beq_iff_eq, Bool.and_eq_true, dotId, List.getD, List.getElem?_eq_getElem ha',
    Option.getD_some]
  cases hs : w.slots[a] with
  | none => simp
  | some q => simpa using ⟨fun h => by rw [h], fun h => hinj h⟩

/-- `to_dot_graph(out)` prints all nodes of the manager once, except the terminal `Undefined`: `get_node_count()` nodes
or one fewer.  Following the arcs from the root of any diagram leads to the value of its function; there is nothing to
follow where the function is `Undefined`.  A tooltip is the number of arcs to the node plus the number of diagrams with
this root.  The manager does not change.

Missing for the full property: the terminal `Undefined` (`C65_all_violated`). -/
theorem C65_all_partial (hP : P.OK) (h : Reachable P w σ) (hinj : Function.Injective P.c.addr) {binary : Bool}
    (hb : binary = true → ∀ i, i < P.c.n → P.c.dom i ≤ 2) :
    ∃ g : Dot, toDotManager P.c binary w = .ok (g.text, w) ∧ g.ids.Nodup ∧
      (∀ a f, Denotes P w a f → ∀ x, InDomain P.c.n P.c.dom x → ∀ l,
        g.Follows binary x (dotId P w a) l ↔ f x ≠ Undefined ∧ l = Dot.valueText (f x)) ∧
      (∃ k, exec P.c .nodeCount w = .ok (.nat k, w) ∧ g.nodes.length ≤ k ∧ k ≤ g.nodes.length + 1) ∧
      ∀ t ∈ g.nodes, t.2.2 = g.arcs.countP (fun a => a.2.1 == t.1) +
        (List.range w.slots.length).countP fun a => (w.slots.getD a none).isSome && dotId P w a == t.1 := by
  have R := reachable_rel hP h
  have hI := R.good.inv
  have huv : ∀ q ∈ nodeList P.c w.mgr, w.mgr.used q = true := fun q hq => ((mem_nodeList hI).1 hq).1
  refine ⟨dotOf P.c w.mgr binary (nodeList P.c w.mgr), ?_, ids_nodup hinj (nodeList_nodup hI), ?_, ?_, ?_⟩
  · unfold toDotManager
    dsimp only [onMgr]
    have he : toDotAll P.c binary w.mgr = .ok ((dotOf P.c w.mgr binary (nodeList P.c w.mgr)).text, w.mgr) :=
      toDotAll_ok hI binary
    rw [he]
  · intro a f ha x hx l
    obtain ⟨f', hf', e1⟩ := R.of_denotes ha
    obtain ⟨p, hp, hd⟩ := R.has a f' hf'
    have hid : dotId P w a = P.c.addr p := by simp [dotId, hp]
    rw [hid]
    have hev := hd x hx
    rw [e1 x hx] at hev
    constructor
    · intro hl
      obtain ⟨v, rfl, hv, q, hq, hk⟩ := ev_of_follows hinj hI hb hx huv hl p rfl
      rw [← hv.det hev]
      refine ⟨?_, rfl⟩
      rintro rfl
      exact ((mem_nodeList hI).1 hq).2 hk
    · rintro ⟨hne, rfl⟩
      refine follows_of_ev hinj hev fun q hq => ?_
      by_cases hk : w.mgr.kind q = .leaf Undefined
      · exact Or.inr ⟨_, hk, fun e => hne e.symm⟩
      · exact Or.inl ((mem_nodeList hI).2 ⟨hq.used hI (R.used hp), hk⟩)
  · refine ⟨w.mgr.nodeCount, rfl, ?_⟩
    have := nodeList_length hI
    have e : (dotOf P.c w.mgr binary (nodeList P.c w.mgr)).nodes.length = (nodeList P.c w.mgr).length := by
      simp [dotOf]
    rw [e]
    have e' : (envOf P σ).c = P.c := rfl
    rw [e'] at this
    split at this <;> omega
  · intro t ht
    obtain ⟨p, hp, rfl⟩ := mem_nodes.1 ht
    dsimp only
    rw [tip_eq (binary := binary) hI hinj (huv p hp)]
    congr 1
    exact handles_count hinj p

/-- The same manager: the graph shows all three functions. -/
example : ∃ w σ, Reachable bdd3 w σ ∧ ∃ g : Dot, toDotManager bdd3.c true w = .ok (g.text, w) ∧
    ∀ x, InDomain 3 (fun _ => 2) x → ∀ l,
      (g.Follows true x (dotId bdd3 w 0) l ↔ (x 0 : Int) ≠ Undefined ∧ l = Dot.valueText (x 0)) ∧
      (g.Follows true x (dotId bdd3 w 2) l ↔
        Op.AND.val (x 0) (x 1) ≠ Undefined ∧ l = Dot.valueText (Op.AND.val (x 0) (x 1))) := by
  obtain ⟨w, h⟩ := bdd3_world
  have R := reachable_rel bdd3_ok h
  obtain ⟨g, h1, -, h2, -⟩ := C65_all_partial (binary := true) bdd3_ok h (fun _ _ e => e) (fun _ _ _ => le_refl 2)
  exact ⟨w, _, h, g, h1, fun x hx l => ⟨h2 0 _ (R.denotes rfl) x hx l, h2 2 _ (R.denotes rfl) x hx l⟩⟩

/-! ### Where it fails -/

/-- The graph before it is printed. -/
def graphOf (c : Cfg) (binary : Bool) (a : Nat) : SM World Dot := do
  let p ← rootOf a
  onMgr (traversePre c (dotVisit c binary) p (dotEmpty c))

/-- Construct a manager, run a program on it and then do something else. -/
def runWith {α : Type} (P : Setup) (ks : List Call) (m : SM World α) : Except Err α :=
  match construct P.c P.pool P.order with
  | .ok s => match execAll P.c ks ⟨s, []⟩ with
    | .ok (_, w) => match m w with
      | .ok (q, _) => .ok q
      | .error e => .error e
    | .error e => .error e
  | .error e => .error e

theorem runWith_map {α β : Type} {P : Setup} {ks : List Call} {m : SM World α} {f : α → β} {a : α}
    (h : runWith P ks m = .ok a) : runWith P ks (m >>= fun x => pure (f x)) = .ok (f a) := by
  unfold runWith at h ⊢
  cases hc : construct P.c P.pool P.order with
  | error e => rw [hc] at h; cases h
  | ok s =>
      rw [hc] at h
      dsimp only at h ⊢
      cases he : execAll P.c ks ⟨s, []⟩ with
      | error e => rw [he] at h; cases h
      | ok r =>
          rw [he] at h
          dsimp only at h ⊢
          rw [bind_run]
          cases hm : m r.2 with
          | error e => rw [hm] at h; cases h
          | ok q => rw [hm] at h; cases h; rfl

theorem ok_of_check {α : Type} {r : Except Err α} {φ : α → Bool}
    (h : (match r with | .ok a => φ a | .error _ => false) = true) : ∃ a, r = .ok a ∧ φ a = true := by
  cases r with
  | error e => cases h
  | ok a => exact ⟨a, rfl, h⟩

theorem toDotOf_eq {c : Cfg} {binary : Bool} {a : Nat} :
    toDotOf c binary a = graphOf c binary a >>= fun g => pure g.text := by
  funext w
  unfold toDotOf graphOf toDot
  simp only [bind_run]
  cases rootOf a w with
  | error e => rfl
  | ok r =>
      dsimp only [onMgr]
      rw [bind_run]
      cases traversePre c (dotVisit c binary) r.1 (dotEmpty c) r.2.mgr with
      | error e => rfl
      | ok q => rfl

theorem toDotManager_eq {c : Cfg} {binary : Bool} :
    toDotManager c binary = onMgr (forEachNode c (dotVisit c binary) (dotEmpty c)) >>= fun g => pure g.text := by
  funext w
  unfold toDotManager toDotAll
  rw [bind_run]
  unfold onMgr
  simp only [bind_run]
  generalize forEachNode c (dotVisit c binary) (dotEmpty c) = m
  cases m w.mgr with
  | error e => rfl
  | ok q => rfl

/-- **C65.** After `from_expression_tree`, which leaves marks behind, the graph of x0 ∧ x1 has arcs to a node that is
not printed. -/
theorem C65_violated :
    ∃ g : Dot, runWith (bdd2 100 50) [.variableD 0, .variableD 1, .apply Op.AND 0 1,
        .fromExpr (.op min (.var 1) (.const 0))] (toDotOf (bdd2 100 50).c true 2) = .ok g.text ∧
      ∃ a ∈ g.arcs, a.2.1 ∉ g.ids := by
  obtain ⟨g, h1, h2⟩ := ok_of_check (r := runWith (bdd2 100 50) [.variableD 0, .variableD 1, .apply Op.AND 0 1,
      .fromExpr (.op min (.var 1) (.const 0))] (graphOf (bdd2 100 50).c true 2))
    (φ := fun g => g.arcs.any fun a => !g.ids.contains a.2.1) (by decide +kernel)
  refine ⟨g, ?_, by simpa using h2⟩
  rw [toDotOf_eq]
  exact runWith_map h1

/-- **C65.** The graph of the whole manager has arcs to the terminal `Undefined`, which is not printed. -/
theorem C65_all_violated :
    ∃ g : Dot, runWith mdd3 [.variableD 0, .dpld ⟨0, 1, 0⟩ (Dpld.basic 1 0) 0, .toDpldE 1 0 1]
        (toDotManager mdd3.c false) = .ok g.text ∧ ∃ a ∈ g.arcs, a.2.1 ∉ g.ids := by
  obtain ⟨g, h1, h2⟩ := ok_of_check (r := runWith mdd3 [.variableD 0, .dpld ⟨0, 1, 0⟩ (Dpld.basic 1 0) 0, .toDpldE 1 0 1]
      (onMgr (forEachNode mdd3.c (dotVisit mdd3.c false) (dotEmpty mdd3.c))))
    (φ := fun g => g.arcs.any fun a => !g.ids.contains a.2.1) (by decide +kernel)
  refine ⟨g, ?_, by simpa using h2⟩
  have := runWith_map (f := Dot.text) h1
  refine Eq.trans (congrArg _ ?_) this
  exact toDotManager_eq

end Properties
end Teddy
