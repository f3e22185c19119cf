import Verif.Demo
import Verif.Proofs.Reduce

/-!
# Reordering of variables
-/

namespace Teddy
namespace Properties

open SM Spec

variable {P : Setup} {w : World} {σ : SState}

/-! ### C17 reordering preserves functions -/

/-- `force_reorder()` succeeds in every reachable state, gives an order that lists each variable
once, keeps the set of live handles, and changes the function of none. -/
theorem C17_force_reorder (hP : P.OK) (h : Reachable P w σ) :
    ∃ order w', exec P.c .forceReorder w = .ok (.nats order, w') ∧
      order.Perm (List.range P.c.n) ∧ exec P.c .getOrder w' = .ok (.nats order, w') ∧
      w'.slots = w.slots ∧ ∀ a f, Denotes P w a f ↔ Denotes P w' a f := by
  have R := reachable_rel hP h
  obtain ⟨o, w', e, ⟨l, rfl, hl⟩, R'⟩ := sim (k := .forceReorder) R trivial
  obtain ⟨o2, e2, rfl⟩ := asks (k := .getOrder) hP (.step (k := .forceReorder) h trivial e) trivial rfl
  refine ⟨l, w', e, hl, e2, ?_, fun a f => ⟨fun ha => ?_, fun ha => ?_⟩⟩
  · cases h1 : forceReorder P.c w.mgr with
    | error x => simp [exec, bind_run, onMgr, h1] at e
    | ok r =>
        cases h2 : getOrder P.c r.2 with
        | error x => simp only [exec, bind_run, onMgr, h1, h2] at e; cases e
        | ok q =>
            simp only [exec, bind_run, onMgr, h1, h2, SM.pure_run, Except.ok.injEq,
              Prod.mk.injEq] at e
            rw [← e.2]
  · obtain ⟨f', hf, s⟩ := R.of_denotes ha
    exact (R'.denotes hf).congr s
  · obtain ⟨f', hf, s⟩ := R'.of_denotes ha
    exact (R.denotes hf).congr s

/-- The diagram of x0 ∧ x1 survives. -/
example : ∃ w σ, Reachable bdd3 w σ ∧ ∃ order w',
    exec bdd3.c .forceReorder w = .ok (.nats order, w') ∧
    Denotes bdd3 w' 2 (fun x => Op.AND.val (x 0) (x 1)) := by
  obtain ⟨w, h⟩ := bdd3_world
  obtain ⟨l, w', e, _, _, _, hd⟩ := C17_force_reorder bdd3_ok h
  exact ⟨w, _, h, l, w', e, (hd 2 _).1 ((reachable_rel bdd3_ok h).denotes rfl)⟩

/-! ### C18 the order and the levels (see also `C18_order`) -/

/-- The two lookup tables between variables and levels are mutually inverse, and list what
`get_order()` returns. -/
theorem C18_lookups (hP : P.OK) (h : Reachable P w σ) :
    (∀ i, i < P.c.n → w.mgr.idx2lvl i < P.c.n ∧ w.mgr.lvl2idx (w.mgr.idx2lvl i) = i) ∧
    (∀ l, l < P.c.n → w.mgr.lvl2idx l < P.c.n ∧ w.mgr.idx2lvl (w.mgr.lvl2idx l) = l) ∧
    exec P.c .getOrder w = .ok (.nats ((List.range P.c.n).map w.mgr.lvl2idx), w) := by
  have R := reachable_rel hP h
  have o := R.good.inv.order
  refine ⟨fun i hi => ⟨o.i2l_lt i hi, o.i2l2i i hi⟩, fun l hl => ⟨o.l2i_lt l hl, o.l2i2l l hl⟩, ?_⟩
  obtain ⟨o', e, rfl⟩ := asks (k := .getOrder) hP h trivial rfl
  rw [e, ← R.order]
  rfl

/-- On the way down from the root of any live diagram the variables come in the order: the variable
of a son is at a deeper level than that of its father, and each variable has as many sons as it has
values. -/
theorem C18_levels (hP : P.OK) (h : Reachable P w σ) {a : Nat} {root p : Ptr} {i : Nat}
    {sons : List Ptr} (ha : w.slots[a]? = some (some root)) (hp : Reach w.mgr.kind root p)
    (hi : w.mgr.kind p = .inner i sons) :
    i < P.c.n ∧ sons.length = P.c.dom i ∧
    ∀ q ∈ sons, ∀ j ss, w.mgr.kind q = .inner j ss → w.mgr.idx2lvl i < w.mgr.idx2lvl j := by
  have g := (reachable_rel hP h).good
  have hu : w.mgr.used p = true := by
    have h0 : w.mgr.used root = true := g.inv.extUsed root (extL_pos ha)
    clear ha hi
    induction hp with
    | refl => exact h0
    | step hk hq _ ih => exact ih ((g.inv.sons _ _ _ h0 hk).2.2 _ hq)
  refine ⟨(g.inv.sons _ _ _ hu hi).1, (g.inv.sons _ _ _ hu hi).2.1, fun q hq j ss hj => ?_⟩
  have := g.ord p i sons q hu hi hq
  simpa [Mgr.levelOf, hi, hj] using this

example : ∃ w σ, Reachable bdd3 w σ ∧ ∃ root i sons, w.slots[2]? = some (some root) ∧
    w.mgr.kind root = .inner i sons ∧ sons.length = 2 := by
  obtain ⟨w, h⟩ := bdd3_world
  have R := reachable_rel bdd3_ok h
  obtain ⟨root, h1, h2⟩ := R.has 2 (fun x => Op.AND.val (x 0) (x 1)) rfl
  refine ⟨w, _, h, root, ?_⟩
  cases hk : w.mgr.kind root with
  | leaf v =>
      have e1 : Op.AND.val 1 1 = v :=
        (h2 (fun _ => 1) (fun _ _ => Nat.one_lt_two)).det (.leaf hk)
      have e0 : Op.AND.val 0 0 = v :=
        (h2 (fun _ => 0) (fun _ _ => Nat.two_pos)).det (.leaf hk)
      rw [← e0] at e1
      exact absurd e1 (by decide)
  | inner i sons => exact ⟨i, sons, h1, rfl, (C18_levels bdd3_ok h h1 .refl hk).2.1⟩

/-! ### C19 apply after reordering

`apply` right after `force_reorder()` can be wrong: `C19_violated`.  What holds: the operations that
do not use the operation cache are right, and `apply` is right as soon as the cache was cleared. -/

/-- `force_reorder()` and `clear_cache()`, and then `apply`. -/
theorem C19_apply_partial (hP : P.OK) (h : Reachable P w σ) (hauto : σ.auto = false) {op : BinOp} {a b : Nat}
    {f g : Asg → Int} (hop : P.Γ (opType P.c op).id = opType P.c op) (ha : Denotes P w a f)
    (hb : Denotes P w b g) (hok : OpOK P.c (opType P.c op) (Range P.c f) (Range P.c g)) :
    ∃ o1 w1 w2, exec P.c .forceReorder w = .ok (o1, w1) ∧ exec P.c .clearCache w1 = .ok (.unit, w2) ∧
      Makes P w2 (.apply op a b) (fun x => (opType P.c op).val (f x) (g x)) := by
  have R := reachable_rel hP h
  obtain ⟨o1, w1, e1, _, R1⟩ := sim (k := .forceReorder) R trivial
  obtain ⟨o2, w2, e2, rfl, R2⟩ := sim (k := .clearCache) R1 trivial
  refine ⟨o1, w1, w2, e1, e2, ?_⟩
  obtain ⟨f', hf, sf⟩ := R.of_denotes ha
  obtain ⟨g', hg, sg⟩ := R.of_denotes hb
  refine makes (k := .apply op a b) hP (.step (k := .clearCache) (.step (k := .forceReorder) h trivial
    e1) trivial e2) ⟨rfl, hop, f', g', hf, hg, ?_⟩ rfl ?_
  · rw [sf.range, sg.range]; exact hok
  · intro x hx
    show (opType P.c op).val (σ.fn a x) (σ.fn b x) = _
    rw [hf.fn, hg.fn, sf x hx, sg x hx]

example : ∃ w σ, Reachable bdd3 w σ ∧ ∃ o1 w1 w2, exec bdd3.c .forceReorder w = .ok (o1, w1) ∧
    exec bdd3.c .clearCache w1 = .ok (.unit, w2) ∧
    Makes bdd3 w2 (.apply Op.AND 0 1) (fun x => Op.AND.val (x 0) (x 1)) := by
  obtain ⟨w, h⟩ := bdd3_world
  have R := reachable_rel bdd3_ok h
  exact ⟨w, _, h, C19_apply_partial bdd3_ok h rfl rfl (R.denotes rfl) (R.denotes rfl)
    (opOK_AND ((bits_x (by decide) rfl).vals term1_bdd3) ((bits_x (by decide) rfl).vals term1_bdd3))⟩

/-! ### C44 reduce after reordering

`reduce` never changes the function, and equal handles always have equal functions; see
`C44_canonical_partial` for the converse. -/

/-- In every reachable state, also after reordering, `reduce(d)` gives a diagram of the same
function. -/
theorem C44_reduce_partial (hP : P.OK) (h : Reachable P w σ) (hauto : σ.auto = false) {a : Nat} {f : Asg → Int}
    (ha : Denotes P w a f) (hv : ∀ v, Range P.c f v → TermOK P.c v) : Makes P w (.reduce a) f := by
  obtain ⟨f', hf, s⟩ := (reachable_rel hP h).of_denotes ha
  refine makes (k := .reduce a) hP h ⟨f', hf, ?_⟩ rfl ?_
  · rw [s.range]; exact hv
  · intro x hx
    show σ.fn a x = _
    rw [hf.fn, s x hx]

/-- Handles that compare equal have equal functions, also after reordering. -/
theorem C44_equal_sound_partial (hP : P.OK) (h : Reachable P w σ) {a b : Nat} {f g : Asg → Int}
    (ha : Denotes P w a f) (hb : Denotes P w b g)
    (he : exec P.c (.equals a b) w = .ok (.bool true, w)) : SameOn P.c.n P.c.dom f g := by
  have R := reachable_rel hP h
  obtain ⟨f', hf, sf⟩ := R.of_denotes ha
  obtain ⟨g', hg, sg⟩ := R.of_denotes hb
  obtain ⟨o, e, r, rfl, h1, _⟩ := asks (k := .equals a b) hP h ⟨⟨f', hf⟩, ⟨g', hg⟩⟩ rfl
  rw [e] at he
  cases he
  rw [hf.fn, hg.fn] at h1
  exact sf.symm.trans (Spec.SameOn.trans (h1 rfl) sg)

/-- In every reachable state, also after reordering: reduce two diagrams and compare the results; they are
equal exactly when the functions are.

Missing for the full property: no unique table may be resized from the first call to the second.  Resizing
re-inserts the chains in reverse, and where a reordering left two nodes with the same sons, a lookup then
finds the other one (`C44_violated`). -/
theorem C44_canonical_partial (hP : P.OK) (h : Reachable P w σ) (hauto : σ.auto = false) {a b : Nat} {f g : Asg → Int}
    (ha : Denotes P w a f) (hb : Denotes P w b g) (hva : ∀ v, Range P.c f v → TermOK P.c v)
    (hvb : ∀ v, Range P.c g v → TermOK P.c v) :
    ∃ i j w1 w2, exec P.c (.reduce a) w = .ok (.slot i, w1) ∧
      exec P.c (.reduce b) w1 = .ok (.slot j, w2) ∧
      ((∀ v, v < P.c.n → (w2.mgr.tables v).cap = (w.mgr.tables v).cap) →
        ∃ eq, exec P.c (.equals i j) w2 = .ok (.bool eq, w2) ∧
          (eq = true ↔ SameOn P.c.n P.c.dom f g)) := by
  have R := reachable_rel hP h
  obtain ⟨f', hf, sf⟩ := R.of_denotes ha
  obtain ⟨g', hg, sg⟩ := R.of_denotes hb
  obtain ⟨p, w1, e1, sl1, R1, c1, s1⟩ := reduce_call R hauto (a := a) ⟨f', hf, by rw [sf.range]; exact hva⟩
  have hg1 : ({ σ with slots := σ.slots ++ [some (σ.fn a)] } : SState).Has b g' := by
    unfold SState.Has
    rw [List.getElem?_append_left hg.lt]
    exact hg
  obtain ⟨q, w2, e2, sl2, R2, c2, s2⟩ := reduce_call R1 hauto (a := b) ⟨g', hg1, by rw [sg.range]; exact hvb⟩
  refine ⟨_, _, w1, w2, e1, e2, fun hc => ?_⟩
  have cc1 : SameCap P.c w.mgr w1.mgr := fun v hv => by
    have := c1 v; have := c2 v; have := hc v hv; omega
  have cc2 : SameCap P.c w1.mgr w2.mgr := fun v hv => by
    have := c1 v; have := c2 v; have := hc v hv; omega
  have hp1 : w1.slots[w.slots.length]? = some (some p) := by rw [sl1]; simp
  have hp2 : w2.slots[w.slots.length]? = some (some p) := by
    rw [sl2, List.getElem?_append_left (by rw [sl1]; simp)]; exact hp1
  have hq2 : w2.slots[w1.slots.length]? = some (some q) := by rw [sl2]; simp
  have selp := (s2 cc2).2 _ p hp1 (s1 cc1).1
  have selq := (s2 cc2).1
  obtain ⟨p', hp', dp⟩ := R2.has w.slots.length f' (by
    unfold SState.Has
    dsimp only
    rw [List.getElem?_append_left (by simp [R.len]), R.len]
    simp [hf.fn])
  obtain ⟨q', hq', dq⟩ := R2.has w1.slots.length g' (by
    unfold SState.Has
    rw [R1.len]
    simp [hg1.fn])
  rw [hp2] at hp'
  rw [hq2] at hq'
  cases hp'
  cases hq'
  refine ⟨p == q, ?_, ?_⟩
  · simp only [exec]
    rw [bind_ok (ptrOf_ok hp2), bind_ok (ptrOf_ok hq2)]
    rfl
  · rw [beq_iff_eq]
    constructor
    · rintro rfl x hx
      rw [← sf x hx, ← sg x hx]
      exact (dp x hx).det (dq x hx)
    · intro hfg
      refine sel_unique R2.good.inv R2.good.ord R2.good.cfg (R2.used hp2) (R2.used hq2) selp selq ?_
      intro x v hx hv
      rw [(dp x hx).det hv |>.symm, sf x hx, hfg x hx, ← sg x hx]
      exact dq x hx

/-- The capacities of the tables after a program. -/
private def caps (P : Setup) (ks : List Call) : Option (List Nat) :=
  match construct P.c P.pool P.order with
  | .ok m => match execAll P.c ks ⟨m, []⟩ with
    | .ok (_, w) => some ((List.range P.c.n).map fun v => (w.mgr.tables v).cap)
    | .error _ => none
  | .error _ => none

/-- Reducing x0 ∧ x1 twice after a reordering resizes no table. -/
example : caps bdd3 [.variableD 0, .variableD 1, .apply Op.AND 0 1, .forceReorder] =
      some [307, 307, 307] ∧
    caps bdd3 [.variableD 0, .variableD 1, .apply Op.AND 0 1, .forceReorder, .reduce 2, .reduce 2] =
      some [307, 307, 307] := by decide +kernel

example : ∃ w σ, Reachable bdd3 w σ ∧ σ.canon = false ∧ ∃ i j w1 w2,
    exec bdd3.c (.reduce 2) w = .ok (.slot i, w1) ∧ exec bdd3.c (.reduce 2) w1 = .ok (.slot j, w2) ∧
    ((∀ v, v < 3 → (w2.mgr.tables v).cap = (w.mgr.tables v).cap) →
      ∃ eq, exec bdd3.c (.equals i j) w2 = .ok (.bool eq, w2) ∧ (eq = true ↔ SameOn bdd3.c.n bdd3.c.dom
        (fun x => Op.AND.val (x 0) (x 1)) (fun x => Op.AND.val (x 0) (x 1)))) := by
  obtain ⟨o, w, h⟩ := Reachable.call bdd3_ok bdd3_world .forceReorder trivial
  have tv : ∀ v, Range bdd3.c (fun x => Op.AND.val (x 0) (x 1)) v → TermOK bdd3.c v :=
    fun v hv => (Bits.vals term1_bdd3 (fun v => by
      rintro ⟨x, hx, rfl⟩
      exact bdd3_bits (fun x => Op.AND.val (x 0) (x 1)) (by simp) x hx) v hv).1
  exact ⟨w, _, h, rfl, C44_canonical_partial bdd3_ok h rfl ((reachable_rel bdd3_ok h).denotes rfl)
    ((reachable_rel bdd3_ok h).denotes rfl) tv tv⟩

/-- `d = reduce(d)` for all diagrams `d` and `force_gc()` undo what earlier reorderings did to the comparison
of diagrams: the functions stay, and from then on two diagrams compare equal exactly when their functions are
equal.  The last part says that the resulting state counts as one without reordering, so all theorems that need
`σ.canon` hold of it and of the histories that continue it.

Missing for the full property: no unique table may be resized on the way (`C44_violated`). -/
theorem C44_restore_partial (hP : P.OK) (h : Reachable P w σ) (hauto : σ.auto = false) (hclean : σ.clean = true) {as : List Nat}
    (hall : ∀ a f, Denotes P w a f → a ∈ as)
    (has : ∀ a ∈ as, ∃ f, Denotes P w a f ∧ ∀ v, Range P.c f v → TermOK P.c v) :
    ∃ os w', execAll P.c (reduceAll w.slots.length as) w = .ok (os, w') ∧
      (∀ a f, Denotes P w a f → Denotes P w' a f) ∧
      ((∀ v, v < P.c.n → (w'.mgr.tables v).cap = (w.mgr.tables v).cap) →
        (∀ a b f g, Denotes P w' a f → Denotes P w' b g →
          ∃ eq, exec P.c (.equals a b) w' = .ok (.bool eq, w') ∧ (eq = true ↔ SameOn P.c.n P.c.dom f g)) ∧
        ∃ σ', Reachable P w' σ' ∧ σ'.canon = true ∧ σ'.clean = true ∧ σ'.cacheOK = σ.cacheOK) := by
  have R := reachable_rel hP h
  have hadm : ∀ a ∈ as, Adm P σ (.reduce a) := by
    intro a ha
    obtain ⟨f, hf, hv⟩ := has a ha
    obtain ⟨f', hf', s⟩ := R.of_denotes hf
    exact ⟨f', hf', by rw [s.range]; exact hv⟩
  have hin : ∀ a f, σ.Has a f → a ∈ as := fun a f hf => hall a f (R.denotes hf)
  obtain ⟨os, w', e, R', _, _⟩ := reduceAll_run (s0 := w.mgr) as [] σ w R hclean hauto hadm
    (fun a f h => Or.inr (hin a f h)) (fun _ => Nat.le_refl _) (fun _ a ha => by cases ha)
  refine ⟨os, w', by rw [R.len]; exact e, ?_, fun hc => ?_⟩
  · intro a f hf
    obtain ⟨f', hf', s⟩ := R.of_denotes hf
    have := R'.denotes (hf'.append (List.replicate as.length none))
    intro x hx
    rw [← s x hx]
    exact this x hx
  · have h' := Reachable.reduced h hclean hauto hin hadm e hc
    refine ⟨fun a b f g ha hb => ?_, _, h', rfl, hclean, rfl⟩
    have R2 := reachable_rel hP h'
    obtain ⟨f', hf, sf⟩ := R2.of_denotes ha
    obtain ⟨g', hg, sg⟩ := R2.of_denotes hb
    obtain ⟨o, e, r, rfl, h1, h2⟩ := asks (k := .equals a b) hP h' ⟨⟨f', hf⟩, ⟨g', hg⟩⟩ rfl
    rw [hf.fn, hg.fn] at h1 h2
    refine ⟨r, e, fun hr => sf.symm.trans (Spec.SameOn.trans (h1 hr) sg), fun hs => ?_⟩
    exact h2 rfl (sf.trans (Spec.SameOn.trans hs sg.symm))

/-- Reducing the three diagrams x0, x1, x0 ∧ x1 after a reordering resizes no table. -/
example : caps bdd3 ([.variableD 0, .variableD 1, .apply Op.AND 0 1, .forceReorder] ++
      reduceAll 3 [0, 1, 2]) = some [307, 307, 307] := by decide +kernel

example : ∃ w σ, Reachable bdd3 w σ ∧ σ.canon = false ∧ ∃ os w',
    execAll bdd3.c (reduceAll w.slots.length [0, 1, 2]) w = .ok (os, w') ∧
    ((∀ v, v < 3 → (w'.mgr.tables v).cap = (w.mgr.tables v).cap) → ∃ σ', Reachable bdd3 w' σ' ∧ σ'.canon = true) := by
  obtain ⟨o, w, h⟩ := Reachable.call bdd3_ok bdd3_world .forceReorder trivial
  have R := reachable_rel bdd3_ok h
  have tv : ∀ f ∈ [fun x : Asg => (x 0 : Int), fun x => (x 1 : Int), fun x => Op.AND.val (x 0) (x 1)],
      ∀ v, Range bdd3.c f v → TermOK bdd3.c v :=
    fun f hf v hv => (Bits.vals term1_bdd3 (fun v => by
      rintro ⟨x, hx, rfl⟩
      exact bdd3_bits f hf x hx) v hv).1
  obtain ⟨os, w', e, -, h1⟩ := C44_restore_partial (as := [0, 1, 2]) bdd3_ok h rfl rfl (fun a f hf => by
      obtain ⟨f', hf', _⟩ := R.of_denotes hf
      have : a < 3 := hf'.lt
      have : a = 0 ∨ a = 1 ∨ a = 2 := by omega
      simpa using this) (fun a ha => by
      simp only [List.mem_cons, List.not_mem_nil, or_false] at ha
      rcases ha with rfl | rfl | rfl
      · exact ⟨_, R.denotes rfl, tv _ (by simp)⟩
      · exact ⟨_, R.denotes rfl, tv _ (by simp)⟩
      · exact ⟨_, R.denotes rfl, tv _ (by simp)⟩)
  refine ⟨w, _, h, rfl, os, w', e, fun hc => ?_⟩
  obtain ⟨-, σ', h2, h3, _⟩ := h1 hc
  exact ⟨σ', h2, h3⟩

/-- In every reachable state without stale marks, also after reordering, `get_node_count(reduce(d))` is the number
of different functions obtained from that of `d` by fixing the first variables of the current order: the size of
the reduced diagram.

Missing for the full property (C23): stale marks (`C23_violated`), and no unique table may be resized by
`reduce`. -/
theorem C23_reduced_partial (hP : P.OK) (h : Reachable P w σ) (hauto : σ.auto = false) (hclean : σ.clean = true) {a : Nat} {f : Asg → Int}
    (ha : Denotes P w a f) (hv : ∀ v, Range P.c f v → TermOK P.c v)
    {order : List Nat} (ho : exec P.c .getOrder w = .ok (.nats order, w)) :
    ∃ i w', exec P.c (.reduce a) w = .ok (.slot i, w') ∧
      ((∀ v, v < P.c.n → (w'.mgr.tables v).cap = (w.mgr.tables v).cap) →
        ∃ k, exec P.c (.nodeCountOf i) w' = .ok (.nat k, w') ∧
          CountFuns P.c.n P.c.dom (Subfunction P.c.n P.c.dom order f) k) := by
  have R := reachable_rel hP h
  obtain ⟨f', hf, sf⟩ := R.of_denotes ha
  obtain ⟨p, w1, e1, sl1, R1, c1, s1⟩ := reduce_call R hauto (a := a) ⟨f', hf, by rw [sf.range]; exact hv⟩
  refine ⟨_, w1, e1, fun hc => ?_⟩
  have sel := (s1 hc).1
  have hp1 : w1.slots[w.slots.length]? = some (some p) := by rw [sl1]; simp
  obtain ⟨p', hp', dp⟩ := R1.has w.slots.length f' (by
    unfold SState.Has
    dsimp only
    rw [List.getElem?_append_right (by rw [R.len]), R.len]
    simp [hf.fn])
  rw [hp1] at hp'
  cases hp'
  obtain ⟨r, s', e, hs, vs, hnd, hvs, rfl⟩ := nodeCountOf_ok R1.good.inv R1.good.ord (R1.used hp1)
    (R1.cleanBelow hclean p)
  refine ⟨vs.length, ?_, ?_⟩
  · simp only [exec]
    rw [bind_ok (rootOf_ok hp1)]
    have e : nodeCountOf P.c p w1.mgr = .ok (vs.length, s') := e
    simp only [bind, StateT.bind, onMgr, e, hs, Except.bind]
    rfl
  · have hu : ∀ q ∈ vs, w1.mgr.used q = true := fun q hq => ((hvs q).1 hq).used R1.good.inv (R1.used hp1)
    have key := count_subs_of (F := fun g => g = f') R1.good.inv R1.good.ord hP.cfg hnd
      (fun q hq q' hq' hs => sel_unique R1.good.inv R1.good.ord hP.cfg (hu q hq) (hu q' hq')
        (sel.reach ((hvs q).1 hq)) (sel.reach ((hvs q').1 hq')) hs)
      (fun q hq => ⟨p, f', R1.used hp1, (hvs q).1 hq, dp, rfl⟩)
      (fun g hg => ⟨p, R1.used hp1, by rw [hg]; exact dp, fun q hq => (hvs q).2 hq⟩)
    rw [show levelVars (envOf P _).c w1.mgr = σ.order from R1.order] at key
    simp only [exists_eq_left] at key
    rw [order_eq hP h ho]
    exact sf.countSubs key

/-- After a reordering, reducing x0 ∧ x1 and counting its nodes; no table is resized. -/
example : caps bdd3 [.variableD 0, .variableD 1, .apply Op.AND 0 1, .forceReorder, .reduce 2] =
    some [307, 307, 307] := by decide +kernel

example : ∃ w σ, Reachable bdd3 w σ ∧ σ.canon = false ∧ ∃ i w', exec bdd3.c (.reduce 2) w = .ok (.slot i, w') ∧
    ((∀ v, v < 3 → (w'.mgr.tables v).cap = (w.mgr.tables v).cap) →
      ∃ k, exec bdd3.c (.nodeCountOf i) w' = .ok (.nat k, w')) := by
  obtain ⟨o, w, h⟩ := Reachable.call bdd3_ok bdd3_world .forceReorder trivial
  obtain ⟨o', e', ho⟩ := asks (k := .getOrder) bdd3_ok h trivial rfl
  obtain ⟨i, w', e, h1⟩ := C23_reduced_partial (a := 2) bdd3_ok h rfl rfl
    ((reachable_rel bdd3_ok h).denotes rfl) (fun v hv => (Bits.vals term1_bdd3 (fun v => by
    rintro ⟨x, hx, rfl⟩
    exact bdd3_bits (fun x => Op.AND.val (x 0) (x 1)) (by simp) x hx) v hv).1) (ho ▸ e')
  refine ⟨w, _, h, rfl, i, w', e, fun hc => ?_⟩
  obtain ⟨k, e1, _⟩ := h1 hc
  exact ⟨k, e1⟩

/-- After a reordering, reducing x0 ∧ x1. -/
example : ∃ w σ, Reachable bdd3 w σ ∧ σ.canon = false ∧
    Makes bdd3 w (.reduce 2) (fun x => Op.AND.val (x 0) (x 1)) := by
  obtain ⟨o, w, h⟩ := Reachable.call bdd3_ok bdd3_world .forceReorder trivial
  refine ⟨w, _, h, rfl, C44_reduce_partial bdd3_ok h rfl ((reachable_rel bdd3_ok h).denotes rfl) ?_⟩
  exact fun v hv => (Bits.vals term1_bdd3 (fun v => by
    rintro ⟨x, hx, rfl⟩
    exact bdd3_bits (fun x => Op.AND.val (x 0) (x 1)) (by simp) x hx) v hv).1

end Properties
end Teddy
