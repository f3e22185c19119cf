import Verif.Properties.Repair
import Verif.Properties.Violations

/-!
# C82: The function given to `transform` throws an exception

A program calls `transform(d, g)`, `g` throws for some value of `d`, the program catches the exception and goes on.  The
exception should have no effect on the manager and its diagrams.
-/

namespace Teddy
namespace Properties

open SM Spec

variable {P : Setup} {w : World} {σ : SState}

/-- With a function that never throws the call is the one all other theorems are about. -/
theorem C82_never (c : Cfg) (t : Int → Int) (a : Nat) (w : World) :
    execTransform c (fun v => some (t v)) a w =
      (exec c (.transform t a) w).map fun r => (some r.1, r.2) :=
  execTransform_some c t a w

/-- `transform(d, g)` throws exactly when `g` throws for a value of the function; otherwise it returns a diagram of the
transformed function.  In either case no other handle changes. -/
theorem C82_transform (hP : P.OK) (h : Reachable P w σ) (hauto : σ.auto = false) {a : Nat} {f : Asg → Int}
    (ha : Denotes P w a f) {g : Int → Option Int}
    (ht : ∀ x, InDomain P.c.n P.c.dom x → ∀ u, g (f x) = some u → TermOK P.c u) :
    ∃ o w', execTransform P.c g a w = .ok (o, w') ∧
      (o = none ↔ ∃ x, InDomain P.c.n P.c.dom x ∧ g (f x) = none) ∧
      (o ≠ none → o = some (.slot w.slots.length) ∧ Denotes P w' w.slots.length (fun x => (g (f x)).getD 0)) ∧
      ∀ j h, Denotes P w j h → Denotes P w' j h := by
  have R := reachable_rel hP h
  obtain ⟨f', hf, e1⟩ := R.of_denotes ha
  have ht' : ∀ v, Range P.c f' v → ∀ u, g v = some u → TermOK P.c u := by
    rintro v ⟨x, hx, rfl⟩ u hu
    exact ht x hx u (by rw [← e1 x hx]; exact hu)
  obtain ⟨h1, h2⟩ := throw_sim R hf ht'
  by_cases hx : ∃ v, Range P.c f' v ∧ g v = none
  · obtain ⟨w', e, -, R'⟩ := h2 hx
    refine ⟨none, w', e, ⟨fun _ => ?_, fun _ => rfl⟩, fun h => absurd rfl h, fun j u hj => ?_⟩
    · obtain ⟨v, ⟨x, hx, rfl⟩, hg⟩ := hx
      exact ⟨x, hx, by rw [← e1 x hx]; exact hg⟩
    · obtain ⟨u', hu, e2⟩ := R.of_denotes hj
      exact (R'.denotes (f := u') hu).congr e2
  · obtain ⟨o, w', e, rfl, R'⟩ := h1 (fun v hv hg => hx ⟨v, hv, hg⟩) hauto
    refine ⟨_, w', e, ⟨nofun, ?_⟩, fun _ => ⟨by rw [R.len], ?_⟩, fun j u hj => ?_⟩
    · rintro ⟨x, hx', hg⟩
      exact (hx ⟨f' x, ⟨x, hx', rfl⟩, by rw [e1 x hx']; exact hg⟩).elim
    · refine Denotes.congr (R'.denotes (f := fun x => (g (f' x)).getD 0) ?_) fun x hx => by rw [e1 x hx]
      show _ = _
      rw [R.len]
      simp
    · obtain ⟨u', hu, e2⟩ := R.of_denotes hj
      refine Denotes.congr (R'.denotes (f := u') ?_) e2
      have hu' : σ.slots[j]? = some (some u') := hu
      show _ = _
      rw [List.getElem?_append_left hu.lt]
      exact hu'

/-- x0 ∧ x1 with a function that is defined for 0 only. -/
example : ∃ w σ, Reachable bdd3 w σ ∧ ∃ w', execTransform bdd3.c (fun v => if v = 0 then some 1 else none) 2 w =
    .ok (none, w') := by
  obtain ⟨w, h⟩ := bdd3_world
  obtain ⟨o, w', e, h1, -, -⟩ := C82_transform bdd3_ok h rfl ((reachable_rel bdd3_ok h).denotes (a := 2) rfl)
    (g := fun v => if v = 0 then some 1 else none) (fun x _ u hu => by
      split at hu
      · cases hu; exact term1_bdd3
      · cases hu)
  have : o = none := h1.2 ⟨fun _ => 1, fun i _ => show 1 < 2 by decide, rfl⟩
  subst this
  exact ⟨w, _, h, w', e⟩

/-- After the exception the program has the handles it had, all with the nodes they had, and every call that the rules
for histories with left-over marks admit does what it should: the state is `Reachable`, so that the theorems about
reachable states apply, with `clean := false`.  This holds although automatic reordering may be enabled.

Missing for the full property: the calls that rely on unmarked nodes (`satisfy_count`, `get_node_count`,
`get_dependency_set`, the probabilities) and the release of the marked nodes, see `C82_violated`. -/
theorem C82_after_partial (hP : P.OK) (h : Reachable P w σ) {a : Nat} {f : Asg → Int} (ha : Denotes P w a f)
    {g : Int → Option Int} (ht : ∀ x, InDomain P.c.n P.c.dom x → ∀ u, g (f x) = some u → TermOK P.c u)
    (hx : ∃ x, InDomain P.c.n P.c.dom x ∧ g (f x) = none) :
    ∃ w', execTransform P.c g a w = .ok (none, w') ∧ w'.slots = w.slots ∧
      (∀ j h, Denotes P w' j h ↔ Denotes P w j h) ∧ Reachable P w' { σ with clean := false } := by
  have R := reachable_rel hP h
  obtain ⟨f', hf, e1⟩ := R.of_denotes ha
  have ht' : ∀ v, Range P.c f' v → ∀ u, g v = some u → TermOK P.c u := by
    rintro v ⟨x, hx, rfl⟩ u hu
    exact ht x hx u (by rw [← e1 x hx]; exact hu)
  obtain ⟨x, hx, hg⟩ := hx
  obtain ⟨w', e, hs, R'⟩ := (throw_sim R hf ht').2 ⟨f' x, ⟨x, hx, rfl⟩, by rw [e1 x hx]; exact hg⟩
  refine ⟨w', e, hs, fun j u => ⟨fun hj => ?_, fun hj => ?_⟩, .thrown h ⟨f', hf, ht'⟩ e⟩
  · obtain ⟨u', hu, e2⟩ := R'.of_denotes hj
    exact (R.denotes (f := u') hu).congr e2
  · obtain ⟨u', hu, e2⟩ := R.of_denotes hj
    exact (R'.denotes (f := u') hu).congr e2

/-- x0 ∧ x1 with a function that is defined for 0 only; afterwards a conjunction is made. -/
theorem thrown_world : ∃ w, Reachable bdd3 w { bdd3State with clean := false } := by
  obtain ⟨w, h⟩ := bdd3_world
  obtain ⟨w', -, -, -, h'⟩ := C82_after_partial bdd3_ok h ((reachable_rel bdd3_ok h).denotes (a := 2) rfl)
    (g := fun v => if v = 0 then some 1 else none) (fun x _ u hu => by
      split at hu
      · cases hu; exact term1_bdd3
      · cases hu) ⟨fun _ => 1, fun i _ => show 1 < 2 by decide, rfl⟩
  exact ⟨w', h'⟩

example : ∃ w w', Reachable bdd3 w { bdd3State with clean := false } ∧
    exec bdd3.c (.apply Op.AND 0 1) w = .ok (.slot 3, w') := by
  obtain ⟨w, h⟩ := thrown_world
  obtain ⟨o, w', e, ho, -⟩ := sim (k := .apply Op.AND 0 1) (reachable_rel bdd3_ok h)
    ⟨rfl, rfl, fun x => (x 0 : Int), fun x => (x 1 : Int), rfl, rfl,
      opOK_AND ((bits_x (by decide) rfl).vals term1_bdd3) ((bits_x (by decide) rfl).vals term1_bdd3)⟩ (fun _ => rfl)
  cases ho
  exact ⟨w, w', h, e⟩

/-- After the exception `satisfy_count(v, reduce(d))` is the number of assignments with value `v`, for every diagram `d` that
the program has: the way to count although nodes are marked. -/
theorem C82_count_reduced (hP : P.OK) (h : Reachable P w σ) (hauto : σ.auto = false) (hfit : CountFits P.c) {a : Nat}
    {f : Asg → Int} (ha : Denotes P w a f) {g : Int → Option Int} {w' : World}
    (ht : ∀ x, InDomain P.c.n P.c.dom x → ∀ u, g (f x) = some u → TermOK P.c u)
    (e : execTransform P.c g a w = .ok (none, w')) {b : Nat} {f' : Asg → Int} (hb : Denotes P w b f')
    (ht' : ∀ v, Range P.c f' v → TermOK P.c v) {v : Int} (hv : ∀ m, P.c.fixedDom = some m → P.c.asserts = true → v < m) :
    ∃ w'', execAll P.c [.reduce b, .satisfyCount v w.slots.length] w' =
      .ok ([.slot w.slots.length, .int (countValue P.c.n P.c.dom f' v : Nat)], w'') := by
  obtain ⟨o, w1, e1, hn, -, -⟩ := C82_transform hP h hauto ha ht
  rw [e] at e1
  cases e1
  obtain ⟨w1, e1, hs, hd, h'⟩ := C82_after_partial hP h ha ht (hn.1 rfl)
  rw [e] at e1
  cases e1
  obtain ⟨_, w'', e2, -⟩ := C08_reduced_partial hP h' hauto hfit ((hd b f').2 hb) ht' hv
  rw [hs] at e2
  exact ⟨w'', e2⟩

/-- x0 ∧ x1 has one satisfying assignment of x0, x1, two with the third variable. -/
example : ∃ w σ w' w'', Reachable bdd3 w σ ∧
    execTransform bdd3.c (fun v => if v = 0 then some 1 else none) 2 w = .ok (none, w') ∧
    execAll bdd3.c [.reduce 2, .satisfyCount 1 3] w' =
      .ok ([.slot 3, .int (countValue 3 (fun _ => 2) (fun x => Op.AND.val (x 0) (x 1)) 1 : Nat)], w'') := by
  obtain ⟨w, h⟩ := bdd3_world
  have R := reachable_rel bdd3_ok h
  have hd := R.denotes (a := 2) (f := fun x => Op.AND.val (x 0) (x 1)) rfl
  have ht : ∀ x, InDomain bdd3.c.n bdd3.c.dom x → ∀ u,
      (fun v : Int => if v = 0 then some (1 : Int) else none) (Op.AND.val (x 0) (x 1)) = some u → TermOK bdd3.c u := by
    intro x _ u hu
    dsimp only at hu
    split at hu
    · cases hu; exact term1_bdd3
    · cases hu
  obtain ⟨w', e, -, -, -⟩ := C82_after_partial bdd3_ok h hd
    (g := fun v => if v = 0 then some 1 else none) ht ⟨fun _ => 1, fun i _ => show 1 < 2 by decide, rfl⟩
  have hr : ∀ v, Range bdd3.c (fun x => Op.AND.val (x 0) (x 1)) v → TermOK bdd3.c v := by
    rintro v ⟨x, hx, rfl⟩
    rcases bdd3_bits (fun x => Op.AND.val (x 0) (x 1)) (by simp) x hx with e | e
    · dsimp only at e ⊢
      rw [e]
      exact ⟨by decide, fun _ m h => by cases h; decide⟩
    · dsimp only at e ⊢
      rw [e]
      exact term1_bdd3
  obtain ⟨w'', e'⟩ := C82_count_reduced bdd3_ok h rfl (show 3 < 63 by decide) hd ht e hd hr (v := 1)
    (fun m hm _ => by cases hm; decide)
  have hl : w.slots.length = 3 := R.len
  rw [hl] at e'
  exact ⟨w, _, w', w'', h, e, e'⟩

/-- The calls `ks`, then `transform(d, g)` with handle `a`, then the calls `ks'`; says whether an exception was caught and what
the last calls return. -/
def runThrowing (P : Setup) (ks : List Call) (g : Int → Option Int) (a : Nat) (ks' : List Call) :
    Except Err (Bool × List Out) :=
  match construct P.c P.pool P.order with
  | .error e => .error e
  | .ok m => ((do
      let _ ← execAll P.c ks
      let o ← execTransform P.c g a
      let os ← execAll P.c ks'
      pure (o.isNone, os) : SM World _) ⟨m, []⟩).map fun r => r.1

/-- **C82 is false.** x0 ∧ x1 is transformed with a function that maps 0 to 1 and throws for 1.  Afterwards
`satisfy_count(1, x0 ∧ x1)` is 0 and, when repeated, 1, which is right.  And when all diagrams have been destroyed and
garbage has been collected, a node is left; had the function not thrown, there would be none. -/
theorem C82_violated :
    runThrowing (bdd2 100 50) [.variableD 0, .variableD 1, .apply Op.AND 0 1]
      (fun v => if v = 0 then some 1 else none) 2 [.satisfyCount 1 2, .satisfyCount 1 2] =
      .ok (true, [.int 0, .int 1]) ∧
    runThrowing (bdd2 100 50) [.variableD 0, .variableD 1, .apply Op.AND 0 1]
      (fun v => if v = 0 then some 1 else none) 2 [.drop 0, .drop 1, .drop 2, .forceGc, .nodeCount] =
      .ok (true, [.unit, .unit, .unit, .unit, .nat 1]) ∧
    runThrowing (bdd2 100 50) [.variableD 0, .variableD 1, .apply Op.AND 0 1]
      (fun v => if v = 0 then some 1 else some 0) 2 [.satisfyCount 1 2, .drop 0, .drop 1, .drop 2, .drop 3, .forceGc, .nodeCount] =
      .ok (false, [.int 1, .unit, .unit, .unit, .unit, .unit, .nat 0]) := by decide +kernel

end Properties
end Teddy
