import Verif.SystemTest
import Verif.Proofs.ReliabilityTests
import Verif.Demo

/-!
# The test of a described system
-/

namespace Teddy
namespace Tests

open SM Spec Tsl

variable {P : Setup} {w : World} {c : Cfg} {b : Bool}

theorem check_eq {b' : Bool} {rest : SM World Bool} (hb : b' = true) (h : Ok rest w (fun r _ => r = b)) :
    Ok (check b' rest) w (fun r _ => r = b) := by
  subst hb
  unfold check
  refine h.bind ?_
  rintro r w' rfl
  exact Ok.pure rfl

theorem require_eq {b' : Bool} {rest : SM World Bool} (hb : b' = true) (h : Ok rest w (fun r _ => r = b)) :
    Ok (require b' rest) w (fun r _ => r = b) := by
  subst hb
  exact h

/-! ### The loops -/

theorem measureLoop_ok {I : World → Prop} {real : List Rat} {table : Int → Except Err Rat} {ask : Int → Call}
    {rest : SM World Bool} (hrest : ∀ w, I w → Ok rest w (fun r _ => r = b)) :
    ∀ {l : List Int}, (∀ s ∈ l, ∃ r a, elemAt real s.toNat = .ok r ∧ table s = .ok a ∧ closeWithin tolerance r a = true ∧
      ∀ w, I w → Ok (askRat c (ask s)) w (fun q w' => closeWithin tolerance r q = true ∧ I w')) →
    ∀ w, I w → Ok (measureLoop c real table ask l rest) w (fun r _ => r = b)
  | [], _, w, hw => hrest w hw
  | s :: l, h, w, hw => by
      obtain ⟨r, a, e1, e2, e3, e4⟩ := h s (by simp)
      unfold measureLoop
      refine Ok.bindEq (lift_ok e1) (Ok.bindEq (lift_ok e2) (check_eq e3 ?_))
      refine (e4 w hw).bind ?_
      rintro q w' ⟨hq, hw'⟩
      exact check_eq hq (measureLoop_ok hrest (fun s hs => h s (by simp [hs])) w' hw')

theorem vectorLoop_ok {I : World → Prop} {real1 real2 : List (List (List Nat))} {table : Int → Except Err (List (List Nat))}
    {ask : Int → Call} {rest : SM World Bool} (hrest : ∀ w, I w → Ok rest w (fun r _ => r = b)) :
    ∀ {l : List Int}, (∀ s ∈ l, ∃ r1 r2 a, elemAt real1 s.toNat = .ok r1 ∧ elemAt real2 s.toNat = .ok r2 ∧
      table s = .ok a ∧ r1.isPerm a = true ∧
      ∀ w, I w → Ok (askAsgs c (ask s)) w (fun q w' => r2.isPerm q = true ∧ I w')) →
    ∀ w, I w → Ok (vectorLoop c real1 real2 table ask l rest) w (fun r _ => r = b)
  | [], _, w, hw => hrest w hw
  | s :: l, h, w, hw => by
      obtain ⟨r1, r2, a, e1, e1', e2, e3, e4⟩ := h s (by simp)
      unfold vectorLoop
      refine Ok.bindEq (lift_ok e1) (Ok.bindEq (lift_ok e2) (require_eq e3 ?_))
      refine Ok.bindEq (lift_ok e1') ((e4 w hw).bind ?_)
      rintro q w' ⟨hq, hw'⟩
      exact require_eq hq (vectorLoop_ok hrest (fun s hs => h s (by simp [hs])) w' hw')

/-! ### States between the calls -/

/-- The handles `a` with `H a f` hold diagrams of `f`; no call has left marks behind, and the order is the first one. -/
def Neat (P : Setup) (H : Nat → (Asg → Int) → Prop) (w : World) : Prop :=
  ∃ σ, Rel P σ w ∧ σ.auto = false ∧ σ.canon = true ∧ σ.cacheOK = true ∧ σ.clean = true ∧ σ.order = P.order ∧
    ∀ a f, H a f → σ.Has a f

variable {H H' : Nat → (Asg → Int) → Prop}

theorem Neat.mono (h : Neat P H w) (hH : ∀ a f, H' a f → H a f) : Neat P H' w := by
  obtain ⟨σ, R, h1, h2, h3, h4, h5, h6⟩ := h
  exact ⟨σ, R, h1, h2, h3, h4, h5, fun a f hf => h6 a f (hH a f hf)⟩

/-- A question. -/
theorem Neat.ask (h : Neat P H w) {k : Call} {Q : Out → Prop} (hn : ∀ (σ : SState) o, next P.c σ k o = σ)
    (hk : ∀ σ : SState, σ.canon = true → σ.cacheOK = true → σ.clean = true → σ.order = P.order →
      (∀ a f, H a f → σ.Has a f) → Adm P σ k)
    (hQ : ∀ σ o, σ.order = P.order → (∀ a f, H a f → σ.Has a f) → OutOK P σ o k → Q o) :
    Ok (exec P.c k) w (fun o w' => Q o ∧ Neat P H w') := by
  obtain ⟨σ, R, h1, h2, h3, h4, h5, h6⟩ := h
  refine (sim R (hk σ h2 h3 h4 h5 h6) (fun _ => h1)).mono ?_
  rintro o w' ⟨ho, R'⟩
  rw [hn] at R'
  exact ⟨hQ σ o h5 h6 ho, σ, R', h1, h2, h3, h4, h5, h6⟩

theorem Neat.askRat (h : Neat P H w) {k : Call} {q : Rat} (hn : ∀ (σ : SState) o, next P.c σ k o = σ)
    (hk : ∀ σ : SState, σ.canon = true → σ.cacheOK = true → σ.clean = true → σ.order = P.order →
      (∀ a f, H a f → σ.Has a f) → Adm P σ k)
    (hQ : ∀ σ o, σ.order = P.order → (∀ a f, H a f → σ.Has a f) → OutOK P σ o k → o = .rat q) :
    Ok (askRat P.c k) w (fun r w' => r = q ∧ Neat P H w') := by
  obtain ⟨o, w', e, rfl, h'⟩ := h.ask hn hk hQ
  exact ⟨q, w', askRat_ok e, rfl, h'⟩

theorem Neat.askAsgs (h : Neat P H w) {k : Call} {q : List (List Nat)} (hn : ∀ (σ : SState) o, next P.c σ k o = σ)
    (hk : ∀ σ : SState, σ.canon = true → σ.cacheOK = true → σ.clean = true → σ.order = P.order →
      (∀ a f, H a f → σ.Has a f) → Adm P σ k)
    (hQ : ∀ σ o, σ.order = P.order → (∀ a f, H a f → σ.Has a f) → OutOK P σ o k → o = .asgs q) :
    Ok (askAsgs P.c k) w (fun r w' => r = q ∧ Neat P H w') := by
  obtain ⟨o, w', e, rfl, h'⟩ := h.ask hn hk hQ
  exact ⟨q, w', by unfold Tests.askAsgs; rw [bind_ok e]; rfl, rfl, h'⟩

theorem fn_of {σ : SState} {a : Nat} {f : Asg → Int} (h : σ.Has a f) : σ.fn a = f := by
  unfold SState.fn
  rw [show σ.slots[a]? = _ from h]

theorem Neat.dpld (h : Neat P H w) {a : Nat} {f : Asg → Int} (ha : H a f) (h1 : TermOK P.c 1) {vc : VarChange}
    (hv : VcOK P.c vc) (ch : Int → Int → Bool) :
    Ok (newSlot P.c (.dpld vc ch a)) w (fun j w' => (∀ a f, H a f → a ≠ j) ∧
      Neat P (addH H j fun x => b2i (ch (f (upd x vc.index vc.from)) (f (upd x vc.index vc.to)))) w') := by
  obtain ⟨σ, R, h2, h3, h4, h5, h6, h7⟩ := h
  obtain ⟨o, w', e, rfl, R'⟩ := sim R (k := .dpld vc ch a) ⟨⟨f, h7 a f ha⟩, h1, fun _ => hv.2⟩ (fun _ => h2)
  simp only [next, made, fn_of (h7 a f ha)] at R'
  exact ⟨_, w', newSlot_eq e, (keeps_new σ (fun _ => 0) h7).2, _, R', h2, h3, h4, h5, h6, (keeps_new σ _ h7).1⟩

theorem Neat.drop (h : Neat P H w) {a : Nat} {f : Asg → Int} (ha : H a f) :
    Ok (exec P.c (.drop a)) w (fun _ w' => Neat P (fun b f => b ≠ a ∧ H b f) w') := by
  obtain ⟨σ, R, h2, h3, h4, h5, h6, h7⟩ := h
  refine (sim R (k := .drop a) (h7 a f ha).lt).mono ?_
  rintro o w' ⟨-, R'⟩
  exact ⟨_, R', h2, h3, h4, h5, h6, fun b g hb => has_set hb.1 (h7 b g hb.2)⟩

/-! ### The system -/

/-- The manager. -/
def setup1 (env : Surroundings) : Setup := ⟨mixedCfg env system1.domains 5 5000, 10000, List.range 5, shipped 3⟩

/-- The structure function. -/
def fun1 (x : Asg) : Int := system1.structureFunction.getD (position (fun i => system1.domains.getD i 0) (List.range 5) x) 0

/-- Components 0 and 1 in series, 2 and 3 in series, both in parallel to component 4. -/
def parts1 : Structure :=
  .parallel (.parallel (.series (.component 0) (.component 1)) (.series (.component 2) (.component 3))) (.component 4)

def dom1 (i : Nat) : Nat := system1.domains.getD i 0

/-- The truth table. -/
def table1 : TT.Table := ⟨system1.structureFunction, system1.domains, [16, 8, 4, 2, 1], 1⟩

def probs1 : Nat → Nat → Rat := matrixAt system1.componentProbabilities

set_option maxRecDepth 8192 in
theorem make1 (asserts : Bool) : TT.make asserts system1.structureFunction system1.domains = .ok table1 := by
  cases asserts <;> rfl

theorem sums1 : SumsToOne 5 dom1 probs1 := by unfold SumsToOne; decide +kernel

theorem fun1_congr {x y : Asg} (h : ∀ i < 5, x i = y i) : fun1 x = fun1 y := by
  have e : position (fun i => system1.domains.getD i 0) (List.range 5) x =
      position (fun i => system1.domains.getD i 0) (List.range 5) y := by
    show position _ [0, 1, 2, 3, 4] x = position _ [0, 1, 2, 3, 4] y
    simp only [position, h 0 (by decide), h 1 (by decide), h 2 (by decide), h 3 (by decide), h 4 (by decide)]
  unfold fun1
  rw [e]

theorem fun1_eq {x : Asg} (hx : InDomain 5 dom1 x) : fun1 x = parts1.value x := by
  obtain ⟨y, hy, h⟩ := exists_allAsg hx
  have key : ∀ y ∈ allAsg 5 dom1, fun1 y = parts1.value y := by decide +kernel
  rw [fun1_congr fun i hi => (h i hi).symm, key y hy]
  exact Structure.value_congr fun j hj => h j ((show ∀ j ∈ parts1.components, j < 5 by decide) j hj)

theorem fun1_defined : ∀ x, InDomain 5 dom1 x → fun1 x ≠ Undefined := by
  intro x hx
  obtain ⟨y, hy, h⟩ := exists_allAsg hx
  have key : ∀ y ∈ allAsg 5 dom1, fun1 y ≠ Undefined := by decide +kernel
  rw [fun1_congr fun i hi => (h i hi).symm]
  exact key y hy

theorem term1 (env : Surroundings) {v : Int} (h : 0 ≤ v) : TermOK (setup1 env).c v := ⟨h, nofun⟩

/-- The numbers of the description, of the table and of the diagram agree. -/
def agrees (tol : Rat) (r a : Except Err Rat) (q : Rat) : Bool :=
  match r, a with
  | .ok r, .ok a => closeWithin tol r a && closeWithin tol r q
  | _, _ => false

theorem of_agrees {tol : Rat} {r a : Except Err Rat} {q : Rat} (h : agrees tol r a q = true) :
    ∃ r' a', r = .ok r' ∧ a = .ok a' ∧ closeWithin tol r' a' = true ∧ closeWithin tol r' q = true := by
  cases r with
  | error e => cases h
  | ok r => cases a with
    | error e => cases h
    | ok a =>
        obtain ⟨h1, h2⟩ := Bool.and_eq_true_iff.1 h
        exact ⟨r, a, rfl, rfl, h1, h2⟩

/-- The handle 0 holds the diagram of the system. -/
def Only (a : Nat) (f : Asg → Int) : Prop := a = 0 ∧ f = fun1

variable {env : Surroundings}

theorem measures {real : List Rat} {table : Int → Except Err Rat} {ask : Int → Call} {q : Int → Rat} {l : List Int}
    (h : ∀ s ∈ l, agrees tolerance (elemAt real s.toNat) (table s) (q s) = true)
    (hn : ∀ s (σ : SState) o, next (setup1 env).c σ (ask s) o = σ)
    (hk : ∀ s ∈ l, ∀ σ : SState, σ.clean = true → σ.Has 0 fun1 → Adm (setup1 env) σ (ask s))
    (hQ : ∀ s ∈ l, ∀ (σ : SState) o, σ.Has 0 fun1 → OutOK (setup1 env) σ o (ask s) → o = .rat (q s))
    {rest : SM World Bool} (hrest : ∀ w, Neat (setup1 env) Only w → Ok rest w (fun r _ => r = b)) :
    ∀ w, Neat (setup1 env) Only w → Ok (measureLoop (setup1 env).c real table ask l rest) w (fun r _ => r = b) := by
  refine measureLoop_ok hrest fun s hs => ?_
  obtain ⟨r, a, e1, e2, e3, e4⟩ := of_agrees (h s hs)
  refine ⟨r, a, e1, e2, e3, fun w hw => ?_⟩
  refine (hw.askRat (q := q s) (hn s) (fun σ _ _ h3 _ h5 => hk s hs σ h3 (h5 0 _ ⟨rfl, rfl⟩))
    (fun σ o _ h5 => hQ s hs σ o (h5 0 _ ⟨rfl, rfl⟩))).mono ?_
  rintro _ w' ⟨rfl, h⟩
  exact ⟨e4, h⟩

/-- The minimal cut vectors of the system. -/
def cuts1 (s : Int) : List (List Nat) :=
  ((assignments dom1 (List.range 5)).filter fun x => MinCut 5 dom1 fun1 s x).map (toList 5)

theorem vectors1 (env : Surroundings) {σ : SState} (h : σ.cacheOK = true) : VectorsOK (setup1 env) σ :=
  ⟨h, rfl, term1 env (by decide), term1 env (by decide), 0, (by show 0 < 5; decide), (by show 2 ≤ 2; decide)⟩

theorem cutVectors {real1 real2 : List (List (List Nat))} {table : Int → Except Err (List (List Nat))} {ask : Int → Call}
    {l : List Int}
    (h : ∀ s ∈ l, ∃ r1 r2 a, elemAt real1 s.toNat = .ok r1 ∧ elemAt real2 s.toNat = .ok r2 ∧ table s = .ok a ∧
      r1.isPerm a = true ∧ r2.isPerm (cuts1 s) = true)
    (hask : (∀ s, ask s = .mcvs s 0) ∨ ∀ s, ask s = .mpvs s 0)
    {rest : SM World Bool} (hrest : ∀ w, Neat (setup1 env) Only w → Ok rest w (fun r _ => r = b)) :
    ∀ w, Neat (setup1 env) Only w → Ok (vectorLoop (setup1 env).c real1 real2 table ask l rest) w (fun r _ => r = b) := by
  refine vectorLoop_ok hrest fun s hs => ?_
  obtain ⟨r1, r2, a, e1, e2, e3, e4, e5⟩ := h s hs
  refine ⟨r1, r2, a, e1, e2, e3, e4, fun w hw => ?_⟩
  have key : Ok (askAsgs (setup1 env).c (ask s)) w (fun r w' => r = cuts1 s ∧ Neat (setup1 env) Only w') := by
    rcases hask with hask | hask
    all_goals
      rw [hask s]
      refine hw.askAsgs (fun _ _ => rfl) (fun σ _ h2 _ _ h5 => ⟨vectors1 env h2, fun1, h5 0 _ ⟨rfl, rfl⟩⟩) ?_
      intro σ o h4 h5 ho
      have e : o = .asgs (((assignments (setup1 env).c.dom σ.order).filter
        fun x => MinCut (setup1 env).c.n (setup1 env).c.dom (σ.fn 0) s x).map (toList (setup1 env).c.n)) := ho
      rw [e, h4, fn_of (h5 0 _ ⟨rfl, rfl⟩)]
      rfl
  refine key.mono ?_
  rintro _ w' ⟨rfl, h⟩
  exact ⟨e5, h⟩

/-- The derivative of the system. -/
def der1 (vc : VarChange) (ch : Int → Int → Bool) (x : Asg) : Int :=
  b2i (ch (fun1 (upd x vc.index vc.from)) (fun1 (upd x vc.index vc.to)))

theorem derivatives {real : List (List (List Rat))} {expect : TT.Table → Nat → Except Err Rat} {ask : Nat → Call}
    {q : Int → VarChange → Rat}
    (hn : ∀ a (σ : SState) o, next (setup1 env).c σ (ask a) o = σ)
    (hk : ∀ a vc ch (σ : SState), σ.clean = true → σ.Has a (der1 vc ch) → Adm (setup1 env) σ (ask a))
    (hQ : ∀ a s vc (σ : SState) o, σ.Has a (der1 vc (Dpld.type3Decrease s)) → OutOK (setup1 env) σ o (ask a) →
      o = .rat (q s vc))
    {rest : SM World Bool} (hrest : ∀ w, Neat (setup1 env) Only w → Ok rest w (fun r _ => r = b)) :
    ∀ {l : List (Int × VarChange)}, (∀ p ∈ l, VcOK (setup1 env).c p.2 ∧
      ∃ td, TT.dpld env.asserts table1 p.2 (Dpld.type3Decrease p.1) = .ok td ∧
        agrees tolerance (importanceAt real p.2.index p.1.toNat p.2.from) (expect td p.2.index) (q p.1 p.2) = true) →
    ∀ w, Neat (setup1 env) Only w →
      Ok (derivativeLoop (setup1 env).c table1 0 real expect ask l rest) w (fun r _ => r = b)
  | [], _, w, hw => hrest w hw
  | (s, vc) :: l, h, w, hw => by
      obtain ⟨hvc, td, e0, e⟩ := h (s, vc) (by simp)
      obtain ⟨r, a, e1, e2, e3, e4⟩ := of_agrees e
      unfold derivativeLoop
      refine Ok.bindEq (lift_ok e0) ?_
      refine (hw.dpld (a := 0) (f := fun1) ⟨rfl, rfl⟩ (term1 env (by decide)) hvc (Dpld.type3Decrease s)).bind ?_
      rintro j w1 ⟨hne, h1⟩
      refine Ok.bindEq (lift_ok e1) (Ok.bindEq (lift_ok e2) ?_)
      refine (h1.askRat (q := q s vc) (hn j) (fun σ _ _ h3 _ h5 => hk j vc (Dpld.type3Decrease s) σ h3 (h5 j _ (.inl ⟨rfl, rfl⟩)))
        (fun σ o _ h5 => hQ j s vc σ o (h5 j _ (.inl ⟨rfl, rfl⟩)))).bind ?_
      rintro _ w2 ⟨rfl, h2⟩
      refine check_eq e3 (check_eq e4 ?_)
      refine (h2.drop (.inl ⟨rfl, rfl⟩)).bind ?_
      intro _ w3 h3
      refine derivatives hn hk hQ hrest (fun p hp => h p (by simp [hp])) w3 (h3.mono ?_)
      intro a g hg
      exact ⟨hne a g hg, .inr hg⟩

/-- The Fussell-Vesely importance the manager computes. -/
def cover1 (s : Int) (vc : VarChange) : Rat :=
  ((List.range vc.from).map (probs1 vc.index)).sum *
    probability 5 dom1 probs1 (fun x => decide (Covered 5 dom1 (der1 ⟨vc.index, vc.to, vc.from⟩ (Dpld.type3Increase s)) x)) /
      probability 5 dom1 probs1 fun x => decide (fun1 x < s)

theorem der1_drop {s : Int} {i u v : Nat} (hu : i < 5 → u < dom1 i) (hv : i < 5 → v < dom1 i) :
    SameOn 5 dom1 (der1 ⟨i, v, u⟩ (Dpld.type3Increase s)) (drop3 (fun x => parts1.value x) s i u v) := by
  have upd_in : ∀ {x : Asg} {k}, InDomain 5 dom1 x → (i < 5 → k < dom1 i) → InDomain 5 dom1 (upd x i k) := by
    intro x k hx hk j hj
    rw [upd_apply]
    split
    · rename_i h
      subst h
      exact hk hj
    · exact hx j hj
  intro x hx
  unfold der1
  show b2i (decide (fun1 (upd x i v) < s) && decide (s ≤ fun1 (upd x i u))) = _
  rw [fun1_eq (upd_in hx hu), fun1_eq (upd_in hx hv), ← Bool.decide_and]
  unfold drop3
  by_cases hc : s ≤ parts1.value (upd x i u) ∧ parts1.value (upd x i v) < s
  · rw [if_pos hc, decide_eq_true hc.symm]; rfl
  · rw [if_neg hc, decide_eq_false fun h => hc h.symm]; rfl

theorem covers : ∀ {l : List (Int × VarChange)}, (∀ p ∈ l, VcOK (setup1 env).c p.2 ∧
      probability 5 dom1 probs1 (fun x => decide (fun1 x < p.1)) ≠ 0 ∧
      agrees system1.floatingTolerance (importanceAt system1.fussellVeselyImportances p.2.index p.1.toNat p.2.from)
        (TT.fussellVesely env.asserts table1 system1.componentProbabilities p.2.index p.2.from p.1) (cover1 p.1 p.2) = true) →
    ∀ w, Neat (setup1 env) Only w → Ok (coverLoop (setup1 env).c table1 0 system1 l) w (fun r _ => r = true)
  | [], _, w, hw => Ok.pure rfl
  | (s, vc) :: l, h, w, hw => by
      obtain ⟨hvc, hu, e⟩ := h (s, vc) (by simp)
      obtain ⟨r, a, e1, e2, e3, e4⟩ := of_agrees e
      unfold coverLoop
      refine Ok.bindEq (lift_ok e1) (Ok.bindEq (lift_ok e2) ?_)
      refine (hw.askRat (k := .calculateUnavailability s (matrixAt system1.componentProbabilities) 0)
        (q := probability 5 dom1 probs1 fun x => decide (fun1 x < s)) (fun _ _ => rfl)
        (fun σ _ _ h3 _ h5 => ⟨h3, sums1, fun1, h5 0 _ ⟨rfl, rfl⟩, fun1_defined⟩)
        (fun σ o _ h5 ho => by
          rw [show o = _ from ho, fn_of (h5 0 _ ⟨rfl, rfl⟩)]
          rfl)).bind ?_
      rintro _ w1 ⟨rfl, h1⟩
      refine (h1.dpld (a := 0) (f := fun1) (vc := ⟨vc.index, vc.to, vc.from⟩) ⟨rfl, rfl⟩ (term1 env (by decide))
        ⟨hvc.1, hvc.2.2, hvc.2.1⟩ (Dpld.type3Increase s)).bind ?_
      rintro j w2 ⟨hne, h2⟩
      refine (h2.askRat (k := .fussellVesely (matrixAt system1.componentProbabilities) _ vc.from vc.index j)
        (q := cover1 s vc) (fun _ _ => rfl) ?_ ?_).bind ?_
      · intro σ hcan _ hcl ho h5
        refine ⟨hcl, hcan, sums1, hu, hvc.1, _, h5 j _ (.inl ⟨rfl, rfl⟩), fun x _ => ?_, ?_⟩
        · dsimp only
          cases Dpld.type3Increase s (fun1 (upd x vc.index vc.to)) (fun1 (upd x vc.index vc.from))
          · exact .inl rfl
          · exact .inr rfl
        · exact layered_congr (der1_drop (fun _ => hvc.2.1) (fun _ => hvc.2.2))
            (Structure.layered (by decide) s vc.index vc.from vc.to σ.order)
      · intro σ o _ h5 ho
        rw [show o = _ from ho, fn_of (h5 j _ (.inl ⟨rfl, rfl⟩))]
        rfl
      rintro _ w3 ⟨rfl, h3⟩
      refine check_eq e3 (check_eq e4 ?_)
      refine (h3.drop (.inl ⟨rfl, rfl⟩)).bind ?_
      intro _ w4 h4
      refine covers (fun p hp => h p (by simp [hp])) w4 (h4.mono ?_)
      intro a g hg
      exact ⟨hne a g hg, .inr hg⟩

theorem fits1 (env : Surroundings) : CountFits (setup1 env).c := by
  show ((List.range 5).map dom1).prod ≤ 9223372036854775807
  decide

theorem start1 (hP : (setup1 env).OK) (h : Reachable (setup1 env) w (SState.init (setup1 env))) :
    Ok (newSlot (setup1 env).c (.fromVector system1.structureFunction)) w (fun d w' => d = 0 ∧ Neat (setup1 env) Only w') := by
  have R := reachable_rel hP h
  have hlen : system1.structureFunction.length = ((List.range (setup1 env).c.n).map (setup1 env).c.dom).prod := by
    show system1.structureFunction.length = ((List.range 5).map dom1).prod
    decide
  have hterm : ∀ v ∈ system1.structureFunction, TermOK (setup1 env).c v := fun v hv =>
    term1 env ((show ∀ v ∈ system1.structureFunction, (0 : Int) ≤ v by decide) v hv)
  obtain ⟨o, w', e, ho, R'⟩ := sim R (k := .fromVector system1.structureFunction) ⟨fits1 env, hlen, hterm⟩
  have ho' : o = .slot 0 := ho
  subst ho'
  refine ⟨0, w', newSlot_eq e, rfl, _, R', rfl, rfl, rfl, rfl, rfl, ?_⟩
  rintro a f ⟨rfl, rfl⟩
  rfl

theorem caseOK : ∀ p ∈ describedCases system1, VcOK (setup1 env).c p.2 := by
  have key : ∀ p ∈ describedCases system1, p.2.index < 5 ∧ p.2.from < dom1 p.2.index ∧ p.2.to < dom1 p.2.index := by
    decide +kernel
  exact key

/-- `agrees` for a measure of a derivative. -/
def agreesD (r : Except Err Rat) (td : Except Err TT.Table) (expect : TT.Table → Except Err Rat) (q : Rat) : Bool :=
  match td with
  | .ok td => agrees tolerance r (expect td) q
  | .error _ => false

theorem of_agreesD {r : Except Err Rat} {td : Except Err TT.Table} {expect : TT.Table → Except Err Rat} {q : Rat}
    (h : agreesD r td expect q = true) : ∃ td', td = .ok td' ∧ agrees tolerance r (expect td') q = true := by
  cases td with
  | error e => cases h
  | ok td => exact ⟨td, rfl, h⟩

theorem structural1 : ∀ b : Bool, ∀ p ∈ describedCases system1,
    agreesD (importanceAt system1.structuralImportances p.2.index p.1.toNat p.2.from)
      (TT.dpld b table1 p.2 (Dpld.type3Decrease p.1)) (fun td => TT.structuralImportance td p.2.index)
      (countValue 5 dom1 (der1 p.2 (Dpld.type3Decrease p.1)) 1 / (allAsg 5 dom1).length) = true := by
  decide +kernel

theorem birnbaum1 : ∀ b : Bool, ∀ p ∈ describedCases system1,
    agreesD (importanceAt system1.birnbaumImportances p.2.index p.1.toNat p.2.from)
      (TT.dpld b table1 p.2 (Dpld.type3Decrease p.1)) (fun td => TT.birnbaumImportance td system1.componentProbabilities)
      (probability 5 dom1 probs1 fun x => decide (der1 p.2 (Dpld.type3Decrease p.1) x = 1)) = true := by
  decide +kernel

theorem cover1_ok : ∀ b : Bool, ∀ p ∈ describedCases system1,
    probability 5 dom1 probs1 (fun x => decide (fun1 x < p.1)) ≠ 0 ∧
      agrees system1.floatingTolerance (importanceAt system1.fussellVeselyImportances p.2.index p.1.toNat p.2.from)
        (TT.fussellVesely b table1 system1.componentProbabilities p.2.index p.2.from p.1) (cover1 p.1 p.2) = true := by
  decide +kernel

/-- The rest of the test after the minimal vectors. -/
theorem importances1 : ∀ w, Neat (setup1 env) Only w →
    Ok (derivativeLoop (setup1 env).c table1 0 system1.structuralImportances (fun td i => TT.structuralImportance td i)
        (fun dd => .structuralImportance dd) (describedCases system1) <|
      derivativeLoop (setup1 env).c table1 0 system1.birnbaumImportances
        (fun td _ => TT.birnbaumImportance td system1.componentProbabilities)
        (fun dd => .birnbaumImportance (matrixAt system1.componentProbabilities) dd) (describedCases system1) <|
      coverLoop (setup1 env).c table1 0 system1 (describedCases system1)) w (fun r _ => r = true) := by
  refine derivatives
    (q := fun s vc => countValue 5 dom1 (der1 vc (Dpld.type3Decrease s)) 1 / (allAsg 5 dom1).length)
    (fun _ _ _ => rfl) ?_ ?_ (derivatives
      (q := fun s vc => probability 5 dom1 probs1 fun x => decide (der1 vc (Dpld.type3Decrease s) x = 1))
      (fun _ _ _ => rfl) ?_ ?_ (covers ?_) ?_) ?_
  · intro a vc ch σ hcl hh
    exact ⟨hcl, fits1 env, ⟨_, hh⟩, nofun⟩
  · intro a s vc σ o hh ho
    rw [show o = _ from ho, fn_of hh]
    rfl
  · intro a vc ch σ hcl hh
    exact ⟨hcl, sums1, _, hh, fun x _ => by
      unfold der1
      cases ch (fun1 (upd x vc.index vc.from)) (fun1 (upd x vc.index vc.to)) <;> decide⟩
  · intro a s vc σ o hh ho
    rw [show o = _ from ho, fn_of hh]
    rfl
  · exact fun p hp => ⟨caseOK p hp, cover1_ok env.asserts p hp⟩
  · exact fun p hp => ⟨caseOK p hp, of_agreesD (birnbaum1 env.asserts p hp)⟩
  · exact fun p hp => ⟨caseOK p hp, of_agreesD (structural1 env.asserts p hp)⟩

theorem measures1 : ∀ s ∈ statesFrom0 2,
    agrees tolerance (elemAt system1.stateProbabilities s.toNat) (TT.probability table1 system1.componentProbabilities s)
      (probability 5 dom1 probs1 fun x => decide (fun1 x = s)) = true ∧
    agrees tolerance (elemAt system1.availabilities s.toNat) (TT.availability table1 system1.componentProbabilities s)
      (probability 5 dom1 probs1 fun x => decide (fun1 x ≥ s)) = true ∧
    agrees tolerance (elemAt system1.unavailabilities s.toNat) (TT.unavailability table1 system1.componentProbabilities s)
      (probability 5 dom1 probs1 fun x => decide (fun1 x < s)) = true := by
  decide +kernel

theorem cuts1_ok : ∀ b : Bool, ∃ r a, elemAt system1.mcvs 1 = .ok r ∧ TT.mcvs b table1 1 = .ok a ∧ r.isPerm a = true ∧
    r.isPerm (cuts1 1) = true := by
  intro b
  refine ⟨_, _, rfl, (?_ : _ = Except.ok [[0, 1, 0, 1, 0], [0, 1, 1, 0, 0], [1, 0, 0, 1, 0], [1, 0, 1, 0, 0]]), ?_, ?_⟩
  · cases b <;> decide +kernel
  · decide +kernel
  · decide +kernel

theorem paths1_ok : ∀ b : Bool, ∃ r a, elemAt system1.mpvs 1 = .ok r ∧ TT.mpvs b table1 1 = .ok a ∧ r.isPerm a = true ∧
    r.isPerm (cuts1 1) = false := by
  intro b
  refine ⟨_, _, rfl, (?_ : _ = Except.ok [[0, 0, 0, 0, 1], [0, 0, 1, 1, 0], [1, 1, 0, 0, 0]]), ?_, ?_⟩
  · cases b <;> decide +kernel
  · decide +kernel
  · decide +kernel

/-- The test up to the comparison of the minimal path vectors. -/
theorem systemTest_begin {paths : List (List (List Nat))} (hP : (setup1 env).OK)
    (hrest : ∀ w, Neat (setup1 env) Only w → Ok (
      vectorLoop (setup1 env).c system1.mpvs paths (fun s => TT.mpvs env.asserts table1 s) (fun s => .mpvs s 0)
          (statesFrom1 2) <|
        derivativeLoop (setup1 env).c table1 0 system1.structuralImportances (fun td i => TT.structuralImportance td i)
          (fun dd => .structuralImportance dd) (describedCases system1) <|
        derivativeLoop (setup1 env).c table1 0 system1.birnbaumImportances
          (fun td _ => TT.birnbaumImportance td system1.componentProbabilities)
          (fun dd => .birnbaumImportance (matrixAt system1.componentProbabilities) dd) (describedCases system1) <|
        coverLoop (setup1 env).c table1 0 system1 (describedCases system1)) w (fun r _ => r = b)) :
    Reports (setup1 env) (systemTest (setup1 env).c system1 paths) b := by
  refine Reports.of hP fun w h => ?_
  unfold systemTest
  refine Ok.bindEq (lift_ok (make1 _)) ?_
  refine (start1 hP h).bind ?_
  rintro _ w1 ⟨rfl, h1⟩
  refine measures (fun s hs => (measures1 s hs).1) (fun _ _ _ => rfl) ?_ ?_
    (measures (fun s hs => (measures1 s hs).2.1) (fun _ _ _ => rfl) ?_ ?_
      (measures (fun s hs => (measures1 s hs).2.2) (fun _ _ _ => rfl) ?_ ?_
        (cutVectors ?_ (.inl fun _ => rfl) hrest))) w1 h1
  · intro s hs σ hcl hh
    exact ⟨hcl, (mem_statesFrom0 hs).1, sums1, _, hh, fun1_defined⟩
  · intro s _ σ o hh ho
    rw [show o = _ from ho, fn_of hh]
    rfl
  · intro s hs σ hcl hh
    exact ⟨hcl, sums1, _, hh, fun1_defined⟩
  · intro s _ σ o hh ho
    rw [show o = _ from ho, fn_of hh]
    rfl
  · intro s hs σ hcl hh
    exact ⟨hcl, sums1, _, hh, fun1_defined⟩
  · intro s _ σ o hh ho
    rw [show o = _ from ho, fn_of hh]
    rfl
  · intro s hs
    obtain rfl : s = 1 := by simpa [statesFrom1, system1] using hs
    obtain ⟨r, a, e1, e2, e3, e4⟩ := cuts1_ok env.asserts
    exact ⟨r, r, a, e1, e1, e2, e3, e4⟩

theorem systemTest_passes (hP : (setup1 env).OK) : Passes (setup1 env) (systemTest (setup1 env).c system1 system1.mcvs) := by
  refine systemTest_begin hP (cutVectors ?_ (.inr fun _ => rfl) importances1)
  intro s hs
  obtain rfl : s = 1 := by simpa [statesFrom1, system1] using hs
  obtain ⟨r, a, e1, e2, e3, e4⟩ := cuts1_ok env.asserts
  obtain ⟨r', a', e1', e2', e3', -⟩ := paths1_ok env.asserts
  exact ⟨r', r, a', e1', e1, e2', e3', e4⟩

/-- Compared with the minimal path vectors, the answer of `mpvs` is wrong. -/
theorem systemTest_fails (hP : (setup1 env).OK) :
    Reports (setup1 env) (systemTest (setup1 env).c system1 system1.mpvs) false := by
  refine systemTest_begin hP fun w hw => ?_
  obtain ⟨r, a, e1, e2, e3, e4⟩ := paths1_ok env.asserts
  show Ok (vectorLoop _ _ _ _ _ (1 :: []) _) w _
  unfold vectorLoop
  refine Ok.bindEq (lift_ok e1) (Ok.bindEq (lift_ok e2) (require_eq e3 (Ok.bindEq (lift_ok e1) ?_)))
  refine (hw.askAsgs (q := cuts1 1) (k := .mpvs 1 0) (fun _ _ => rfl)
    (fun σ _ h2 _ _ h5 => ⟨vectors1 env h2, fun1, h5 0 _ ⟨rfl, rfl⟩⟩) ?_).bind ?_
  · intro σ o h4 h5 ho
    have e : o = .asgs (((assignments (setup1 env).c.dom σ.order).filter
      fun x => MinCut (setup1 env).c.n (setup1 env).c.dom (σ.fn 0) 1 x).map (toList (setup1 env).c.n)) := ho
    rw [e, h4, fn_of (h5 0 _ ⟨rfl, rfl⟩)]
    rfl
  · rintro _ w' ⟨rfl, -⟩
    rw [e4]
    exact Ok.pure rfl

end Tests
end Teddy
