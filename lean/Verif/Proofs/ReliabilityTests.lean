import Verif.ReliabilityTests
import Verif.Proofs.UnitTests
import Verif.Proofs.Unmarked
import Verif.Proofs.Bridge
import Verif.Proofs.TruthTableRel
import Verif.Proofs.TableImportance

/-!
# Proofs about the unit tests of the reliability part

The expression tree leaves marks behind, so the histories of `Verif.WorldSpec` do not cover what follows.  The tests ask
about diagrams without marked nodes only, though (`Verif.Proofs.Unmarked`).
-/

namespace Teddy
namespace Tests

open SM Spec Tsl

section
variable {P : Setup} {w : World} {σ : SState} {c : Cfg}

/-! ### Small steps -/

theorem close_self (a : Rat) : close a a = true := by
  have h : (0 : Rat) ≤ tolerance * (if a < 0 then -a else a) := by
    refine mul_nonneg (by unfold tolerance; norm_num) ?_
    split <;> linarith
  simp only [close, lt_irrefl, if_false, sub_self, decide_eq_true h, Bool.and_self]

theorem check_ok {b : Bool} {rest : SM World Bool} (hb : b = true) (h : Ok rest w (fun r _ => r = true)) :
    Ok (check b rest) w (fun r _ => r = true) := by
  subst hb
  unfold check
  refine h.bind ?_
  rintro r w' rfl
  exact Ok.pure rfl

theorem agree_ok {rest : SM World Bool} (h : Ok rest w (fun r _ => r = true)) :
    ∀ as : List Rat, Ok (agree as as rest) w (fun r _ => r = true)
  | [] => h
  | a :: as => check_ok (close_self a) (agree_ok h as)

theorem eachE_ok {α β : Type} {f : α → Except Err β} {g : α → β} : ∀ {l : List α}, (∀ a ∈ l, f a = .ok (g a)) →
    eachE f l = .ok (l.map g)
  | [], _ => rfl
  | a :: l, h => by
      have h1 := h a (by simp)
      have h2 := eachE_ok (l := l) fun b hb => h b (by simp [hb])
      simp only [eachE, h1, h2]
      rfl

theorem askRat_ok {k : Call} {v : Rat} {w' : World} (h : exec c k w = .ok (.rat v, w')) : askRat c k w = .ok (v, w') := by
  unfold askRat; rw [bind_ok h]; rfl

theorem mapL_ok {α β : Type} {I : World → Prop} {f : α → SM World β} {g : α → β} :
    ∀ {l : List α}, (∀ a ∈ l, ∀ w, I w → Ok (f a) w (fun b w' => b = g a ∧ I w')) → ∀ {w}, I w →
      Ok (mapL f l) w (fun bs w' => bs = l.map g ∧ I w')
  | [], _, _, hI => Ok.pure ⟨rfl, hI⟩
  | a :: l, h, w, hI => by
      unfold mapL
      refine (h a (by simp) w hI).bind ?_
      rintro b w1 ⟨rfl, h1⟩
      refine (mapL_ok (l := l) (fun b hb => h b (by simp [hb])) h1).bind ?_
      rintro bs w2 ⟨rfl, h2⟩
      exact Ok.pure ⟨rfl, h2⟩

/-! ### Probabilities -/

theorem dom_list (c : Cfg) : c.n = (domainsOf c).length ∧ ∀ i, i < c.n → c.dom i = (domainsOf c).getD i 0 := by
  refine ⟨by simp [domainsOf, fillVector], fun i hi => ?_⟩
  rw [domainsOf_eq, getD_toList _ hi]

theorem drawMatrix_eq {draw : Nat → Nat → Rat} (h : ∀ i < c.n, ((List.range (c.dom i)).map (draw i)).sum ≠ 0) :
    ∃ ps, drawMatrix c draw = .ok ps ∧ HasRows (domainsOf c) ps ∧ SumsToOne c.n c.dom (entry ps) ∧
      ∀ i < c.n, ∀ k < c.dom i, entry ps i k = draw i k / ((List.range (c.dom i)).map (draw i)).sum := by
  obtain ⟨hn, hd⟩ := dom_list c
  let row : Nat → List Rat := fun i => (List.range (c.dom i)).map (draw i)
  refine ⟨(List.range c.n).map fun i => (row i).map fun p => p / (row i).sum, ?_, ⟨?_, ?_⟩, ?_, ?_⟩
  · refine eachE_ok fun i hi => ?_
    simp only [drawRow, if_neg (h i (List.mem_range.1 hi))]
    rfl
  · simp [← hn]
  · intro i hi
    rw [← hn] at hi
    rw [← hd i hi]
    simp [List.getD, hi, row]
  · intro i hi
    have e : (List.range (c.dom i)).map (entry ((List.range c.n).map fun i => (row i).map fun p => p / (row i).sum) i) =
        (row i).map fun p => p / (row i).sum := by
      refine List.ext_getElem (by simp [row]) fun k h1 h2 => ?_
      have hk : k < c.dom i := by simpa using h1
      simp [entry, List.getD, hi, row, hk]
    rw [e, show (fun p : Rat => p / (row i).sum) = fun p => p * (row i).sum⁻¹ from by funext p; rw [div_eq_mul_inv],
      List.sum_map_mul_right, List.map_id']
    exact mul_inv_cancel₀ (h i hi)
  · intro i hi k hk
    simp [entry, List.getD, hi, row, hk]

/-- If no row of random numbers sums to zero, the rows drawn are distributions. -/
theorem drawMatrix_ok {draw : Nat → Nat → Rat} (h : ∀ i < c.n, ((List.range (c.dom i)).map (draw i)).sum ≠ 0) :
    ∃ ps, drawMatrix c draw = .ok ps ∧ HasRows (domainsOf c) ps ∧ SumsToOne c.n c.dom (entry ps) := by
  obtain ⟨ps, h1, h2, h3, -⟩ := drawMatrix_eq h
  exact ⟨ps, h1, h2, h3⟩

/-! ### States between the calls -/

/-- The handles `a` with `H a f` hold diagrams of `f`; those with `U a` hold diagrams without marked nodes. -/
def St (P : Setup) (H : Nat → (Asg → Int) → Prop) (U : Nat → Prop) (w : World) : Prop :=
  ∃ σ, Rel P σ w ∧ σ.auto = false ∧ σ.canon = true ∧ σ.cacheOK = true ∧ (∀ a f, H a f → σ.Has a f) ∧
    ∀ a, U a → Unmarked w a

variable {H H' : Nat → (Asg → Int) → Prop} {U U' : Nat → Prop}

theorem St.mono (h : St P H U w) (hH : ∀ a f, H' a f → H a f) (hU : ∀ a, U' a → U a) : St P H' U' w := by
  obtain ⟨σ, R, h1, h2, h3, h4, h5⟩ := h
  exact ⟨σ, R, h1, h2, h3, fun a f hf => h4 a f (hH a f hf), fun a ha => h5 a (hU a ha)⟩

/-- A question about a diagram. -/
theorem St.ask (h : St P H U w) {a : Nat} (ha : U a) {k : Call} (hask : k.asks = some a) {Q : Out → Prop}
    (hk : ∀ σ : SState, σ.clean = true → (∀ a f, H a f → σ.Has a f) → Adm P σ k)
    (hQ : ∀ σ o, (∀ a f, H a f → σ.Has a f) → OutOK P σ o k → Q o) :
    Ok (exec P.c k) w (fun o w' => Q o ∧ St P H U w') := by
  obtain ⟨σ, R, h1, h2, h3, h4, h5⟩ := h
  obtain ⟨p, hp, hc⟩ := h5 a ha
  refine (asks_ok R hp hc hask (hk σ.tidy rfl h4)).mono ?_
  rintro o w' ⟨h6, R', hs⟩
  exact ⟨hQ σ o h4 h6, σ, R', h1, h2, h3, h4, fun b hb => (h5 b hb).same hs⟩

theorem St.askRat (h : St P H U w) {a : Nat} (ha : U a) {k : Call} (hask : k.asks = some a) {q : Rat}
    (hk : ∀ σ : SState, σ.clean = true → (∀ a f, H a f → σ.Has a f) → Adm P σ k)
    (hQ : ∀ σ o, (∀ a f, H a f → σ.Has a f) → OutOK P σ o k → o = .rat q) :
    Ok (askRat P.c k) w (fun r w' => r = q ∧ St P H U w') := by
  obtain ⟨o, w', e, rfl, h'⟩ := h.ask ha hask hk hQ
  exact ⟨q, w', askRat_ok e, rfl, h'⟩

theorem newSlot_eq {k : Call} {j : Nat} {w' : World} (h : exec c k w = .ok (.slot j, w')) : newSlot c k w = .ok (j, w') := by
  unfold newSlot; rw [bind_ok h]; rfl

/-- One more handle. -/
def addH (H : Nat → (Asg → Int) → Prop) (j : Nat) (g : Asg → Int) : Nat → (Asg → Int) → Prop :=
  fun a f => (a = j ∧ f = g) ∨ H a f

theorem keeps_new (σ : SState) (g : Asg → Int) (h : ∀ a f, H a f → σ.Has a f) :
    (∀ a f, addH H σ.slots.length g a f → ({ σ with slots := σ.slots ++ [some g] } : SState).Has a f) ∧
      ∀ a f, H a f → a ≠ σ.slots.length := by
  refine ⟨?_, fun a f hf => (h a f hf).lt.ne⟩
  rintro a f (⟨rfl, rfl⟩ | hf)
  · show (σ.slots ++ [some f])[σ.slots.length]? = _
    simp
  · exact (h a f hf).append _

theorem St.dpld (h : St P H U w) {a : Nat} {f : Asg → Int} (ha : H a f) (h1 : TermOK P.c 1) {vc : VarChange}
    (hv : vc.index < P.c.n → vc.from < P.c.dom vc.index ∧ vc.to < P.c.dom vc.index) (ch : Int → Int → Bool) :
    Ok (newSlot P.c (.dpld vc ch a)) w (fun j w' => (∀ a f, H a f → a ≠ j) ∧
      St P (addH H j fun x => b2i (ch (f (upd x vc.index vc.from)) (f (upd x vc.index vc.to)))) (fun a => a = j ∨ U a) w') := by
  obtain ⟨σ, R, h2, h3, h4, h5, h6⟩ := h
  obtain ⟨o, w', e, rfl, R', hk, hu⟩ := dpld_unmarked R h2 (vc := vc) (ch := ch) (h5 a f ha) h1 hv
  refine ⟨_, w', newSlot_eq e, (keeps_new σ (fun _ => 0) h5).2, _, R', h2, h3, h4, (keeps_new σ _ h5).1, ?_⟩
  rintro b (rfl | hb)
  · exact hu
  · exact hk b (h6 b hb)

theorem St.toDpldE (h : St P H U w) {a : Nat} {f : Asg → Int} (ha : H a f) (hU : TermOK P.c Undefined) {varFrom var : Nat}
    (hi : var < P.c.n) (hdep : ¬ DependsOn P.c.n P.c.dom f var) :
    Ok (newSlot P.c (.toDpldE varFrom var a)) w (fun j w' => (∀ a f, H a f → a ≠ j) ∧
      St P (addH H j fun x => if x var = varFrom then f x else Undefined) U w') := by
  obtain ⟨σ, R, h2, h3, h4, h5, h6⟩ := h
  obtain ⟨o, w', e, rfl, R', hk⟩ := toDpldE_unmarked (varFrom := varFrom) R h2 h3 (h5 a f ha) hU hi hdep
  exact ⟨_, w', newSlot_eq e, (keeps_new σ (fun _ => 0) h5).2, _, R', h2, h3, h4, (keeps_new σ _ h5).1,
    fun b hb => hk b (h6 b hb)⟩

theorem St.copy (h : St P H U w) {a : Nat} {f : Asg → Int} (ha : H a f) :
    Ok (newSlot P.c (.copy a)) w (fun j w' => (∀ a f, H a f → a ≠ j) ∧ (∀ a, U a → a ≠ j) ∧ St P (addH H j f) U w') := by
  obtain ⟨σ, R, h2, h3, h4, h5, h6⟩ := h
  obtain ⟨o, w', e, rfl, R', hk⟩ := copy_unmarked R (h5 a f ha)
  refine ⟨_, w', newSlot_eq e, (keeps_new σ (fun _ => 0) h5).2, ?_, _, R', h2, h3, h4, (keeps_new σ _ h5).1,
    fun b hb => hk b (h6 b hb)⟩
  rintro b hb rfl
  obtain ⟨p, hp, -⟩ := h6 _ hb
  rw [← R.len, List.getElem?_eq_none (Nat.le_refl _)] at hp
  cases hp

theorem has_set {σ : SState} {a b : Nat} {f : Asg → Int} (hne : b ≠ a) (h : σ.Has b f) :
    ({ σ with slots := σ.slots.set a none } : SState).Has b f := by
  show (σ.slots.set a none)[b]? = _
  rw [List.getElem?_set_ne (Ne.symm hne)]
  exact h

theorem St.drop (h : St P H U w) {a : Nat} {f : Asg → Int} (ha : H a f) :
    Ok (exec P.c (.drop a)) w (fun _ w' => St P (fun b f => b ≠ a ∧ H b f) (fun b => b ≠ a ∧ U b) w') := by
  obtain ⟨σ, R, h2, h3, h4, h5, h6⟩ := h
  refine (drop_unmarked R (h5 a f ha)).mono ?_
  rintro o w' ⟨-, R', hk⟩
  exact ⟨_, R', h2, h3, h4, fun b g hb => has_set hb.1 (h5 b g hb.2), fun b hb => hk b hb.1 (h6 b hb.2)⟩

theorem St.fussellVesely (h : St P H U w) {a : Nat} (hu : U a) {f : Asg → Int}
    (ha : ∃ g, H a g ∧ SameOn P.c.n P.c.dom g f) (h01 : ∀ x, f x = 0 ∨ f x = 1)
    (hl : ∀ order, Layered P.c.n P.c.dom order f) {pr : Nat → Nat → Rat} (hs : SumsToOne P.c.n P.c.dom pr) (u : Rat)
    (st i : Nat) :
    Ok (Tests.askRat P.c (.fussellVesely pr u st i a)) w (fun r w' =>
      r = ((List.range st).map (pr i)).sum *
        probability P.c.n P.c.dom pr (fun x => decide (Covered P.c.n P.c.dom f x)) / u ∧ St P H U w') := by
  obtain ⟨σ, R, h2, h3, h4, h5, h6⟩ := h
  obtain ⟨g, hg, e⟩ := ha
  obtain ⟨_, w', e', rfl, R', hk⟩ := fussellVesely_unmarked R h2 h3 (h5 a g hg) (h6 a hu)
    (fun x hx => by rw [e x hx]; exact h01 x) (layered_congr e (hl _)) hs u st i
  simp only [covered_congr e] at e'
  exact ⟨_, w', askRat_ok e', rfl, σ, R', h2, h3, h4, h5, fun b hb => hk b (h6 b hb)⟩

theorem St.evaluate (h : St P H U w) {a : Nat} {f : Asg → Int} (ha : H a f) {x : Asg} (hx : InDomain P.c.n P.c.dom x) :
    askInt P.c (.evaluate a x) w = .ok (f x, w) := by
  obtain ⟨σ, R, h2, h3, h4, h5, h6⟩ := h
  exact askInt_ok (R.denotes (h5 a f ha) x hx)

/-- What can be read after `calculate_probabilities`. -/
theorem St.probabilities (h : St P H U w) {a : Nat} (hu : U a) {f : Asg → Int} (ha : H a f) {pr : Nat → Nat → Rat}
    (hpr : SumsToOne P.c.n P.c.dom pr) :
    Ok (exec P.c (.calculateProbabilities pr a)) w (fun _ w' => St P H U w' ∧
      (∀ s, 0 ≤ s → s ≠ Undefined → onMgr (getProbability s) w' =
        .ok (probability P.c.n P.c.dom pr fun x => decide (f x = s), w')) ∧
      (Defined P.c f → ∀ s, onMgr (getAvailability s) w' =
          .ok (probability P.c.n P.c.dom pr fun x => decide (s ≤ f x), w') ∧
        onMgr (getUnavailability s) w' = .ok (probability P.c.n P.c.dom pr fun x => decide (f x < s), w'))) := by
  obtain ⟨o, w', e, -, h'⟩ := h.ask (Q := fun _ => True) hu (k := .calculateProbabilities pr a) rfl
    (fun σ hc hs => ⟨hc, hpr, f, hs a f ha⟩) (fun _ _ _ _ => trivial)
  obtain ⟨σ, R, h2, h3, h4, h5, h6⟩ := h
  obtain ⟨p, hp, hcb⟩ := h6 a hu
  obtain ⟨p', hp', hd⟩ := R.has a f (h5 a f ha)
  rw [hp] at hp'
  cases hp'
  obtain ⟨_, s', e2, D, hdata⟩ := calculateProbabilities_ok R.good (R.used hp) hcb hd hpr
  have e3 : exec P.c (.calculateProbabilities pr a) w = .ok (.unit, { w with mgr := s' }) := by
    simp only [exec]
    rw [bind_ok (rootOf_ok hp), bind_ok (a := ()) (s' := { w with mgr := s' })]
    · rfl
    · simp only [onMgr]
      rw [show calculateProbabilities P.c pr p w.mgr = _ from e2]
  rw [e] at e3
  obtain ⟨-, rfl⟩ := Prod.mk.inj (Except.ok.inj e3)
  refine ⟨o, _, e, h', fun s h0 hs => ?_, fun hf => ?_⟩
  · have := getProbability_ok (root := p) (P := pr) (f := f) (D.good R.good)
      (by rw [D.used]; exact R.used hp) (fun x hx => by rw [D.kind]; exact hd x hx)
      (fun q a hq hk => hdata q a (by rw [← D.used]; exact hq) (by rw [← D.kind]; exact hk)) h0 hs
    simp only [onMgr]
    rw [this]
    rfl
  · have key : ∀ φ, sumTerminals φ s' = .ok (probability P.c.n P.c.dom pr (fun x => φ (f x)), s') := by
      intro φ
      exact sumTerminals_ok (root := p) (P := pr) (f := f) (D.good R.good)
        (by rw [D.used]; exact R.used hp) (fun x hx => by rw [D.kind]; exact hd x hx)
        (fun q a hq hk => hdata q a (by rw [← D.used]; exact hq) (by rw [← D.kind]; exact hk)) hf φ
    intro s
    constructor
    · simp only [onMgr, getAvailability, key]
    · simp only [onMgr, getUnavailability, key]

/-! ### The system under test -/

/-- The truth table of a test, of the function `f`. -/
structure Facts (P : Setup) (f : List Nat → Int) (t : TT.Table) : Prop where
  size : DomOK (domainsOf P.c)
  of : TT.Of (domainsOf P.c) f t
  bounds : ∀ x, IsTuple (domainsOf P.c) x → 0 ≤ f x ∧ ∃ i, i < P.c.n ∧ f x < P.c.dom i
  shape : ∃ e : Structure, e.components.Nodup ∧ (∀ i ∈ e.components, i < P.c.n) ∧ ∀ x, f (toList P.c.n x) = e.value x

/-- Expression trees without constants are series-parallel systems. -/
theorem structure_of (e : ExprNode) (h : e.consts = []) :
    ∃ st : Structure, st.components = e.vars ∧ ∀ x, nodeVal x e = st.value x := by
  induction e with
  | variableN i => exact ⟨.component i, rfl, fun _ => rfl⟩
  | constantN v => cases h
  | operation b l r ihl ihr =>
      simp only [ExprNode.consts, List.append_eq_nil_iff] at h
      obtain ⟨sl, h1, h2⟩ := ihl h.1
      obtain ⟨sr, h3, h4⟩ := ihr h.2
      cases b with
      | true =>
          refine ⟨.series sl sr, by simp only [Structure.components, h1, h3, ExprNode.vars], fun x => ?_⟩
          simp only [nodeVal, Structure.value, h2, h4]
      | false =>
          refine ⟨.parallel sl sr, by simp only [Structure.components, h1, h3, ExprNode.vars], fun x => ?_⟩
          simp only [nodeVal, Structure.value, h2, h4]

/-- The handle of a test. -/
def One (P : Setup) (d : Nat) (f : List Nat → Int) : Nat → (Asg → Int) → Prop :=
  fun a g => a = d ∧ g = fun x => f (toList P.c.n x)

theorem makeSystem_ok (S : Suitable P) (hsize : DomOK (domainsOf P.c)) {ch : Nat → Choice} (hc : ∀ p, 2 ≤ (ch p).denom)
    (h : Reachable P w (SState.init P)) :
    ∃ f t w', makeSystem P.c ch w = .ok ((0, t), w') ∧ Facts P f t ∧ St P (One P 0 f) (fun a => a = 0) w' ∧
      ∃ σ, Reachable P w' σ ∧ σ.canon = true ∧ σ.auto = false ∧ σ.Has 0 (fun x => f (toList P.c.n x)) := by
  have hn : 1 ≤ P.c.n := by have := S.ok.vars; omega
  obtain ⟨hdn, hdd⟩ := dom_list P.c
  obtain ⟨e, s, e1, -, ⟨hv, hcs⟩, -⟩ := treeGo_ok hc P.c.n P.c.n ⟨0, 0⟩ hn (Nat.le_refl _)
  have e2 : makeTree ch P.c.n = .ok e := by simp only [makeTree, e1]; rfl
  have hvars : ∀ i ∈ e.vars, i < P.c.n := by
    intro i hi
    have := hv.mem_iff.1 hi
    simp at this
    omega
  let f : List Nat → Int := fun l => nodeVal (asgOf l) e
  have hval : ∀ x, f (toList P.c.n x) = nodeVal x e := fun x => nodeVal_congr _ _ (toList_asgOf x) hvars
  have hadm : Adm P (SState.init P) (.fromExpr e.toExpr) := toExpr_ok S.ok S.fit hvars (by simp [hcs])
  obtain ⟨o, w', e3, rfl, R, hu⟩ := fromExpr_unmarked (reachable_rel S.ok h) rfl hadm
  have hr := Reachable.step h hadm e3 (fun _ => rfl)
  have hg : (fun x => e.toExpr.val x) = fun x => f (toList P.c.n x) := by
    funext x
    rw [hval, toExpr_val]
  rw [hg] at R
  obtain ⟨it, e4, e5⟩ := visit_domains S.ok
  have e6 : makeVector P.c e = .ok ((tuples (domainsOf P.c)).map f) := by
    have e7 := e5 (eval := fun l => evaluateNode l e) (f := fun x => nodeVal x e) fun x hx => evaluateNode_ok hvars
    simp only [makeVector, e4]
    show (do let vs ← visit P.c (fun l => evaluateNode l e) it; _) = _
    rw [e7]
    show Except.ok _ = _
    rw [← allAsg_toList hdn hdd, List.map_map, List.map_map]
    congr 1
    exact List.map_congr_left fun x _ => (hval x).symm
  have hb : ∀ x, IsTuple (domainsOf P.c) x → 0 ≤ f x ∧ ∃ i, i < P.c.n ∧ f x < P.c.dom i := by
    intro x hx
    rcases nodeVal_mem (asgOf x) e with ⟨i, hi, e8⟩ | e8
    · show 0 ≤ nodeVal (asgOf x) e ∧ ∃ i, i < P.c.n ∧ nodeVal (asgOf x) e < _
      rw [e8]
      have : asgOf x i < P.c.dom i := (isTuple_asg hdn hdd hx).1 i (hvars i hi)
      exact ⟨by omega, i, hvars i hi, by omega⟩
    · rw [hcs] at e8; cases e8
  have hlt : ∀ x, IsTuple (domainsOf P.c) x → f x ≠ Undefined := by
    intro x hx
    obtain ⟨_, i, hi, h2⟩ := hb x hx
    have := S.fit i hi
    rw [nd_val] at this
    rw [und_val]
    omega
  obtain ⟨t, e9, ht⟩ := TT.make_ok P.c.asserts hsize (f := f) ⟨toList P.c.n fun _ => 0,
    toList_isTuple hdn hdd fun i hi => S.ok.cfg.1 i hi, hlt _ (toList_isTuple hdn hdd fun i hi => S.ok.cfg.1 i hi)⟩
  refine ⟨f, t, w', ?_, ⟨hsize, ht, hb, ?_⟩, ⟨_, R, rfl, rfl, rfl, ?_, ?_⟩, _, hr, rfl, rfl, ?_⟩
  · unfold makeSystem
    rw [bind_ok (lift_ok e2), bind_ok (newSlot_eq e3), bind_ok (lift_ok e6), bind_ok (lift_ok e9)]
    rfl
  · obtain ⟨st, s1, s2⟩ := structure_of e hcs
    refine ⟨st, ?_, fun i hi => hvars i (by rw [← s1]; exact hi), fun x => by rw [hval, s2]⟩
    rw [s1]
    exact hv.nodup_iff.2 List.nodup_range'
  · rintro a g ⟨rfl, rfl⟩
    rfl
  · rintro a rfl
    exact hu
  · rw [← hg]
    rfl

section
variable {f : List Nat → Int} {t : TT.Table} {d : Nat}

theorem Facts.defined (S : Suitable P) (F : Facts P f t) : ∀ x, IsTuple (domainsOf P.c) x → f x < Undefined := by
  intro x hx
  obtain ⟨_, i, hi, h2⟩ := F.bounds x hx
  have := S.fit i hi
  rw [nd_val] at this
  rw [und_val]
  omega

theorem Facts.defined' (S : Suitable P) (F : Facts P f t) : Defined P.c fun x => f (toList P.c.n x) := fun _ hx =>
  (F.defined S _ (toList_isTuple (dom_list P.c).1 (dom_list P.c).2 hx)).ne

theorem below_fixed {k : Nat} (hk : ∀ m, P.c.fixedDom = some m → k ≤ m) {s : Int}
    (hs : s < k) : ∀ m, P.c.fixedDom = some m → P.c.asserts = true → s < m := by
  intro m hm _
  have := hk m hm
  omega

/-- States of the tests. -/
theorem mem_statesFrom0 {k : Nat} {s : Int} (h : s ∈ statesFrom0 k) : 0 ≤ s ∧ s < k := by
  obtain ⟨j, hj, rfl⟩ := List.mem_map.1 h
  have := List.mem_range.1 hj
  omega

theorem mem_statesFrom1 {k : Nat} {s : Int} (h : s ∈ statesFrom1 k) : 1 ≤ s ∧ s < k := by
  obtain ⟨j, hj, rfl⟩ := List.mem_map.1 h
  have := List.mem_range.1 hj
  omega

theorem statesFrom0_ne {k : Nat} (hk : k ≤ 2147483647) {s : Int} (h : s ∈ statesFrom0 k) : s ≠ Undefined := by
  have := mem_statesFrom0 h
  rw [und_val]
  omega

/-! ### Probabilities, availabilities, frequencies -/

theorem probabilities_passes (S : Suitable P) (hsize : DomOK (domainsOf P.c)) {ch : Nat → Choice}
    (hc : ∀ p, 2 ≤ (ch p).denom) {draw : Nat → Nat → Rat}
    (hdr : ∀ i < P.c.n, ((List.range (P.c.dom i)).map (draw i)).sum ≠ 0) {k : Nat} (hk : k ≤ 2147483647) :
    Passes P (probabilities P.c ch draw k) := by
  refine Reports.of S.ok fun w h => ?_
  obtain ⟨f, t, w1, e1, F, s1, -⟩ := makeSystem_ok S hsize hc h
  obtain ⟨hn, hd⟩ := dom_list P.c
  obtain ⟨ps, e2, hrows, hpr⟩ := drawMatrix_ok hdr
  unfold probabilities
  refine Ok.bindEq e1 (Ok.bindEq (lift_ok e2) ?_)
  let g : Int → Rat := fun s => probability P.c.n P.c.dom (entry ps) fun x => decide (f (toList P.c.n x) = s)
  refine Ok.bindEq (lift_ok (eachE_ok (g := g) fun s _ => ?_)) ?_
  · rw [TT.probability_ok F.size F.of.toVecOf (TT.probOK_of_rows hrows), probability_tuples hn hd]
  refine (s1.probabilities rfl ⟨rfl, rfl⟩ (pr := matrixAt ps) hpr).bind ?_
  rintro _ w2 ⟨s2, h2, -⟩
  refine (mapL_ok (I := fun w => w = w2) (g := g) ?_ rfl).bind ?_
  · rintro s hs _ rfl
    exact ⟨_, _, h2 s (mem_statesFrom0 hs).1 (statesFrom0_ne hk hs), rfl, rfl⟩
  rintro _ _ ⟨rfl, rfl⟩
  refine agree_ok ?_ _
  refine (mapL_ok (g := g) (I := St P (One P 0 f) (fun a => a = 0)) ?_ s2).bind ?_
  · intro s hs w hw
    refine hw.askRat rfl (k := .calculateProbability s (matrixAt ps) 0) rfl
      (fun σ hcl hh => ⟨hcl, (mem_statesFrom0 hs).1, hpr, _, hh 0 _ ⟨rfl, rfl⟩, F.defined' S⟩) fun σ o hh ho => ?_
    simp only [OutOK, (hh 0 _ ⟨rfl, rfl⟩).fn] at ho
    exact ho
  rintro _ _ ⟨rfl, -⟩
  exact agree_ok (Ok.pure rfl) _

theorem availabilities_passes (S : Suitable P) (hsize : DomOK (domainsOf P.c)) {ch : Nat → Choice}
    (hc : ∀ p, 2 ≤ (ch p).denom) {draw : Nat → Nat → Rat}
    (hdr : ∀ i < P.c.n, ((List.range (P.c.dom i)).map (draw i)).sum ≠ 0) (k : Nat) :
    Passes P (availabilities P.c ch draw k) := by
  refine Reports.of S.ok fun w h => ?_
  obtain ⟨f, t, w1, e1, F, s1, -⟩ := makeSystem_ok S hsize hc h
  obtain ⟨hn, hd⟩ := dom_list P.c
  obtain ⟨ps, e2, hrows, hpr⟩ := drawMatrix_ok hdr
  unfold availabilities
  refine Ok.bindEq e1 (Ok.bindEq (lift_ok e2) ?_)
  let g : Int → Rat := fun s => probability P.c.n P.c.dom (entry ps) fun x => decide (s ≤ f (toList P.c.n x))
  refine Ok.bindEq (lift_ok (eachE_ok (g := g) fun s _ => ?_)) ?_
  · rw [TT.availability_ok F.size F.of (fun x hx => (F.defined S x hx).le) (TT.probOK_of_rows hrows)]
    congr 1
    refine Eq.trans (TT.fsum_congr fun x hx => decide_eq_decide.2 ?_)
      (probability_tuples hn hd (entry ps) fun y => decide (s ≤ f y))
    have := F.defined S x (TT.mem_tuples.1 hx)
    exact ⟨fun h => h.2, fun h => ⟨this.ne, h⟩⟩
  refine (mapL_ok (g := g) (I := St P (One P 0 f) (fun a => a = 0)) ?_ s1).bind ?_
  · intro s hs w hw
    refine hw.askRat rfl (k := .calculateAvailability s (matrixAt ps) 0) rfl
      (fun σ hcl hh => ⟨hcl, hpr, _, hh 0 _ ⟨rfl, rfl⟩, F.defined' S⟩) fun σ o hh ho => ?_
    simp only [OutOK, (hh 0 _ ⟨rfl, rfl⟩).fn] at ho
    exact ho
  rintro _ w2 ⟨rfl, s2⟩
  refine agree_ok ?_ _
  refine (s2.probabilities rfl ⟨rfl, rfl⟩ (pr := matrixAt ps) hpr).bind ?_
  rintro _ w3 ⟨-, -, h3⟩
  refine (mapL_ok (I := fun w => w = w3) (g := g) ?_ rfl).bind ?_
  · rintro s hs _ rfl
    exact ⟨_, _, (h3 (F.defined' S) s).1, rfl, rfl⟩
  rintro _ _ ⟨rfl, -⟩
  exact agree_ok (Ok.pure rfl) _

theorem unavailabilities_passes (S : Suitable P) (hsize : DomOK (domainsOf P.c)) {ch : Nat → Choice}
    (hc : ∀ p, 2 ≤ (ch p).denom) {draw : Nat → Nat → Rat}
    (hdr : ∀ i < P.c.n, ((List.range (P.c.dom i)).map (draw i)).sum ≠ 0) (k : Nat) :
    Passes P (unavailabilities P.c ch draw k) := by
  refine Reports.of S.ok fun w h => ?_
  obtain ⟨f, t, w1, e1, F, s1, -⟩ := makeSystem_ok S hsize hc h
  obtain ⟨hn, hd⟩ := dom_list P.c
  obtain ⟨ps, e2, hrows, hpr⟩ := drawMatrix_ok hdr
  unfold unavailabilities
  refine Ok.bindEq e1 (Ok.bindEq (lift_ok e2) ?_)
  let g : Int → Rat := fun s => probability P.c.n P.c.dom (entry ps) fun x => decide (f (toList P.c.n x) < s)
  refine Ok.bindEq (lift_ok (eachE_ok (g := g) fun s _ => ?_)) ?_
  · rw [TT.unavailability_ok F.size F.of.toVecOf (TT.probOK_of_rows hrows)]
    congr 1
    refine Eq.trans (TT.fsum_congr fun x hx => decide_eq_decide.2 ?_)
      (probability_tuples hn hd (entry ps) fun y => decide (f y < s))
    have := F.bounds x (TT.mem_tuples.1 hx)
    exact ⟨fun h => h.2, fun h => ⟨this.1, h⟩⟩
  refine (mapL_ok (g := g) (I := St P (One P 0 f) (fun a => a = 0)) ?_ s1).bind ?_
  · intro s hs w hw
    refine hw.askRat rfl (k := .calculateUnavailability s (matrixAt ps) 0) rfl
      (fun σ hcl hh => ⟨hcl, hpr, _, hh 0 _ ⟨rfl, rfl⟩, F.defined' S⟩) fun σ o hh ho => ?_
    simp only [OutOK, (hh 0 _ ⟨rfl, rfl⟩).fn] at ho
    exact ho
  rintro _ w2 ⟨rfl, s2⟩
  refine agree_ok ?_ _
  refine (s2.probabilities rfl ⟨rfl, rfl⟩ (pr := matrixAt ps) hpr).bind ?_
  rintro _ w3 ⟨-, -, h3⟩
  refine (mapL_ok (I := fun w => w = w3) (g := g) ?_ rfl).bind ?_
  · rintro s hs _ rfl
    exact ⟨_, _, (h3 (F.defined' S) s).2, rfl, rfl⟩
  rintro _ _ ⟨rfl, -⟩
  exact agree_ok (Ok.pure rfl) _

theorem probabilitiesBss_passes (S : Suitable P) (hsize : DomOK (domainsOf P.c)) (h2 : P.c.fixedDom = some 2)
    {ch : Nat → Choice} (hc : ∀ p, 2 ≤ (ch p).denom) (draw : Nat → Rat) : Passes P (probabilitiesBss P.c ch draw) := by
  refine Reports.of S.ok fun w h => ?_
  obtain ⟨f, t, w1, e1, F, s1, -⟩ := makeSystem_ok S hsize hc h
  obtain ⟨hn, hd⟩ := dom_list P.c
  have htwo : ∀ i, i < P.c.n → P.c.dom i = 2 := fun i hi => S.ok.cfg.fixed 2 h2 i hi
  let p : Nat → Rat := fun i => (drawVector P.c draw).getD i 0
  have hpr : SumsToOne P.c.n P.c.dom (probVectorWrap p) := wrap_sums p htwo
  let q : Rat := probability P.c.n P.c.dom (probVectorWrap p) fun x => decide (f (toList P.c.n x) = 1)
  have hbit : ∀ x, InDomain P.c.n P.c.dom x → f (toList P.c.n x) = 0 ∨ f (toList P.c.n x) = 1 := by
    intro x hx
    obtain ⟨h0, i, hi, h1⟩ := F.bounds _ (toList_isTuple hn hd hx)
    rw [htwo i hi] at h1
    omega
  have h0 : probability P.c.n P.c.dom (probVectorWrap p) (fun x => decide (f (toList P.c.n x) = 0)) = 1 - q := by
    rw [← eq_sub_of_add_eq' (probability_compl hpr fun x => decide (f (toList P.c.n x) = 1))]
    refine probability_congr' fun x hx => ?_
    rw [← decide_not]
    refine decide_eq_decide.2 ?_
    rcases hbit x hx with h | h <;> omega
  unfold probabilitiesBss
  refine Ok.bindEq e1 (Ok.bindEq (a := q) (lift_ok ?_) ?_)
  · rw [TT.binaryProbability_ok F.size F.of.toVecOf (by rw [← hn]; simp [drawVector]), probability_tuples hn hd]
    rfl
  refine (s1.probabilities rfl ⟨rfl, rfl⟩ hpr).bind ?_
  rintro _ w2 ⟨s2, h2, -⟩
  have g0 := h2 0 (by decide) (by decide)
  rw [h0] at g0
  refine Ok.bindEq g0 (Ok.bindEq (h2 1 (by decide) (by decide)) ?_)
  refine check_ok (close_self _) (check_ok (close_self _) ?_)
  refine (s2.askRat (q := q) rfl (k := .calculateProbability 1 (probVectorWrap p) 0) rfl
      (fun σ hcl hh => ⟨hcl, by decide, hpr, _, hh 0 _ ⟨rfl, rfl⟩, F.defined' S⟩) fun σ o hh ho => ?_).bind ?_
  · simp only [OutOK, (hh 0 _ ⟨rfl, rfl⟩).fn] at ho
    exact ho
  rintro _ w3 ⟨rfl, -⟩
  exact check_ok (close_self _) (check_ok (close_self _) (Ok.pure rfl))

theorem frequency_eq {g : List Nat → Int} (v : Int) :
    (countValue P.c.n P.c.dom (fun x => g (toList P.c.n x)) v : Rat) / (allAsg P.c.n P.c.dom).length =
      (tupleCount (domainsOf P.c) g v : Rat) / (domainsOf P.c).prod := by
  obtain ⟨hn, hd⟩ := dom_list P.c
  rw [count_tuples hn hd, ← TT.tuples_length, ← allAsg_toList hn hd, List.length_map]

theorem statesFrequency_passes (S : Suitable P) (hsize : DomOK (domainsOf P.c)) {ch : Nat → Choice}
    (hc : ∀ p, 2 ≤ (ch p).denom) {k : Nat} (hk : ∀ m, P.c.fixedDom = some m → k ≤ m) :
    Passes P (statesFrequency P.c ch k) := by
  refine Reports.of S.ok fun w h => ?_
  obtain ⟨f, t, w1, e1, F, s1, -⟩ := makeSystem_ok S hsize hc h
  unfold statesFrequency
  refine Ok.bindEq e1 ?_
  refine (mapL_ok (g := fun s => TT.stateFrequency t s) (I := St P (One P 0 f) (fun a => a = 0)) ?_ s1).bind ?_
  · intro s hs w hw
    refine hw.askRat rfl (k := .stateFrequency s 0) rfl
      (fun σ hcl hh => ⟨hcl, S.count, ⟨_, hh 0 _ ⟨rfl, rfl⟩⟩, below_fixed hk (mem_statesFrom0 hs).2⟩) fun σ o hh ho => ?_
    simp only [OutOK, (hh 0 _ ⟨rfl, rfl⟩).fn] at ho
    rw [ho, frequency_eq]
    unfold TT.stateFrequency TT.domainSize
    rw [TT.satisfyCount_ok F.of.toVecOf, F.of.vec, List.length_map, TT.tuples_length]
  rintro _ _ ⟨rfl, -⟩
  exact agree_ok (Ok.pure rfl) _

/-! ### Derivatives -/

theorem der_eq (vc : VarChange) (ch : Int → Int → Bool) :
    (fun x => b2i (ch (f (toList P.c.n (upd x vc.index vc.from))) (f (toList P.c.n (upd x vc.index vc.to))))) =
      fun x => TT.der f vc ch (toList P.c.n x) := by
  funext x
  rw [toList_upd, toList_upd]
  rfl

theorem derE_eq {vc : VarChange} (hi : vc.index < P.c.n) (ch : Int → Int → Bool) :
    (fun x : Asg => if x vc.index = vc.from then TT.der f vc ch (toList P.c.n x) else Undefined) =
      fun x => TT.derE f vc ch (toList P.c.n x) := by
  funext x
  unfold TT.derE TT.der
  rw [getD_toList x hi]
  split
  · rename_i h
    rw [← toList_upd, upd_self x _ h]
  · rfl

theorem der_set (vc : VarChange) (ch : Int → Int → Bool) (x : List Nat) (k : Nat) :
    TT.der f vc ch (x.set vc.index k) = TT.der f vc ch x := by
  simp [TT.der, List.set_set]

theorem der_indep (vc : VarChange) (ch : Int → Int → Bool) :
    ¬ DependsOn P.c.n P.c.dom (fun x => TT.der f vc ch (toList P.c.n x)) vc.index := by
  rintro ⟨x, k, -, -, hne⟩
  exact hne (by dsimp only; rw [toList_upd, der_set])

/-- A change of a variable of the system. -/
def VcOK (c : Cfg) (vc : VarChange) : Prop := vc.index < c.n ∧ vc.from < c.dom vc.index ∧ vc.to < c.dom vc.index

theorem VcOK.table {vc : VarChange} (h : VcOK c vc) : vc.index < (domainsOf c).length ∧
    vc.from < (domainsOf c).getD vc.index 0 ∧ vc.to < (domainsOf c).getD vc.index 0 := by
  obtain ⟨hn, hd⟩ := dom_list c
  rw [← hn, ← hd _ h.1]
  exact h

/-! ### Importances -/

theorem importanceLoop_ok (S : Suitable P) (F : Facts P f t) {expect : TT.Table → Nat → Except Err Rat} {ask : Nat → Call}
    (hask : ∀ a, (ask a).asks = some a)
    (hadm : ∀ vc ch a (σ : SState), VcOK P.c vc → σ.clean = true → σ.Has a (fun x => TT.der f vc ch (toList P.c.n x)) →
      Adm P σ (ask a))
    (hexp : ∀ vc ch td, VcOK P.c vc → TT.Of (domainsOf P.c) (TT.der f vc ch) td → ∃ q, expect td vc.index = .ok q ∧
      ∀ (σ : SState) a o, σ.Has a (fun x => TT.der f vc ch (toList P.c.n x)) → OutOK P σ o (ask a) → o = .rat q) :
    ∀ (l : List (Int × VarChange)) {w}, (∀ p ∈ l, VcOK P.c p.2) → St P (One P d f) (fun _ => False) w →
      Ok (importanceLoop P.c t d expect ask l) w (fun r _ => r = true)
  | [], _, _, _ => Ok.pure rfl
  | (s, vc) :: rest, w, hl, h => by
      have hvc := hl _ List.mem_cons_self
      obtain ⟨v1, v2, v3⟩ := hvc.table
      obtain ⟨td, e1, hof⟩ := TT.dpld_ok (asserts := P.c.asserts) F.size F.of v1 v2 v3 (Dpld.type3Decrease s)
      obtain ⟨q, e2, hq⟩ := hexp vc _ td hvc hof
      unfold importanceLoop
      refine Ok.bindEq (lift_ok e1) ?_
      refine (h.dpld ⟨rfl, rfl⟩ S.term1 (fun _ => hvc.2) (Dpld.type3Decrease s)).bind ?_
      rintro j w1 ⟨hne, h1⟩
      rw [der_eq] at h1
      refine Ok.bindEq (lift_ok e2) ?_
      refine (h1.askRat (.inl rfl) (hask j) (q := q) (fun σ hcl hh => hadm vc _ j σ hvc hcl (hh j _ (.inl ⟨rfl, rfl⟩)))
        fun σ o hh ho => hq σ j o (hh j _ (.inl ⟨rfl, rfl⟩)) ho).bind ?_
      rintro _ w2 ⟨rfl, h2⟩
      refine check_ok (close_self _) ?_
      refine (h2.drop (.inl ⟨rfl, rfl⟩)).bind ?_
      intro _ w3 h3
      refine importanceLoop_ok S F hask hadm hexp rest (fun p hp => hl p (List.mem_cons_of_mem _ hp))
        (h3.mono ?_ fun _ h => h.elim)
      intro a g hg
      exact ⟨hne a g hg, .inr hg⟩

theorem importanceCases_ok (k : Nat) : ∀ p ∈ importanceCases c k, VcOK c p.2 := by
  obtain ⟨hn, hd⟩ := dom_list c
  intro p hp
  simp only [importanceCases, List.mem_flatMap, List.mem_map, List.mem_range] at hp
  obtain ⟨s, -, i, hi, v, hv, rfl⟩ := hp
  rw [← hd i hi] at hv
  refine ⟨hi, ?_, ?_⟩
  · show v + 1 < c.dom i
    omega
  · show v < c.dom i
    omega

theorem structuralImportances_passes (S : Suitable P) (hsize : DomOK (domainsOf P.c)) {ch : Nat → Choice}
    (hc : ∀ p, 2 ≤ (ch p).denom) (k : Nat) : Passes P (structuralImportances P.c ch k) := by
  refine Reports.of S.ok fun w h => ?_
  obtain ⟨f, t, w1, e1, F, s1, -⟩ := makeSystem_ok S hsize hc h
  unfold structuralImportances
  refine Ok.bindEq e1 ?_
  refine importanceLoop_ok S F (fun _ => rfl) ?_ ?_ _ (importanceCases_ok k) (s1.mono (fun _ _ h => h) fun _ h => h.elim)
  · intro vc ch a σ _ hcl hh
    exact ⟨hcl, S.count, ⟨_, hh⟩, fun m hm ha => S.term1.2 ha m hm⟩
  · intro vc ch td hvc hof
    refine ⟨_, TT.structural_ok F.size hof.toVecOf hvc.table.1 fun x k _ _ => der_set vc ch x k, ?_⟩
    intro σ a o hh ho
    simp only [OutOK, hh.fn] at ho
    rw [ho, frequency_eq]

theorem birnbaumImportances_passes (S : Suitable P) (hsize : DomOK (domainsOf P.c)) {ch : Nat → Choice}
    (hc : ∀ p, 2 ≤ (ch p).denom) {draw : Nat → Nat → Rat}
    (hdr : ∀ i < P.c.n, ((List.range (P.c.dom i)).map (draw i)).sum ≠ 0) (k : Nat) :
    Passes P (birnbaumImportances P.c ch draw k) := by
  refine Reports.of S.ok fun w h => ?_
  obtain ⟨f, t, w1, e1, F, s1, -⟩ := makeSystem_ok S hsize hc h
  obtain ⟨hn, hd⟩ := dom_list P.c
  obtain ⟨ps, e2, hrows, hpr⟩ := drawMatrix_ok hdr
  unfold birnbaumImportances
  refine Ok.bindEq e1 (Ok.bindEq (lift_ok e2) ?_)
  refine importanceLoop_ok S F (fun _ => rfl) ?_ ?_ _ (importanceCases_ok k) (s1.mono (fun _ _ h => h) fun _ h => h.elim)
  · intro vc ch a σ _ hcl hh
    refine ⟨hcl, hpr, _, hh, fun x _ => ?_⟩
    unfold TT.der
    rw [und_val]
    split <;> decide
  · intro vc ch td hvc hof
    refine ⟨_, TT.probability_ok F.size hof.toVecOf (TT.probOK_of_rows hrows) 1, ?_⟩
    intro σ a o hh ho
    simp only [OutOK, hh.fn] at ho
    rw [ho, probability_tuples hn hd]
    rfl

/-! ### Fussell-Vesely importances -/

theorem fussellVeselyLoop_ok (S : Suitable P) (F : Facts P f t) {ps : List (List Rat)} (hrows : HasRows (domainsOf P.c) ps)
    (hpr : SumsToOne P.c.n P.c.dom (entry ps)) {s : Int} {u : Rat}
    (hu : u = probability P.c.n P.c.dom (entry ps) fun x => decide (f (toList P.c.n x) < s)) (hu0 : u ≠ 0)
    {rest : SM World Bool} (hrest : ∀ w, St P (One P d f) (fun _ => False) w → Ok rest w (fun r _ => r = true)) :
    ∀ (l : List VarChange) {w}, (∀ vc ∈ l, VcOK P.c vc ∧ vc.from = vc.to + 1) → St P (One P d f) (fun _ => False) w →
      Ok (fussellVeselyLoop P.c t d ps s u l rest) w (fun r _ => r = true)
  | [], w, _, h => hrest w h
  | ⟨i, v', v⟩ :: l, w, hl, h => by
      obtain ⟨hvc, hv⟩ := hl _ List.mem_cons_self
      obtain rfl : v' = v + 1 := hv
      obtain ⟨hi, hv1, hv2⟩ := hvc
      obtain ⟨hn, hd⟩ := dom_list P.c
      obtain ⟨e, honce, hcomp, hval⟩ := F.shape
      have hmono : Monotone P.c.n P.c.dom fun x => f (toList P.c.n x) := by
        intro x y _ _ hle
        simp only [hval]
        exact Structure.value_mono fun j hj => hle j (hcomp j hj)
      have hlay : ∀ order, Layered P.c.n P.c.dom order (drop3 (fun x => f (toList P.c.n x)) s i (v + 1) v) := by
        intro order
        simp only [hval]
        exact Structure.layered honce s i (v + 1) v order
      have h0 : 0 < P.c.n := Nat.lt_of_lt_of_le Nat.two_pos S.ok.vars
      have e1 := tableImportance (asserts := P.c.asserts) hn hd F.size F.of
        ⟨0, by rw [← hn]; exact h0, by rw [← hd 0 h0]; exact S.two 0 h0⟩ (fun x hx => (F.bounds x hx).1) hrows hi (v + 1) s
        (by rw [← hu]; exact hu0)
      rw [fussellVeselyImportance, ← fussellVesely_eq hmono hpr hi hv1, ← hu] at e1
      unfold fussellVeselyLoop
      refine (h.dpld ⟨rfl, rfl⟩ S.term1 (fun _ => ⟨hv1, hv2⟩) (Dpld.type3Decrease s)).bind ?_
      rintro j w1 ⟨hne, h1⟩
      refine Ok.bindEq (lift_ok e1) ?_
      refine (h1.fussellVesely (.inl rfl) ⟨_, .inl ⟨rfl, rfl⟩, ?_⟩ ?_ hlay hpr u (v + 1) i).bind ?_
      · intro x _
        show b2i (decide (s ≤ _) && decide (_ < s)) = _
        rw [← Bool.decide_and]
        unfold drop3
        by_cases hc : s ≤ f (toList P.c.n (upd x i (v + 1))) ∧ f (toList P.c.n (upd x i v)) < s
        · rw [if_pos hc, decide_eq_true hc]; rfl
        · rw [if_neg hc, decide_eq_false hc]; rfl
      · intro x
        unfold drop3
        split
        · exact .inr rfl
        · exact .inl rfl
      rintro _ w2 ⟨rfl, h2⟩
      refine check_ok (close_self _) ?_
      refine (h2.drop (.inl ⟨rfl, rfl⟩)).bind ?_
      intro _ w3 h3
      refine fussellVeselyLoop_ok S F hrows hpr hu hu0 hrest l (fun p hp => hl p (List.mem_cons_of_mem _ hp))
        (h3.mono ?_ fun _ h => h.elim)
      intro a g hg
      exact ⟨hne a g hg, .inr hg⟩

theorem componentChanges_ok : ∀ vc ∈ componentChanges c, VcOK c vc ∧ vc.from = vc.to + 1 := by
  obtain ⟨hn, hd⟩ := dom_list c
  intro p hp
  simp only [componentChanges, List.mem_flatMap, List.mem_map, List.mem_range] at hp
  obtain ⟨i, hi, v, hv, rfl⟩ := hp
  rw [← hd i hi] at hv
  refine ⟨⟨hi, ?_, ?_⟩, rfl⟩
  · show v + 1 < c.dom i
    omega
  · show v < c.dom i
    omega

theorem fussellVeselyStates_ok (S : Suitable P) (F : Facts P f t) {ps : List (List Rat)} (hrows : HasRows (domainsOf P.c) ps)
    (hpr : SumsToOne P.c.n P.c.dom (entry ps))
    (h0 : ∀ i, i < P.c.n → ∀ k, k < P.c.dom i → 0 ≤ entry ps i k) (hfail : ∀ i, i < P.c.n → 0 < entry ps i 0) :
    ∀ (l : List Int) {w}, (∀ s ∈ l, 1 ≤ s) → St P (One P d f) (fun _ => False) w →
      Ok (fussellVeselyStates P.c t d ps l) w (fun r _ => r = true)
  | [], _, _, _ => Ok.pure rfl
  | s :: l, w, hl, h => by
      obtain ⟨hn, hd⟩ := dom_list P.c
      obtain ⟨e, honce, hcomp, hval⟩ := F.shape
      have hu : tupleProb (domainsOf P.c) (entry ps) (fun x => decide (0 ≤ f x ∧ f x < s)) =
          probability P.c.n P.c.dom (entry ps) fun x => decide (f (toList P.c.n x) < s) := by
        refine Eq.trans (TT.fsum_congr fun x hx => decide_eq_decide.2 ?_)
          (probability_tuples hn hd (entry ps) fun y => decide (f y < s))
        have := F.bounds x (TT.mem_tuples.1 hx)
        exact ⟨fun h => h.2, fun h => ⟨this.1, h⟩⟩
      have hs := hl s List.mem_cons_self
      have hpos : 0 < probability P.c.n P.c.dom (entry ps) fun x => decide (f (toList P.c.n x) < s) := by
        obtain ⟨x, hx, ex⟩ := exists_allAsg (n := P.c.n) (dom := P.c.dom) (x := fun _ => 0) fun i hi => S.ok.cfg.1 i hi
        refine probability_pos h0 hx (decide_eq_true ?_) fun i hi => by rw [ex i hi]; exact hfail i hi
        rw [hval, Structure.value_congr (y := fun _ => 0) fun j hj => ex j (hcomp j hj), Structure.value_zero]
        omega
      unfold fussellVeselyStates
      refine Ok.bindEq (lift_ok (TT.unavailability_ok F.size F.of.toVecOf (TT.probOK_of_rows hrows) s)) ?_
      rw [hu]
      exact fussellVeselyLoop_ok S F hrows hpr rfl hpos.ne'
        (fun w hw => fussellVeselyStates_ok S F hrows hpr h0 hfail l (fun s hs => hl s (List.mem_cons_of_mem _ hs)) hw)
        _ componentChanges_ok h

theorem fussellVeselyImportances_passes (S : Suitable P) (hsize : DomOK (domainsOf P.c)) {ch : Nat → Choice}
    (hc : ∀ p, 2 ≤ (ch p).denom) {draw : Nat → Nat → Rat}
    (hdr : ∀ i < P.c.n, (∀ k < P.c.dom i, 0 ≤ draw i k) ∧ 0 < draw i 0) (k : Nat) :
    Passes P (fussellVeselyImportances P.c ch draw k) := by
  have hsum : ∀ i < P.c.n, 0 < ((List.range (P.c.dom i)).map (draw i)).sum := by
    intro i hi
    refine (hdr i hi).2.trans_le (List.single_le_sum ?_ _ (List.mem_map.2 ⟨0, List.mem_range.2 (S.ok.cfg.1 i hi), rfl⟩))
    intro q hq
    obtain ⟨k, hk, rfl⟩ := List.mem_map.1 hq
    exact (hdr i hi).1 k (List.mem_range.1 hk)
  refine Reports.of S.ok fun w h => ?_
  obtain ⟨f, t, w1, e1, F, s1, -⟩ := makeSystem_ok S hsize hc h
  obtain ⟨ps, e2, hrows, hpr, hent⟩ := drawMatrix_eq fun i hi => (hsum i hi).ne'
  unfold fussellVeselyImportances
  refine Ok.bindEq e1 (Ok.bindEq (lift_ok e2) ?_)
  refine fussellVeselyStates_ok S F hrows hpr ?_ ?_ _ (fun s hs => (mem_statesFrom1 hs).1)
    (s1.mono (fun _ _ h => h) fun _ h => h.elim)
  · intro i hi k hk
    rw [hent i hi k hk]
    exact div_nonneg ((hdr i hi).1 k hk) (hsum i hi).le
  · intro i hi
    rw [hent i hi 0 (S.ok.cfg.1 i hi)]
    exact div_pos (hdr i hi).2 (hsum i hi)

/-! ### Minimal cut vectors -/

theorem mcvsLoop_ok (S : Suitable P) (F : Facts P f t) (hU : TermOK P.c Undefined) (hΓ : P.Γ Op.PI_CONJ.id = Op.PI_CONJ) :
    ∀ (l : List Int) {w}, St P (One P d f) (fun _ => False) w → Ok (mcvsLoop P.c t d l) w (fun r _ => r = true)
  | [], _, _ => Ok.pure rfl
  | s :: rest, w, h => by
      obtain ⟨hn, hd⟩ := dom_list P.c
      have h0 : 0 < P.c.n := Nat.lt_of_lt_of_le Nat.two_pos S.ok.vars
      have h2 : 1 < P.c.dom 0 := S.two 0 h0
      unfold mcvsLoop
      refine Ok.bindEq (lift_ok (TT.mcvs_ok F.size F.of ⟨0, by rw [← hn]; exact h0, by rw [← hd 0 h0]; exact h2⟩ s)) ?_
      obtain ⟨σ, R, a1, a2, a3, a4, -⟩ := h
      have hh := a4 d _ ⟨rfl, rfl⟩
      obtain ⟨o, w', e, ho, R'⟩ := sim R (k := .mcvs s d) ⟨⟨a3, hΓ, S.term1, hU, 0, h0, h2⟩, _, hh⟩ (fun _ => a1)
      simp only [OutOK, hh.fn] at ho
      subst ho
      refine Ok.bindEq (askAsgs_ok e) (require_ok ?_
        (mcvsLoop_ok S F hU hΓ rest ⟨σ, R', a1, a2, a3, a4, fun _ h => h.elim⟩))
      rw [List.isPerm_iff, ← allAsg_toList hn hd, List.filter_map]
      refine (List.Perm.map _ ?_)
      have hp : (allAsg P.c.n P.c.dom).Perm (assignments P.c.dom σ.order) :=
        perm_assignments (List.Perm.symm R.perm) List.nodup_range
      refine (hp.filter _).trans (List.Perm.of_eq (List.filter_congr fun x _ => ?_))
      exact decide_eq_decide.2 (minCut_tuples hn hd f s x)

theorem mcvs_passes (S : Suitable P) (hsize : DomOK (domainsOf P.c)) (hU : TermOK P.c Undefined)
    (hΓ : P.Γ Op.PI_CONJ.id = Op.PI_CONJ) {ch : Nat → Choice} (hc : ∀ p, 2 ≤ (ch p).denom) (k : Nat) :
    Passes P (mcvs P.c ch k) := by
  refine Reports.of S.ok fun w h => ?_
  obtain ⟨f, t, w1, e1, F, s1, -⟩ := makeSystem_ok S hsize hc h
  unfold mcvs
  exact Ok.bindEq e1 (mcvsLoop_ok S F hU hΓ _ (s1.mono (fun _ _ h => h) fun _ h => h.elim))

/-! ### Tests of derivatives -/

theorem allEqual_ok {g : List Nat → Int} {a : Nat} (h : St P H U w) (ha : H a fun x => g (toList P.c.n x)) :
    ∀ l : List (List Nat), (∀ y ∈ l, IsTuple (domainsOf P.c) y) →
      allEqual P.c a (l.map fun y => (y, g y)) w = .ok (true, w)
  | [], _ => rfl
  | y :: l, hl => by
      obtain ⟨hn, hd⟩ := dom_list P.c
      obtain ⟨h1, h2⟩ := isTuple_asg hn hd (hl y (by simp))
      have e := h.evaluate ha h1
      simp only [h2] at e
      rw [List.map_cons, allEqual, bind_ok (show askInt P.c (.evaluate a (asgOf y)) w = .ok (g y, w) from e),
        bind_ok (allEqual_ok h ha l fun z hz => hl z (by simp [hz])), decide_eq_true rfl]
      rfl

theorem compareDplds_ok (hsize : DomOK (domainsOf P.c)) {g : List Nat → Int} {td : TT.Table} {a : Nat}
    (ht : TT.VecOf (domainsOf P.c) g td) (h : St P H U w) (ha : H a fun x => g (toList P.c.n x)) :
    Ok (compareDplds P.c td a) w (fun r w' => r = true ∧ St P H U w') := by
  unfold compareDplds
  refine (h.copy ha).bind ?_
  rintro j w1 ⟨n1, n2, h1⟩
  refine Ok.bindEq (lift_ok (TT.forEach_ok hsize ht (G := fun acc y => acc ++ [(y, g y)]) (fun _ _ _ => rfl) [])) ?_
  rw [TT.foldl_map_acc (fun y => (y, g y)), List.nil_append]
  refine Ok.bindEq (allEqual_ok h1 (.inl ⟨rfl, rfl⟩) _ fun y hy => TT.mem_tuples.1 hy) ?_
  refine (h1.drop (.inl ⟨rfl, rfl⟩)).bind ?_
  intro _ w2 h2
  exact Ok.pure ⟨rfl, h2.mono (fun b k hb => ⟨n1 b k hb, .inr hb⟩) fun b hb => ⟨n2 b hb, hb⟩⟩

theorem requireDplds_ok (hsize : DomOK (domainsOf P.c)) {rest : SM World Bool}
    (hr : ∀ w, St P H U w → Ok rest w (fun r _ => r = true)) : ∀ (l : List (TT.Table × Nat)) {w},
      (∀ p ∈ l, ∃ g, TT.VecOf (domainsOf P.c) g p.1 ∧ H p.2 fun x => g (toList P.c.n x)) → St P H U w →
      Ok (requireDplds P.c l rest) w (fun r _ => r = true)
  | [], w, _, h => hr w h
  | (td, dd) :: l, w, hl, h => by
      obtain ⟨g, h1, h2⟩ := hl _ List.mem_cons_self
      unfold requireDplds
      refine (compareDplds_ok hsize h1 h h2).bind ?_
      rintro _ w' ⟨rfl, h'⟩
      exact require_ok rfl (requireDplds_ok hsize hr l (fun p hp => hl p (List.mem_cons_of_mem _ hp)) h')

theorem dropAll_ok : ∀ (as : List Nat) {σ : SState} {w}, Rel P σ w → σ.auto = false → σ.canon = true → σ.cacheOK = true →
    (∀ a g, H a g → σ.Has a g) → (∀ a ∈ as, a < σ.slots.length ∧ ∀ g, ¬ H a g) →
    Ok (dropAll P.c as) w (fun _ w' => St P H (fun _ => False) w')
  | [], σ, w, R, h1, h2, h3, h4, _ => Ok.pure ⟨σ, R, h1, h2, h3, h4, fun _ h => h.elim⟩
  | a :: as, σ, w, R, h1, h2, h3, h4, h5 => by
      unfold dropAll
      refine (drop_sim R (h5 a (by simp)).1).bind ?_
      rintro _ w' ⟨-, R'⟩
      refine dropAll_ok as R' h1 h2 h3 (fun b g hb => has_set ?_ (h4 b g hb)) fun b hb => ?_
      · rintro rfl
        exact (h5 b (by simp)).2 g hb
      · have := h5 b (by simp [hb])
        exact ⟨by simpa using this.1, this.2⟩

/-- What the handles of derivatives hold. -/
def Pair (P : Setup) (f : List Nat → Int) (d : Nat) (vc : VarChange) (H : Nat → (Asg → Int) → Prop) (U : Nat → Prop)
    (ch : Int → Int → Bool) (p : Nat × Nat) : Prop :=
  (H p.1 fun x => TT.der f vc ch (toList P.c.n x)) ∧ (H p.2 fun x => TT.derE f vc ch (toList P.c.n x)) ∧ U p.1 ∧
    p.1 ≠ d ∧ p.2 ≠ d

theorem Pair.mono {vc : VarChange} {ch : Int → Int → Bool} {p : Nat × Nat} (h : Pair P f d vc H U ch p)
    (hH : ∀ a g, H a g → H' a g) (hU : ∀ a, U a → U' a) : Pair P f d vc H' U' ch p :=
  ⟨hH _ _ h.1, hH _ _ h.2.1, hU _ h.2.2.1, h.2.2.2⟩

theorem diagramDplds_ok (S : Suitable P) (hT : TermOK P.c Undefined) {vc : VarChange} (hvc : VcOK P.c vc) :
    ∀ (chs : List (Int → Int → Bool)) {H U w}, St P H U w → (H d fun x => f (toList P.c.n x)) →
      Ok (mapL (diagramDplds P.c d vc) chs) w (fun ps w' => ∃ H' U', St P H' U' w' ∧ (∀ a g, H a g → H' a g) ∧
        (∀ a, U a → U' a) ∧ List.Forall₂ (Pair P f d vc H' U') chs ps)
  | [], H, U, _, h, _ => Ok.pure ⟨H, U, h, fun _ _ h => h, fun _ h => h, .nil⟩
  | ch :: chs, H, U, w, h, hd => by
      unfold mapL
      have one : Ok (diagramDplds P.c d vc ch) w (fun p w' => ∃ H' U', St P H' U' w' ∧ (∀ a g, H a g → H' a g) ∧
          (∀ a, U a → U' a) ∧ Pair P f d vc H' U' ch p) := by
        unfold diagramDplds
        refine (h.dpld hd S.term1 (fun _ => hvc.2) ch).bind ?_
        rintro j w1 ⟨n1, h1⟩
        rw [der_eq] at h1
        refine (h1.toDpldE (varFrom := vc.from) (.inl ⟨rfl, rfl⟩) hT hvc.1 (der_indep vc ch)).bind ?_
        rintro k w2 ⟨n2, h2⟩
        rw [derE_eq hvc.1] at h2
        exact Ok.pure ⟨_, _, h2, fun a g hg => .inr (.inr hg), fun a ha => .inr ha, .inr (.inl ⟨rfl, rfl⟩),
          .inl ⟨rfl, rfl⟩, .inl rfl, (n1 d _ hd).symm, (n2 d _ (.inr hd)).symm⟩
      refine one.bind ?_
      rintro p w1 ⟨H1, U1, h1, k1, u1, q1⟩
      refine (diagramDplds_ok S hT hvc chs (H := H1) (U := U1) h1 (k1 _ _ hd)).bind ?_
      rintro ps w2 ⟨H2, U2, h2, k2, u2, q2⟩
      exact Ok.pure ⟨H2, U2, h2, fun a g hg => k2 a g (k1 a g hg), fun a ha => u2 a (u1 a ha), .cons (q1.mono k2 u2) q2⟩

theorem eachE_forall {α β : Type} {f : α → Except Err β} {Q : α → β → Prop} : ∀ {l : List α},
    (∀ a ∈ l, ∃ b, f a = .ok b ∧ Q a b) → ∃ bs, eachE f l = .ok bs ∧ List.Forall₂ Q l bs
  | [], _ => ⟨[], rfl, .nil⟩
  | a :: l, h => by
      obtain ⟨b, e, hb⟩ := h a (by simp)
      obtain ⟨bs, e', hbs⟩ := eachE_forall (l := l) fun b hb => h b (by simp [hb])
      exact ⟨b :: bs, by simp only [eachE, e, e']; rfl, .cons hb hbs⟩

theorem mapL_keep {α β : Type} {I : World → Prop} {f : α → SM World β} :
    ∀ {l : List α}, (∀ a ∈ l, ∀ w, I w → Ok (f a) w (fun _ w' => I w')) → ∀ {w}, I w →
      Ok (mapL f l) w (fun _ w' => I w')
  | [], _, _, hI => Ok.pure hI
  | a :: l, h, w, hI => by
      unfold mapL
      refine (h a (by simp) w hI).bind ?_
      intro b w1 h1
      refine (mapL_keep (l := l) (fun b hb => h b (by simp [hb])) h1).bind ?_
      intro bs w2 h2
      exact Ok.pure h2

theorem mem_zip_forall {α β γ : Type} {Q : α → β → Prop} {R : α → γ → Prop} : ∀ {l : List α} {bs : List β} {cs : List γ},
    List.Forall₂ Q l bs → List.Forall₂ R l cs → ∀ p ∈ bs.zip cs, ∃ a ∈ l, Q a p.1 ∧ R a p.2
  | [], _, _, .nil, .nil, p, hp => by simp at hp
  | a :: l, _, _, .cons h1 h2, .cons h3 h4, p, hp => by
      rw [List.zip_cons_cons, List.mem_cons] at hp
      rcases hp with rfl | hp
      · exact ⟨a, by simp, h1, h3⟩
      · obtain ⟨a', ha, h⟩ := mem_zip_forall h2 h4 p hp
        exact ⟨a', by simp [ha], h⟩

theorem mem_forall {α β : Type} {Q : α → β → Prop} : ∀ {l : List α} {bs : List β}, List.Forall₂ Q l bs →
    ∀ b ∈ bs, ∃ a ∈ l, Q a b
  | [], _, .nil, b, hb => by cases hb
  | a :: l, _, .cons h1 h2, b, hb => by
      rcases List.mem_cons.1 hb with rfl | hb
      · exact ⟨a, by simp, h1⟩
      · obtain ⟨a', ha, h⟩ := mem_forall h2 b hb
        exact ⟨a', by simp [ha], h⟩

theorem tableDplds_ok (F : Facts P f t) {vc : VarChange} (hvc : VcOK P.c vc) (ch : Int → Int → Bool) :
    ∃ p, tableDplds P.c t vc ch = .ok p ∧ TT.VecOf (domainsOf P.c) (TT.der f vc ch) p.1 ∧
      TT.VecOf (domainsOf P.c) (TT.derE f vc ch) p.2 := by
  obtain ⟨v1, v2, v3⟩ := hvc.table
  obtain ⟨t1, e1, h1⟩ := TT.dpld_ok (asserts := P.c.asserts) F.size F.of v1 v2 v3 ch
  obtain ⟨t2, e2, h2⟩ := TT.dpldE_ok (asserts := P.c.asserts) F.size F.of v1 v2 v3 ch
  exact ⟨(t1, t2), by simp only [tableDplds, e1, e2]; rfl, h1.toVecOf, h2.toVecOf⟩

theorem dpldRound_ok (S : Suitable P) (F : Facts P f t) (hT : TermOK P.c Undefined) {vc : VarChange} (hvc : VcOK P.c vc)
    (chs : List (Int → Int → Bool)) {rest : SM World Bool}
    (hr : ∀ w, St P (One P d f) (fun _ => False) w → Ok rest w (fun r _ => r = true))
    (h : St P (One P d f) (fun _ => False) w) : Ok (dpldRound P.c t d vc chs rest) w (fun r _ => r = true) := by
  obtain ⟨ts, e1, ht⟩ := eachE_forall (l := chs) fun ch _ => tableDplds_ok F hvc ch
  unfold dpldRound
  refine Ok.bindEq (lift_ok e1) ?_
  refine (diagramDplds_ok (f := f) S hT hvc chs h ⟨rfl, rfl⟩).bind ?_
  rintro ps w1 ⟨H, U, h1, k1, -, hp⟩
  refine (mapL_keep (I := St P H U) ?_ h1).bind ?_
  · intro p hpm w hw
    obtain ⟨ch, -, q1, q2, q3, -⟩ := mem_forall hp p hpm
    obtain ⟨o, w', e, rfl, h'⟩ := hw.ask q3 (k := .satisfyCount 1 p.1) rfl
      (fun σ hcl hh => ⟨hcl, S.count, ⟨_, hh _ _ q1⟩, fun m hm ha => S.term1.2 ha m hm⟩)
      (fun σ o hh ho => by simp only [OutOK, (hh _ _ q1).fn] at ho; exact ho)
    exact ⟨_, w', askInt_ok e, h'⟩
  intro _ w2 h2
  refine requireDplds_ok (H := H) (U := U) F.size ?_ _ ?_ h2
  · rintro w3 ⟨σ, R, a1, a2, a3, a4, -⟩
    refine (dropAll_ok (H := One P d f) _ R a1 a2 a3 (fun a g hg => a4 a g (k1 a g hg)) ?_).bind fun _ w4 h4 => hr w4 h4
    intro a ha
    rw [List.mem_reverse, List.mem_flatMap] at ha
    obtain ⟨p, hpm, ha⟩ := ha
    obtain ⟨ch, -, q1, q2, -, q4, q5⟩ := mem_forall hp p hpm
    simp only [List.mem_cons, List.not_mem_nil, or_false] at ha
    rcases ha with rfl | rfl
    · exact ⟨(a4 _ _ q1).lt, fun g hg => q4 hg.1⟩
    · exact ⟨(a4 _ _ q2).lt, fun g hg => q5 hg.1⟩
  · intro q hq
    rw [List.mem_flatMap] at hq
    obtain ⟨p, hpm, hq⟩ := hq
    obtain ⟨ch, -, ⟨v1, v2⟩, q1, q2, -⟩ := mem_zip_forall ht hp p hpm
    simp only [List.mem_cons, List.not_mem_nil, or_false] at hq
    rcases hq with rfl | rfl
    · exact ⟨_, v1, q1⟩
    · exact ⟨_, v2, q2⟩

theorem dpldLoop_ok (S : Suitable P) (F : Facts P f t) (hT : TermOK P.c Undefined) :
    ∀ (l : List (VarChange × List (Int → Int → Bool))) {w}, (∀ p ∈ l, VcOK P.c p.1) →
      St P (One P d f) (fun _ => False) w → Ok (dpldLoop P.c t d l) w (fun r _ => r = true)
  | [], _, _, _ => Ok.pure rfl
  | (vc, chs) :: l, w, hl, h => by
      unfold dpldLoop
      exact dpldRound_ok S F hT (hl _ List.mem_cons_self) chs
        (fun w' h' => dpldLoop_ok S F hT l (fun p hp => hl p (List.mem_cons_of_mem _ hp)) h') h

theorem dpldTest_passes (S : Suitable P) (hsize : DomOK (domainsOf P.c)) (hT : TermOK P.c Undefined) {ch : Nat → Choice}
    (hc : ∀ p, 2 ≤ (ch p).denom) {l : List (VarChange × List (Int → Int → Bool))} (hl : ∀ p ∈ l, VcOK P.c p.1) :
    Passes P (do
      let (d, t) ← makeSystem P.c ch
      dpldLoop P.c t d l) := by
  refine Reports.of S.ok fun w h => ?_
  obtain ⟨f, t, w1, e1, F, s1, -⟩ := makeSystem_ok S hsize hc h
  exact Ok.bindEq e1 (dpldLoop_ok S F hT l hl (s1.mono (fun _ _ h => h) fun _ h => h.elim))

/-! ### With assertions on fixed domains -/

theorem bind_error {σ α β : Type} {m : SM σ α} {f : α → SM σ β} {s : σ} {x : Err} (e : m s = .error x) :
    (m >>= f) s = .error x := by
  simp [bind_run, e]

/-- The tests that make extended derivatives abort if terminals are checked against a fixed domain. -/
theorem dpldTest_aborts (S : Suitable P) (hsize : DomOK (domainsOf P.c))
    (habort : ∀ {w σ var a} {g : Asg → Int}, Reachable P w σ → σ.canon = true → Denotes P w a g → var < P.c.n →
      ¬ DependsOn P.c.n P.c.dom g var → ∀ v, exec P.c (.toDpldE v var a) w = .error .assertion) {ch : Nat → Choice}
    (hc : ∀ p, 2 ≤ (ch p).denom) {vc : VarChange} (hvc : VcOK P.c vc) (φ : Int → Int → Bool) (chs : List (Int → Int → Bool))
    (l : List (VarChange × List (Int → Int → Bool))) :
    ∃ m, construct P.c P.pool P.order = .ok m ∧ (do
      let (d, t) ← makeSystem P.c ch
      dpldLoop P.c t d ((vc, φ :: chs) :: l)) ⟨m, []⟩ = .error .assertion := by
  obtain ⟨m, e, h⟩ := start S.ok
  refine ⟨m, e, ?_⟩
  obtain ⟨f, t, w1, e1, F, s1, σ, hr, hcan, hauto, hh⟩ := makeSystem_ok S hsize hc h
  obtain ⟨ts, e2, -⟩ := eachE_forall (l := φ :: chs) fun ch _ => tableDplds_ok F hvc ch
  have hadm : Adm P σ (.dpld vc φ 0) := ⟨⟨_, hh⟩, S.term1, fun _ => hvc.2⟩
  obtain ⟨o, w2, e3, ho, R2⟩ := sim (reachable_rel S.ok hr) (k := .dpld vc φ 0) hadm (fun _ => hauto)
  have hr2 := Reachable.step hr hadm e3 (fun _ => hauto)
  have ho : o = .slot σ.slots.length := ho
  subst ho
  have hh2 : (next P.c σ (.dpld vc φ 0) (.slot σ.slots.length)).Has σ.slots.length
      (fun x => TT.der f vc φ (toList P.c.n x)) := by
    show (σ.slots ++ [some _])[σ.slots.length]? = _
    rw [hh.fn, der_eq]
    simp
  have e4 := habort hr2 hcan (R2.denotes hh2) hvc.1 (der_indep vc φ) vc.from
  rw [bind_ok e1]
  show dpldLoop P.c t 0 ((vc, φ :: chs) :: l) w1 = _
  unfold dpldLoop dpldRound
  rw [bind_ok (lift_ok e2)]
  refine bind_error ?_
  unfold mapL diagramDplds
  refine bind_error ?_
  rw [bind_ok (newSlot_eq e3)]
  refine bind_error ?_
  unfold newSlot
  exact bind_error e4

/-- So does the test of minimal cut vectors. -/
theorem mcvs_aborts (S : Suitable P) (hsize : DomOK (domainsOf P.c))
    (habort : ∀ {w σ a} {g : Asg → Int}, Reachable P w σ → σ.auto = false → Denotes P w a g →
      ∀ s, exec P.c (.mcvs s a) w = .error .assertion) {ch : Nat → Choice}
    (hc : ∀ p, 2 ≤ (ch p).denom) {k : Nat} (hk : 2 ≤ k) :
    ∃ m, construct P.c P.pool P.order = .ok m ∧ mcvs P.c ch k ⟨m, []⟩ = .error .assertion := by
  obtain ⟨m, e, h⟩ := start S.ok
  refine ⟨m, e, ?_⟩
  obtain ⟨f, t, w1, e1, F, s1, σ, hr, hcan, hauto, hh⟩ := makeSystem_ok S hsize hc h
  obtain ⟨hn, hd⟩ := dom_list P.c
  have h0 : 0 < P.c.n := Nat.lt_of_lt_of_le Nat.two_pos S.ok.vars
  have h2 : 1 < P.c.dom 0 := S.two 0 h0
  obtain ⟨j, rfl⟩ : ∃ j, k = j + 2 := ⟨k - 2, by omega⟩
  have hl : statesFrom1 (j + 2) = 1 :: (statesFrom1 (j + 2)).tail := by
    simp [statesFrom1, List.range_succ_eq_map]
  unfold mcvs
  rw [bind_ok e1]
  show mcvsLoop P.c t 0 (statesFrom1 (j + 2)) w1 = _
  rw [hl]
  unfold mcvsLoop
  rw [bind_ok (lift_ok (TT.mcvs_ok F.size F.of ⟨0, by rw [← hn]; exact h0, by rw [← hd 0 h0]; exact h2⟩ 1))]
  refine bind_error ?_
  unfold askAsgs
  exact bind_error (habort hr hauto ((reachable_rel S.ok hr).denotes hh) 1)

/-! ### The cases of the tests -/

theorem mem_withOpposite {l : List (Nat × Nat)} {d : Nat} (h : ∀ p ∈ l, p.1 < d ∧ p.2 < d) :
    ∀ p ∈ withOpposite l, p.1 < d ∧ p.2 < d := by
  intro p hp
  rcases List.mem_append.1 hp with hp | hp
  · exact h p hp
  · obtain ⟨q, hq, rfl⟩ := List.mem_map.1 hp
    exact ⟨(h q hq).2, (h q hq).1⟩

theorem var0Changes_ok (hn : 0 < c.n) : ∀ vc ∈ var0Changes c, VcOK c vc := by
  have hd := (dom_list c).2 0 hn
  intro vc hvc
  obtain ⟨p, hp, rfl⟩ := List.mem_map.1 hvc
  have := mem_withOpposite (d := c.dom 0) ?_ p hp
  · exact ⟨hn, this.1, this.2⟩
  · rw [← hd]
    intro q hq
    simp only [List.mem_flatMap, List.mem_map, List.mem_range] at hq
    obtain ⟨u, hu, k, hk, rfl⟩ := hq
    exact ⟨by dsimp only; omega, by dsimp only; omega⟩

theorem var0Changes_ne (hn : 0 < c.n) (h2 : 2 ≤ c.dom 0) : ∃ vc l, var0Changes c = vc :: l := by
  have hd := (dom_list c).2 0 hn
  obtain ⟨j, hj⟩ : ∃ j, c.dom 0 = j + 2 := ⟨c.dom 0 - 2, by omega⟩
  unfold var0Changes varChanges withOpposite
  rw [← hd, hj]
  refine ⟨⟨0, 0, 1⟩, ?_⟩
  simp [List.range_succ_eq_map]

theorem basicCases_ok (hn : 0 < c.n) (k : Nat) : ∀ p ∈ basicCases c k, VcOK c p.1 := by
  intro p hp
  simp only [basicCases, List.mem_flatMap, List.mem_map] at hp
  obtain ⟨vc, h, q, -, rfl⟩ := hp
  exact var0Changes_ok hn vc h

theorem type1Cases_ok (hn : 0 < c.n) (k : Nat) : ∀ p ∈ type1Cases c k, VcOK c p.1 := by
  intro p hp
  simp only [type1Cases, List.mem_flatMap, List.mem_map] at hp
  obtain ⟨v, -, vc, h, rfl⟩ := hp
  exact var0Changes_ok hn vc h

theorem type2Cases_ok (hn : 0 < c.n) : ∀ p ∈ type2Cases c, VcOK c p.1 := by
  intro p hp
  simp only [type2Cases, List.mem_map] at hp
  obtain ⟨vc, h, rfl⟩ := hp
  exact var0Changes_ok hn vc h

theorem type3Cases_ok (hn : 0 < c.n) (k : Nat) : ∀ p ∈ type3Cases c k, VcOK c p.1 := by
  intro p hp
  simp only [type3Cases, List.mem_flatMap, List.mem_map] at hp
  obtain ⟨v, -, vc, h, rfl⟩ := hp
  exact var0Changes_ok hn vc h

/-- All tests of derivatives have at least one case. -/
theorem cases_ne (hn : 0 < c.n) (h2 : 2 ≤ c.dom 0) {k : Nat} (hk : 2 ≤ k) :
    (∃ vc φ chs l, VcOK c vc ∧ basicCases c k = (vc, φ :: chs) :: l) ∧
      (∃ vc φ chs l, VcOK c vc ∧ type1Cases c k = (vc, φ :: chs) :: l) ∧
      (∃ vc φ chs l, VcOK c vc ∧ type2Cases c = (vc, φ :: chs) :: l) ∧
      ∃ vc φ chs l, VcOK c vc ∧ type3Cases c k = (vc, φ :: chs) :: l := by
  obtain ⟨vc, l, e⟩ := var0Changes_ne hn h2
  have hvc := var0Changes_ok hn vc (by rw [e]; simp)
  obtain ⟨j, rfl⟩ : ∃ j, k = j + 2 := ⟨k - 2, by omega⟩
  refine ⟨?_, ?_, ?_, ?_⟩
  · unfold basicCases fChanges withOpposite
    rw [e]
    simp only [List.range_succ_eq_map, List.flatMap_cons, List.map_cons, List.cons_append,
      show j + 2 - 1 = j + 1 from rfl, show j + 2 - 0 = j + 2 from rfl]
    exact ⟨vc, _, _, _, hvc, rfl⟩
  · unfold type1Cases
    rw [e]
    simp only [List.range_succ_eq_map, List.flatMap_cons, List.map_cons, List.cons_append,
      show j + 2 - 1 = j + 1 from rfl]
    exact ⟨vc, _, _, _, hvc, rfl⟩
  · unfold type2Cases
    rw [e]
    exact ⟨vc, _, _, _, hvc, rfl⟩
  · unfold type3Cases statesFrom1
    rw [e]
    simp only [List.range_succ_eq_map, List.flatMap_cons, List.map_cons, List.cons_append,
      show j + 2 - 1 = j + 1 from rfl]
    exact ⟨vc, _, _, _, hvc, rfl⟩

end

end

end Tests
end Teddy
