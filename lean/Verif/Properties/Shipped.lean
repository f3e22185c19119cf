import Verif.Proofs.Shipped
import Verif.Properties.Managers
import Verif.Properties.Aborts
import Verif.Properties.Symbolic

/-!
# The shipped examples

`examples/readme.cpp`, `examples/soft_x.cpp` and `examples/time_reliability.cpp`, whatever the hash functions and addresses.
-/

namespace Teddy
namespace Properties

open SM Spec

/-! ### C75 shipped examples -/

/-- The manager of `example_basic_usage`. -/
def readmeManager (env : Surroundings) : Setup := ⟨fixedCfg env 2 4 500, 1000, [0, 1, 2, 3], shipped 2⟩

theorem bit_x (env : Surroundings) {M n extra i : Nat} (hM : M = 2) (hi : i < n) :
    Bits (Range (fixedCfg env M n extra) fun x => (x i : Int)) := by
  subst hM
  rintro a ⟨x, hx, rfl⟩
  have : x i < 2 := hx i hi
  dsimp only
  omega

theorem term_fixed (env : Surroundings) {M n extra : Nat} {v : Int} (h0 : 0 ≤ v) (h : v < M) :
    TermOK (fixedCfg env M n extra) v :=
  ⟨h0, fun _ m e => by cases e; exact h⟩

theorem bit_and (env : Surroundings) {n extra : Nat} {f g : Asg → Int} (hf : Bits (Range (fixedCfg env 2 n extra) f))
    (hg : Bits (Range (fixedCfg env 2 n extra) g)) :
    Bits (Range (fixedCfg env 2 n extra) fun x => Op.AND.val (f x) (g x)) := by
  rintro a ⟨x, hx, rfl⟩
  exact and_closed _ _ (hf _ ⟨x, hx, rfl⟩) (hg _ ⟨x, hx, rfl⟩)

theorem readmeBasic_adm (env : Surroundings) :
    AdmAll (readmeManager env) (SState.init (readmeManager env)) readmeBasic := by
  have ha : ∀ {p : Prop}, p → false = false := fun _ => rfl
  have hv : ∀ m, (readmeManager env).c.fixedDom = some m → (readmeManager env).c.asserts = true → (1 : Int) < m :=
    fun m h _ => by cases h; decide
  have t1 : TermOK (readmeManager env).c 1 := term_fixed env (by decide) (by decide)
  have b : ∀ i, i < 4 → Bits (Range (readmeManager env).c fun x => (x i : Int)) := fun i hi => bit_x env rfl hi
  refine ⟨nofun, ⟨show 0 < 4 by decide, ha⟩, nofun, ⟨show 1 < 4 by decide, ha⟩, nofun, ⟨show 2 < 4 by decide, ha⟩,
    nofun, ⟨show 0 < 4 by decide, ha⟩, nofun, ⟨show 1 < 4 by decide, ha⟩, nofun, ⟨show 2 < 4 by decide, ha⟩,
    nofun, ⟨show 3 < 4 by decide, ha⟩, nofun, ⟨⟨⟨_, rfl⟩, _, rfl⟩, ha⟩,
    nofun, ⟨⟨rfl, rfl, _, _, rfl, rfl, opOK_AND ((b 0 (by decide)).vals t1) ((b 1 (by decide)).vals t1)⟩, ha⟩,
    nofun, ⟨⟨rfl, rfl, _, _, rfl, rfl, opOK_AND ((b 2 (by decide)).vals t1) ((b 3 (by decide)).vals t1)⟩, ha⟩,
    nofun, ⟨⟨rfl, rfl, _, _, rfl, rfl, opOK_OR t1 (bit_and env (b 0 (by decide)) (b 1 (by decide)))
      (bit_and env (b 2 (by decide)) (b 3 (by decide)))⟩, ha⟩,
    nofun, ⟨⟨⟨_, rfl⟩, ?_⟩, ha⟩, nofun, ⟨⟨rfl, ?_, ⟨_, rfl⟩, hv⟩, ha⟩, nofun, ⟨⟨⟨_, rfl⟩, hv⟩, ha⟩, trivial⟩
  · intro i hi
    have : i < 4 := hi
    show asgOf [1, 1, 0, 1] i < 2
    interval_cases i <;> decide
  · exact show 4 < 63 by decide

/-- `example_basic_usage` of the README: both assertions hold, the function has the value 1 on seven assignments, and
`satisfy_all` returns these. -/
theorem C75_readme_basic (env : Surroundings) :
    ∃ c m w, bddManager env 4 1000 none [] = .ok (c, m) ∧
      execAll c readmeBasic ⟨m, []⟩ = .ok ([.slot 0, .slot 1, .slot 2, .slot 3, .slot 4, .slot 5, .slot 6, .bool true,
        .slot 7, .slot 8, .slot 9, .int 1, .int 7,
        .asgs [[0, 0, 1, 1], [0, 1, 1, 1], [1, 0, 1, 1], [1, 1, 0, 0], [1, 1, 0, 1], [1, 1, 1, 0], [1, 1, 1, 1]]], w) := by
  obtain ⟨hP, m, e, -, h⟩ := C43_bdd_partial env (shipped 2) (n := 4) (pool := 1000) (overflow := none) (order := [])
    (by decide) ⟨by decide, nofun⟩ (.inl rfl)
  change Reachable (readmeManager env) _ _ at h
  change (readmeManager env).OK at hP
  obtain ⟨os, w, σ, e2, ho, -⟩ := execAll_outs readmeBasic h hP (readmeBasic_adm env)
  refine ⟨_, m, w, e, e2.trans ?_⟩
  obtain ⟨_, os, rfl, h0, ho⟩ := ho.cons
  obtain ⟨_, os, rfl, h1, ho⟩ := ho.cons
  obtain ⟨_, os, rfl, h2, ho⟩ := ho.cons
  obtain ⟨_, os, rfl, h3, ho⟩ := ho.cons
  obtain ⟨_, os, rfl, h4, ho⟩ := ho.cons
  obtain ⟨_, os, rfl, h5, ho⟩ := ho.cons
  obtain ⟨_, os, rfl, h6, ho⟩ := ho.cons
  obtain ⟨_, os, rfl, h7, ho⟩ := ho.cons
  obtain ⟨_, os, rfl, h8, ho⟩ := ho.cons
  obtain ⟨_, os, rfl, h9, ho⟩ := ho.cons
  obtain ⟨_, os, rfl, h10, ho⟩ := ho.cons
  obtain ⟨_, os, rfl, h11, ho⟩ := ho.cons
  obtain ⟨_, os, rfl, h12, ho⟩ := ho.cons
  obtain ⟨_, os, rfl, h13, ho⟩ := ho.cons
  obtain rfl := ho.nil
  obtain ⟨r, rfl, -, h7⟩ := h7
  have hr : r = true := h7 rfl fun _ _ => rfl
  let f : Asg → Int := fun x => Op.OR.val (Op.AND.val (x 0) (x 1)) (Op.AND.val (x 2) (x 3))
  have e11 : f (asgOf [1, 1, 0, 1]) = 1 := by decide +kernel
  have e12 : ((countValue 4 (fun _ => 2) f 1 : Nat) : Int) = 7 := by decide +kernel
  have e13 : ((assignments (fun _ => 2) [0, 1, 2, 3]).filter fun x => f x = 1).map (toList 4) =
      [[0, 0, 1, 1], [0, 1, 1, 1], [1, 0, 1, 1], [1, 1, 0, 0], [1, 1, 0, 1], [1, 1, 1, 0], [1, 1, 1, 1]] := by
    decide +kernel
  rw [show _ = Out.slot 0 from h0, show _ = Out.slot 1 from h1, show _ = Out.slot 2 from h2,
    show _ = Out.slot 3 from h3, show _ = Out.slot 4 from h4, show _ = Out.slot 5 from h5,
    show _ = Out.slot 6 from h6, hr, show _ = Out.slot 7 from h8, show _ = Out.slot 8 from h9,
    show _ = Out.slot 9 from h10, show _ = Out.int (f (asgOf [1, 1, 0, 1])) from h11,
    show _ = Out.int ((countValue 4 (fun _ => 2) f 1 : Nat) : Int) from h12,
    show _ = Out.asgs (((assignments (fun _ => 2) [0, 1, 2, 3]).filter fun x => f x = 1).map (toList 4)) from h13,
    e11, e12, e13]

/-- The manager of `example_reliability`. -/
def readmeSystem (env : Surroundings) : Setup := ⟨mixedCfg env [2, 3, 2, 3] 4 500, 1000, [0, 1, 2, 3], shipped 3⟩

/-- The number of states of each component. -/
def readmeDom : Nat → Nat := fun i => [2, 3, 2, 3].getD i 0

/-- The structure function: entry number (((x0 · 3 + x1) · 2 + x2) · 3 + x3) of the vector. -/
def readmeFun (x : Asg) : Int := readmeVector.getD (position readmeDom [0, 1, 2, 3] x) 0

theorem sums_of {n : Nat} {dom : Nat → Nat} {pr : Nat → Nat → Rat}
    (h : (List.range n).all (fun i => decide (((List.range (dom i)).map (pr i)).sum = 1)) = true) :
    SumsToOne n dom pr := by
  intro i hi
  simpa using List.all_eq_true.1 h i (List.mem_range.2 hi)

theorem term_mixed (env : Surroundings) {doms : List Nat} {n extra : Nat} {v : Int} (h0 : 0 ≤ v) :
    TermOK (mixedCfg env doms n extra) v :=
  ⟨h0, fun _ m e => by cases e⟩

theorem getD_mem {l : List Int} {k : Nat} {p : Int → Prop} (h : ∀ v ∈ l, p v) (h0 : p 0) : p (l.getD k 0) := by
  unfold List.getD
  cases e : l[k]? with
  | none => exact h0
  | some v => exact h v (List.mem_of_getElem? e)

theorem readme_values : ∀ v ∈ readmeVector, v = 0 ∨ v = 1 ∨ v = 2 := by decide +kernel

theorem readmeReliability_adm (env : Surroundings) :
    AdmAll (readmeSystem env) (SState.init (readmeSystem env)) readmeReliability := by
  have ha : ∀ {p : Prop}, p → false = false := fun _ => rfl
  have hv : ∀ m, (readmeSystem env).c.fixedDom = some m → (readmeSystem env).c.asserts = true → (1 : Int) < m :=
    fun m h _ => by cases h
  have hs : SumsToOne 4 readmeDom readmeProbs := sums_of (by decide +kernel)
  have hd : Defined (readmeSystem env).c readmeFun := by
    intro x _ e
    have := getD_mem (l := readmeVector) (k := position readmeDom [0, 1, 2, 3] x) (p := fun v => v ≠ Undefined)
      (fun v h => by rcases readme_values v h with rfl | rfl | rfl <;> decide) (by decide)
    exact this e
  have hc : CountFits (readmeSystem env).c := by
    exact show ((List.range 4).map readmeDom).prod ≤ 9223372036854775807 by decide +kernel
  refine ⟨nofun, ⟨⟨hc, ?_, ?_⟩, ha⟩, nofun, ⟨⟨rfl, hs, _, rfl, hd⟩, ha⟩, nofun, ⟨⟨rfl, hs, _, rfl, hd⟩, ha⟩,
    nofun, ⟨⟨⟨rfl, rfl, term_mixed env (by decide), term_mixed env (by decide), 0, show 0 < 4 by decide,
      show 2 ≤ 2 by decide⟩, _, rfl⟩, ha⟩,
    nofun, ⟨⟨⟨_, rfl⟩, term_mixed env (by decide), fun _ => ⟨show 1 < 2 by decide, show 0 < 2 by decide⟩⟩, ha⟩,
    nofun, ⟨⟨rfl, hc, ⟨_, rfl⟩, hv⟩, ha⟩, trivial⟩
  · exact show readmeVector.length = ((List.range 4).map readmeDom).prod by decide +kernel
  · intro v h
    refine term_mixed env ?_
    rcases readme_values v h with rfl | rfl | rfl <;> decide

/-- `example_reliability` of the README.  The system is available with probability 2479/2500; its minimal cut vectors are
(0, 2, 0, 0) and (1, 0, 0, 0); the component with index 2, which the comment calls the second, has structural
importance 2/9. -/
theorem C75_readme_reliability (env : Surroundings) :
    ∃ c m w, ifmddManager env 3 4 1000 none [2, 3, 2, 3] [] = .ok (c, m) ∧
      execAll c readmeReliability ⟨m, []⟩ = .ok ([.slot 0, .rat (2479 / 2500), .rat (21 / 2500),
        .asgs [[0, 2, 0, 0], [1, 0, 0, 0]], .slot 1, .rat (2 / 9)], w) := by
  obtain ⟨hP, m, e, -, h⟩ := C43_ifmdd_partial env (shipped 3) (M := 3) (n := 4) (pool := 1000) (overflow := none)
    (doms := [2, 3, 2, 3]) (order := []) rfl (by decide) (by decide) ⟨by decide, nofun⟩ (.inl rfl)
  change Reachable (readmeSystem env) _ _ at h
  change (readmeSystem env).OK at hP
  obtain ⟨os, w, σ, e2, ho, -⟩ := execAll_outs readmeReliability h hP (readmeReliability_adm env)
  refine ⟨_, m, w, e, e2.trans ?_⟩
  obtain ⟨_, os, rfl, h0, ho⟩ := ho.cons
  obtain ⟨_, os, rfl, h1, ho⟩ := ho.cons
  obtain ⟨_, os, rfl, h2, ho⟩ := ho.cons
  obtain ⟨_, os, rfl, h3, ho⟩ := ho.cons
  obtain ⟨_, os, rfl, h4, ho⟩ := ho.cons
  obtain ⟨_, os, rfl, h5, ho⟩ := ho.cons
  obtain rfl := ho.nil
  have e1 : probability 4 readmeDom readmeProbs (fun x => decide (readmeFun x ≥ 1)) = 2479 / 2500 := by decide +kernel
  have e2 : probability 4 readmeDom readmeProbs (fun x => decide (readmeFun x < 1)) = 21 / 2500 := by decide +kernel
  have e3 : ((assignments readmeDom [0, 1, 2, 3]).filter fun x => MinCut 4 readmeDom readmeFun 1 x).map (toList 4) =
      [[0, 2, 0, 0], [1, 0, 0, 0]] := by decide +kernel
  let g : Asg → Int := fun x => b2i (Dpld.type3Decrease 1 (readmeFun (upd x 2 1)) (readmeFun (upd x 2 0)))
  have e5 : (countValue 4 readmeDom g 1 / (allAsg 4 readmeDom).length : Rat) = 2 / 9 := by decide +kernel
  rw [show _ = Out.slot 0 from h0,
    show _ = Out.rat (probability 4 readmeDom readmeProbs fun x => decide (readmeFun x ≥ 1)) from h1,
    show _ = Out.rat (probability 4 readmeDom readmeProbs fun x => decide (readmeFun x < 1)) from h2,
    show _ = Out.asgs (((assignments readmeDom [0, 1, 2, 3]).filter fun x => MinCut 4 readmeDom readmeFun 1 x).map
      (toList 4)) from h3,
    show _ = Out.slot 1 from h4,
    show _ = Out.rat (countValue 4 readmeDom g 1 / (allAsg 4 readmeDom).length : Rat) from h5, e1, e2, e3, e5]

/-- The manager of `soft_x`. -/
def softManager (env : Surroundings) : Setup := ⟨fixedCfg env 3 3 50, 100, [0, 1, 2], shipped 3⟩

/-- The structure function max(x0, min(x1, x2)). -/
def softFun (x : Asg) : Int := (Op.MAXB 3).val (x 0) (Op.MIN.val (x 1) (x 2))

theorem softX_adm (env : Surroundings) : AdmAll (softManager env) (SState.init (softManager env)) softX := by
  have ha : ∀ {p : Prop}, p → false = false := fun _ => rfl
  have hv : ∀ m, (softManager env).c.fixedDom = some m → (softManager env).c.asserts = true → (1 : Int) < m :=
    fun m h _ => by cases h; decide
  have t : ∀ v : Int, 0 ≤ v → v < 3 → TermOK (softManager env).c v := fun v h0 h1 => term_fixed env h0 h1
  have hx : ∀ i, i < 3 → ∀ a, Range (softManager env).c (fun x => (x i : Int)) a → 0 ≤ a ∧ a < 3 := by
    rintro i hi a ⟨x, hx, rfl⟩
    have : x i < 3 := hx i hi
    dsimp only
    omega
  have hmin : ∀ a, Range (softManager env).c (fun x => Op.MIN.val (x 1) (x 2)) a → 0 ≤ a ∧ a < 3 := by
    rintro a ⟨x, hx, rfl⟩
    have h1 : x 1 < 3 := hx 1 (show 1 < 3 by decide)
    have h2 : x 2 < 3 := hx 2 (show 2 < 3 by decide)
    simp only [Op.MIN, BinOp.val, min32, max32, nd_val]
    split_ifs <;> omega
  have vals : ∀ {A : Int → Prop}, (∀ a, A a → 0 ≤ a ∧ a < 3) → Vals (softManager env).c A := by
    intro A h a hA
    obtain ⟨h1, h2⟩ := h a hA
    exact ⟨t a h1 h2, by rw [nd_val]; omega⟩
  have hd : Defined (softManager env).c softFun := by
    intro x hx
    have h0 : x 0 < 3 := hx 0 (show 0 < 3 by decide)
    have h1 : x 1 < 3 := hx 1 (show 1 < 3 by decide)
    have h2 : x 2 < 3 := hx 2 (show 2 < 3 by decide)
    simp only [softFun, Op.MIN, Op.MAXB, BinOp.val, min32, max32, nd_val, und_val]
    split_ifs <;> omega
  have hb : ∀ b : Bool, b2i b ≠ Undefined := by decide
  have hs : SumsToOne 3 (fun _ => 3) softProbs := sums_of (by decide +kernel)
  refine ⟨nofun, ⟨show 0 < 3 by decide, ha⟩, nofun, ⟨show 1 < 3 by decide, ha⟩, nofun, ⟨show 2 < 3 by decide, ha⟩,
    nofun, ⟨⟨rfl, rfl, _, _, rfl, rfl, opOK_MIN (vals (hx 1 (by decide))) (vals (hx 2 (by decide)))⟩, ha⟩,
    nofun, ⟨⟨rfl, rfl, _, _, rfl, rfl, opOK_MAXB (M := 3) (vals (hx 0 (by decide))) (vals hmin)
      (fun a h => (hx 0 (by decide) a h).2) (fun a h => (hmin a h).2) (by decide)⟩, ha⟩,
    nofun, ⟨⟨⟨_, rfl⟩, t 1 (by decide) (by decide), fun _ => ⟨show 0 < 3 by decide, show 1 < 3 by decide⟩⟩, ha⟩,
    nofun, ⟨⟨⟨_, rfl⟩, ?_⟩, ha⟩, nofun, ⟨⟨rfl, hs, _, rfl, hd⟩, ha⟩,
    nofun, ⟨⟨rfl, hs, _, rfl, fun _ _ => hb _⟩, ha⟩, nofun, ⟨⟨rfl, ?_, ⟨_, rfl⟩, hv⟩, ha⟩, trivial⟩
  · intro i hi
    have : i < 3 := hi
    show asgOf [0, 1, 2] i < 3
    interval_cases i <;> decide
  · exact show ProdFits (some 3) ((List.range 3).map fun _ => 3) by unfold ProdFits; decide

/-- What `soft_x` computes before it asks for minimal cut vectors. -/
def softOuts : List Out :=
  [.slot 0, .slot 1, .slot 2, .slot 3, .slot 4, .slot 5, .int 1, .rat (239 / 250), .rat (11 / 25), .rat (11 / 27)]

/-- The calls of `soft_x` before `mcvs` return these values, and the manager is in a reachable state. -/
theorem softX_run (env : Surroundings) :
    ∃ m w σ, mddManager env 3 3 100 none [] = .ok ((softManager env).c, m) ∧
      execAll (softManager env).c softX ⟨m, []⟩ = .ok (softOuts, w) ∧ (softManager env).OK ∧
      Reachable (softManager env) w σ ∧ σ = softX.foldl (fun σ k => next (softManager env).c σ k .unit)
        (SState.init (softManager env)) := by
  obtain ⟨hP, m, e, -, h⟩ := C43_mdd_partial env (shipped 3) (M := 3) (n := 3) (pool := 100) (overflow := none)
    (order := []) (by decide) (by decide) ⟨by decide, nofun⟩ (.inl rfl)
  change Reachable (softManager env) _ _ at h
  change (softManager env).OK at hP
  obtain ⟨os, w, σ, e2, ho, hR, hσ⟩ := execAll_outs softX h hP (softX_adm env)
  refine ⟨m, w, σ, e, e2.trans ?_, hP, hR, hσ⟩
  obtain ⟨_, os, rfl, h0, ho⟩ := ho.cons
  obtain ⟨_, os, rfl, h1, ho⟩ := ho.cons
  obtain ⟨_, os, rfl, h2, ho⟩ := ho.cons
  obtain ⟨_, os, rfl, h3, ho⟩ := ho.cons
  obtain ⟨_, os, rfl, h4, ho⟩ := ho.cons
  obtain ⟨_, os, rfl, h5, ho⟩ := ho.cons
  obtain ⟨_, os, rfl, h6, ho⟩ := ho.cons
  obtain ⟨_, os, rfl, h7, ho⟩ := ho.cons
  obtain ⟨_, os, rfl, h8, ho⟩ := ho.cons
  obtain ⟨_, os, rfl, h9, ho⟩ := ho.cons
  obtain rfl := ho.nil
  have e6 : softFun (asgOf [0, 1, 2]) = 1 := by decide +kernel
  have e7 : probability 3 (fun _ => 3) softProbs (fun x => decide (softFun x ≥ 1)) = 239 / 250 := by decide +kernel
  let g : Asg → Int := fun x => b2i (Dpld.type3Increase 1 (softFun (upd x 0 0)) (softFun (upd x 0 1)))
  have e8 : probability 3 (fun _ => 3) softProbs (fun x => decide (g x = 1)) = 11 / 25 := by decide +kernel
  have e9 : (countValue 3 (fun _ => 3) softFun 1 / (allAsg 3 (fun _ => 3)).length : Rat) = 11 / 27 := by decide +kernel
  rw [show _ = Out.slot 0 from h0, show _ = Out.slot 1 from h1, show _ = Out.slot 2 from h2,
    show _ = Out.slot 3 from h3, show _ = Out.slot 4 from h4, show _ = Out.slot 5 from h5,
    show _ = Out.int (softFun (asgOf [0, 1, 2])) from h6,
    show _ = Out.rat (probability 3 (fun _ => 3) softProbs fun x => decide (softFun x ≥ 1)) from h7,
    show _ = Out.rat (probability 3 (fun _ => 3) softProbs fun x => decide (g x = 1)) from h8,
    show _ = Out.rat (countValue 3 (fun _ => 3) softFun 1 / (allAsg 3 (fun _ => 3)).length : Rat) from h9,
    e6, e7, e8, e9]
  rfl

theorem execAll_append {c : Cfg} {ks : List Call} {k : Call} : ∀ {w w' : World} {os : List Out},
    execAll c ks w = .ok (os, w') →
      execAll c (ks ++ [k]) w = (match exec c k w' with
        | .ok (o, w'') => .ok (os ++ [o], w'')
        | .error e => .error e) := by
  induction ks with
  | nil =>
      intro w w' os h
      cases h
      simp only [List.nil_append, execAll, bind_run]
      cases exec c k w with
      | ok r => rfl
      | error e => rfl
  | cons j ks ih =>
      intro w w' os h
      simp only [List.cons_append, execAll, bind_run] at h ⊢
      cases e : exec c j w with
      | error e' => rw [e] at h; cases h
      | ok r =>
          obtain ⟨o, w1⟩ := r
          rw [e] at h
          dsimp only at h ⊢
          cases e1 : execAll c ks w1 with
          | error e' => rw [e1] at h; cases h
          | ok r1 =>
              obtain ⟨os1, w2⟩ := r1
              rw [e1] at h
              cases h
              rw [ih e1]
              cases exec c k w' with
              | ok r => rfl
              | error e => rfl

/-- `soft_x`: the structure function is 1 on (0, 1, 2), the system is at least in state 1 with probability 239/250, the
Birnbaum importance of component 0 is 11/25, the relative frequency of state 1 is 11/27, and the minimal cut vectors are
(0, 0, 2) and (0, 2, 0).

Missing for the full property: assertions are disabled (`C75_soft_x_violated`). -/
theorem C75_soft_x_partial (env : Surroundings) (ha : env.asserts = false) :
    ∃ c m w, mddManager env 3 3 100 none [] = .ok (c, m) ∧
      execAll c softXAll ⟨m, []⟩ = .ok (softOuts ++ [.asgs [[0, 0, 2], [0, 2, 0]]], w) := by
  obtain ⟨m, w, σ, e, e2, hP, hR, rfl⟩ := softX_run env
  have hf : (softManager env).c.asserts = false := ha
  have t : ∀ v : Int, 0 ≤ v → TermOK (softManager env).c v := fun v h0 => ⟨h0, fun h => by rw [hf] at h; cases h⟩
  obtain ⟨o, w', e3, ho, -⟩ := sim (k := .mcvs 1 4) (reachable_rel hP hR)
    ⟨⟨rfl, rfl, t 1 (by decide), t _ (by decide), 0, show 0 < 3 by decide, show 2 ≤ 3 by decide⟩, _, rfl⟩ (fun _ => rfl)
  refine ⟨_, m, w', e, ?_⟩
  unfold softXAll
  rw [execAll_append e2, e3]
  have e10 : ((assignments (fun _ => 3) [0, 1, 2]).filter fun x => MinCut 3 (fun _ => 3) softFun 1 x).map (toList 3) =
      [[0, 0, 2], [0, 2, 0]] := by decide +kernel
  dsimp only
  rw [show o = Out.asgs (((assignments (fun _ => 3) [0, 1, 2]).filter fun x => MinCut 3 (fun _ => 3) softFun 1 x).map
      (toList 3)) from ho, e10]

/-- **C75.** With assertions enabled, `soft_x` ends in an assertion failure. -/
theorem C75_soft_x_violated (env : Surroundings) (ha : env.asserts = true) :
    ∃ c m, mddManager env 3 3 100 none [] = .ok (c, m) ∧ execAll c softXAll ⟨m, []⟩ = .error .assertion := by
  obtain ⟨m, w, σ, e, e2, hP, hR, rfl⟩ := softX_run env
  refine ⟨_, m, e, ?_⟩
  unfold softXAll
  rw [execAll_append e2, (C34_violated_always (a := 4) hP hR rfl rfl ha (by decide) (by decide)
    ((reachable_rel hP hR).denotes rfl) 1).1]

/-- Both settings occur. -/
example : (someEnv false).asserts = false ∧ (someEnv true).asserts = true := ⟨rfl, rfl⟩

/-- The manager of `time_reliability`. -/
def timeManager (env : Surroundings) : Setup := ⟨fixedCfg env 2 3 500, 1000, [0, 1, 2], shipped 2⟩

/-- The structure function x0 ∧ (x1 ∨ x2). -/
def timeFun (x : Asg) : Int := Op.AND.val (x 0) (Op.OR.val (x 1) (x 2))

theorem timeReliability_adm (env : Surroundings) :
    AdmAll (timeManager env) (SState.init (timeManager env)) timeReliability := by
  have ha : ∀ {p : Prop}, p → false = false := fun _ => rfl
  have t1 : TermOK (timeManager env).c 1 := term_fixed env (by decide) (by decide)
  have b : ∀ i, i < 3 → Bits (Range (timeManager env).c fun x => (x i : Int)) := fun i hi => bit_x env rfl hi
  have b2 : Bits (Range (timeManager env).c fun x => Op.OR.val (x 1) (x 2)) := by
    rintro a ⟨x, hx, rfl⟩
    exact or_closed _ _ (b 1 (by decide) _ ⟨x, hx, rfl⟩) (b 2 (by decide) _ ⟨x, hx, rfl⟩)
  exact ⟨nofun, ⟨show 0 < 3 by decide, ha⟩, nofun, ⟨show 1 < 3 by decide, ha⟩, nofun, ⟨show 2 < 3 by decide, ha⟩,
    nofun, ⟨⟨rfl, rfl, _, _, rfl, rfl, opOK_OR t1 (b 1 (by decide)) (b 2 (by decide))⟩, ha⟩,
    nofun, ⟨⟨rfl, rfl, _, _, rfl, rfl, opOK_AND ((b 0 (by decide)).vals t1) (b2.vals t1)⟩, ha⟩, trivial⟩

/-- `time_reliability`: the expression for the availability of x0 ∧ (x1 ∨ x2) has, at every time `t`, the value
e^(-t) · (1 - (1 - ½ e^(-t/2))²).

Missing for the full property: the values `calculate_availability` prints beside it are computed with doubles. -/
theorem C75_time_reliability_partial (env : Surroundings) :
    ∃ c m os w e, bddManager env 3 1000 none [] = .ok (c, m) ∧ execAll c timeReliability ⟨m, []⟩ = .ok (os, w) ∧
      symbolicAvailabilityOf c 1 timeTable 4 w = .ok (e, w) ∧
      ∀ t : ℝ, e.eval t = Real.exp (-t) * (1 - (1 - 1 / 2 * Real.exp (-t / 2)) ^ 2) := by
  obtain ⟨hP, m, e, -, h⟩ := C43_bdd_partial env (shipped 2) (n := 3) (pool := 1000) (overflow := none) (order := [])
    (by decide) ⟨by decide, nofun⟩ (.inl rfl)
  change Reachable (timeManager env) _ _ at h
  change (timeManager env).OK at hP
  obtain ⟨os, w, σ, e2, ho, hR, rfl⟩ := execAll_outs timeReliability h hP (timeReliability_adm env)
  have hd : Denotes (timeManager env) w 4 timeFun := (reachable_rel hP hR).denotes rfl
  have hdef : Defined (timeManager env).c timeFun := by
    intro x hx
    have h0 : x 0 < 2 := hx 0 (show 0 < 3 by decide)
    have h1 : x 1 < 2 := hx 1 (show 1 < 3 by decide)
    have h2 : x 2 < 2 := hx 2 (show 2 < 3 by decide)
    unfold timeFun
    generalize x 0 = a at *
    generalize x 1 = b at *
    generalize x 2 = d at *
    interval_cases a <;> interval_cases b <;> interval_cases d <;> decide
  obtain ⟨ex, he, hv⟩ := C63_symbolic_availability_partial hP hR rfl hd hdef 1 timeTable
  refine ⟨_, m, os, w, ex, e, e2, he, fun t => ?_⟩
  rw [hv t (timeTable_sums t)]
  have hA : ((allAsg 3 (fun _ => 2)).filter fun x => decide (timeFun x ≥ 1)).map
      (fun x => (List.range 3).map x) = [[1, 0, 1], [1, 1, 0], [1, 1, 1]] := by decide +kernel
  have hw : ∀ x : Asg, weight (fun i k => (timeTable i k).eval t) (List.range 3) x =
      (timeTable 0 (((List.range 3).map x).getD 0 0)).eval t * (timeTable 1 (((List.range 3).map x).getD 1 0)).eval t *
        (timeTable 2 (((List.range 3).map x).getD 2 0)).eval t := by
    intro x
    simp [weight, List.range_succ, mul_assoc]
  have : (((allAsg 3 (fun _ => 2)).filter fun x => decide (timeFun x ≥ 1)).map fun x : Asg =>
      (timeTable 0 (((List.range 3).map x).getD 0 0)).eval t * (timeTable 1 (((List.range 3).map x).getD 1 0)).eval t *
        (timeTable 2 (((List.range 3).map x).getD 2 0)).eval t) =
      [[1, 0, 1], [1, 1, 0], [1, 1, 1]].map fun l : List Nat => (timeTable 0 (l.getD 0 0)).eval t *
        (timeTable 1 (l.getD 1 0)).eval t * (timeTable 2 (l.getD 2 0)).eval t := by
    rw [← hA, List.map_map]
    rfl
  refine (congrArg List.sum ((List.map_congr_left (fun x _ => hw x)).trans this)).trans ?_
  have h12 : -(t / 2) = -(1 / 2) * t := by ring
  simp [timeTable, Sym.table, Sym.weibull, Sym.exponential, Sym.complement, Sym.eval, neg_div, h12]
  ring

end Properties
end Teddy
