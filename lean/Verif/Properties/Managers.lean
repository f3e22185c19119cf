import Verif.Managers
import Verif.Demo

/-!
# The classes of managers

What the constructors of the eight classes of managers build, and the programs shipped as examples.
-/

namespace Teddy
namespace Properties

open SM Spec

/-! ### C43 construction, for each class of managers -/

/-- `order` is left out, or lists each of the `n` variables once. -/
def OrderOK (n : Nat) (order : List Nat) : Prop := order = [] ∨ order.Perm (List.range n)

/-- A constructor builds the manager of `P`: `P` is sensible, so everything said about reachable states of `P` applies
to the new manager. -/
def Builds (r : Except Err (Cfg × Mgr)) (P : Setup) : Prop :=
  P.OK ∧ ∃ m, r = .ok (P.c, m) ∧ construct P.c P.pool P.order = .ok m ∧ Reachable P ⟨m, []⟩ (SState.init P)

theorem defaultOr_perm {n : Nat} {order : List Nat} (h : OrderOK n order) : (defaultOr n order).Perm (List.range n) := by
  unfold defaultOr
  rcases h with rfl | h
  · simp
  · split
    · exact .refl _
    · exact h

theorem withCfg_builds {c : Cfg} {pool : Nat} {order : List Nat} {Γ : Nat → BinOp}
    (hP : Setup.OK ⟨c, pool, defaultOr c.n order, Γ⟩) :
    Builds (withCfg c pool order) ⟨c, pool, defaultOr c.n order, Γ⟩ := by
  obtain ⟨m, e, -⟩ := construct_sim hP
  refine ⟨hP, m, ?_, e, .init e⟩
  dsimp only at e
  unfold withCfg
  rw [e]

/-- The sizes of the node pools: at least 5 nodes in the first, at least one in each additional one. -/
def PoolsOK (pool : Nat) (overflow : Option Nat) : Prop := 5 ≤ pool ∧ ∀ k, overflow = some k → 0 < k

theorem PoolsOK.extra {pool : Nat} {overflow : Option Nat} (h : PoolsOK pool overflow) :
    0 < overflow.getD (pool / 2) := by
  obtain ⟨h1, h2⟩ := h
  cases overflow with
  | none => simp only [Option.getD_none]; omega
  | some k => exact h2 k rfl

/-- `mdd_manager<M>`, `mss_manager<M>`: all variables have `M` values.  `bdd_manager` and `bss_manager` are the case `M = 2`.
The order is the one given or, if it is left out, by index; additional node pools have the size given or half of the
size of the first. -/
theorem C43_mdd_partial (env : Surroundings) (Γ : Nat → BinOp) {M n pool : Nat} {overflow : Option Nat} {order : List Nat} (hM : 0 < M)
    (hn : 2 ≤ n) (hp : PoolsOK pool overflow) (ho : OrderOK n order) :
    Builds (mddManager env M n pool overflow order)
      ⟨fixedCfg env M n (overflow.getD (pool / 2)), pool, if order = [] then List.range n else order, Γ⟩ := by
  have e : (if order = [] then List.range n else order) = defaultOr n order := by
    unfold defaultOr; cases order <;> simp
  rw [e]
  exact withCfg_builds (c := fixedCfg env M n _)
    ⟨⟨fun _ _ => hM, fun m h i _ => by cases h; rfl⟩, hn, defaultOr_perm ho, hp.1, hp.extra⟩

theorem C43_bdd_partial (env : Surroundings) (Γ : Nat → BinOp) {n pool : Nat} {overflow : Option Nat} {order : List Nat}
    (hn : 2 ≤ n) (hp : PoolsOK pool overflow) (ho : OrderOK n order) :
    Builds (bddManager env n pool overflow order)
      ⟨fixedCfg env 2 n (overflow.getD (pool / 2)), pool, if order = [] then List.range n else order, Γ⟩ :=
  C43_mdd_partial env Γ (by decide) hn hp ho

/-- `imdd_manager`, `imss_manager`: variable `i` has `doms[i]` values. -/
theorem C43_imdd_partial (env : Surroundings) (Γ : Nat → BinOp) {n pool : Nat} {overflow : Option Nat} {doms order : List Nat}
    (hd : doms.length = n) (hpos : ∀ d ∈ doms, 0 < d) (hn : 2 ≤ n) (hp : PoolsOK pool overflow) (ho : OrderOK n order) :
    Builds (imddManager env n pool overflow doms order)
      ⟨mixedCfg env doms n (overflow.getD (pool / 2)), pool, if order = [] then List.range n else order, Γ⟩ := by
  have e : (if order = [] then List.range n else order) = defaultOr n order := by
    unfold defaultOr; cases order <;> simp
  rw [e]
  unfold imddManager newMixed
  simp only [hd, ne_eq, not_true_eq_false, decide_false, Bool.or_false, Bool.and_false, Bool.false_eq_true, ↓reduceIte,
    lt_irrefl]
  refine withCfg_builds (c := mixedCfg env doms n _)
    ⟨⟨fun i hi => hpos _ ?_, fun m h => by cases h⟩, hn, defaultOr_perm ho, hp.1, hp.extra⟩
  have hi' : i < doms.length := by rw [hd]; exact hi
  simp [mixedCfg, List.getD, hi']

/-- `ifmdd_manager<M>`, `ifmss_manager<M>`: the same, with at most `M` values per variable. -/
theorem C43_ifmdd_partial (env : Surroundings) (Γ : Nat → BinOp) {M n pool : Nat} {overflow : Option Nat} {doms order : List Nat}
    (hd : doms.length = n) (hpos : ∀ d ∈ doms, 0 < d ∧ d ≤ M) (hn : 2 ≤ n) (hp : PoolsOK pool overflow)
    (ho : OrderOK n order) :
    Builds (ifmddManager env M n pool overflow doms order)
      ⟨mixedCfg env doms n (overflow.getD (pool / 2)), pool, if order = [] then List.range n else order, Γ⟩ := by
  have h := C43_imdd_partial env Γ (overflow := overflow) hd (fun d h => (hpos d h).1) hn hp ho
  have hw : (doms.any fun d => decide (M < d)) = false := by
    rw [List.any_eq_false]
    intro d h
    have := (hpos d h).2
    simp only [decide_eq_true_eq]; omega
  unfold imddManager newMixed at h
  unfold ifmddManager newMixed
  simpa only [hw] using h

/-- A list of domains of the wrong length, or with a domain above the bound of the class, is an assertion failure. -/
theorem C43_domains (env : Surroundings) (ha : env.asserts = true) {M n pool : Nat} {overflow : Option Nat} {doms order : List Nat} :
    (doms.length ≠ n → imddManager env n pool overflow doms order = .error .assertion) ∧
    (doms.length ≠ n ∨ (∃ d ∈ doms, M < d) → ifmddManager env M n pool overflow doms order = .error .assertion) := by
  constructor
  · intro h
    simp [imddManager, newMixed, ha, h]
  · intro h
    have : (decide (doms.length ≠ n) || doms.any fun d => decide (M < d)) = true := by
      rcases h with h | ⟨d, h1, h2⟩
      · simp [h]
      · rw [Bool.or_eq_true]
        exact .inr (List.any_eq_true.2 ⟨d, h1, by simpa using h2⟩)
    unfold ifmddManager newMixed
    dsimp only
    rw [ha, this]
    rfl

/-- Surroundings for the examples. -/
def someEnv (asserts : Bool) : Surroundings := ⟨asserts, List.sum, fun a b d => a + b + d, id⟩

/-- The hypotheses are met by one manager of each class: a `bdd_manager` with the order 2, 0, 1, an `mdd_manager<3>`, an
`imdd_manager` and an `ifmdd_manager<3>` with domains 2, 3, 2. -/
example : Builds (bddManager (someEnv true) 3 100 none [2, 0, 1]) bdd3 :=
  C43_bdd_partial (someEnv true) (shipped 2) (by decide) ⟨by decide, nofun⟩ (.inr (by decide))

example : ∃ P, P.order = [0, 1, 2] ∧ P.c.extra = 7 ∧ Builds (mddManager (someEnv true) 3 3 100 (some 7) []) P :=
  ⟨_, rfl, rfl, C43_mdd_partial (someEnv true) (shipped 3) (by decide) (by decide) ⟨by decide, fun k h => by cases h; decide⟩
    (.inl rfl)⟩

example : ∃ P, P.c.dom 1 = 3 ∧ Builds (imddManager (someEnv false) 3 100 none [2, 3, 2] [1, 0, 2]) P :=
  ⟨_, rfl, C43_imdd_partial (someEnv false) (shipped 3) rfl (by decide) (by decide) ⟨by decide, nofun⟩ (.inr (by decide))⟩

example : ∃ P, P.c.dom 1 = 3 ∧ Builds (ifmddManager (someEnv true) 3 3 100 none [2, 3, 2] []) P :=
  ⟨_, rfl, C43_ifmdd_partial (someEnv true) (shipped 3) rfl (by decide) (by decide) ⟨by decide, nofun⟩ (.inl rfl)⟩

/-- The hypotheses of `C43_domains` are met. -/
example : imddManager (someEnv true) 3 100 none [2, 3] [] = .error .assertion ∧
    ifmddManager (someEnv true) 3 3 100 none [2, 4, 2] [] = .error .assertion :=
  ⟨(C43_domains (M := 3) (someEnv true) rfl).1 (by decide),
    (C43_domains (someEnv true) rfl).2 (.inr ⟨4, by decide, by decide⟩)⟩

end Properties
end Teddy
