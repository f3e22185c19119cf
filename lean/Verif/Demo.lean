import Verif.Proofs.Observe

/-!
# Two concrete managers

Used by the examples that show the hypotheses of the property theorems to be satisfiable.
-/

namespace Teddy

open SM Spec

/-- The shipped operation with the given id; `MAXB` with bound `M`. -/
def shipped (M : Nat) : Nat → BinOp
  | 1 => Op.AND | 2 => Op.OR | 3 => Op.XOR | 4 => Op.PI_CONJ | 5 => Op.NAND | 6 => Op.NOR
  | 7 => Op.XNOR | 8 => Op.EQUAL_TO | 9 => Op.NOT_EQUAL_TO | 10 => Op.LESS | 11 => Op.LESS_EQUAL
  | 12 => Op.GREATER | 13 => Op.GREATER_EQUAL | 14 => Op.MIN | 15 => Op.MAX | 16 => Op.MAXB M
  | 17 => Op.PLUSwrap M | 18 => Op.MULTIPLIESwrap M | _ => Op.IMPLIES

/-- A `bdd_manager` of three variables, order 2, 0, 1, assertions enabled. -/
def bdd3 : Setup where
  c := { n := 3, dom := fun _ => 2, fixedDom := some 2, asserts := true, extra := 50
         hash := List.sum, chash := fun a b d => a + b + d, addr := id }
  pool := 100
  order := [2, 0, 1]
  Γ := shipped 2

/-- An `imdd_manager` of three variables with domains 2, 3, 2. -/
def mdd3 : Setup where
  c := { n := 3, dom := fun i => if i = 1 then 3 else 2, fixedDom := none, asserts := false
         extra := 50, hash := List.sum, chash := fun a b d => a + b + d, addr := id }
  pool := 100
  order := [0, 1, 2]
  Γ := shipped 3

theorem bdd3_ok : bdd3.OK where
  cfg := ⟨fun _ _ => Nat.two_pos, fun m h i _ => by cases h; rfl⟩
  vars := by decide
  perm := by decide
  pool := by decide
  extra := by decide

theorem mdd3_ok : mdd3.OK where
  cfg := ⟨fun i _ => by simp only [mdd3]; split <;> decide, fun m h => by cases h⟩
  vars := by decide
  perm := by decide
  pool := by decide
  extra := by decide

theorem Reachable.start {P : Setup} (hP : P.OK) : ∃ w, Reachable P w (SState.init P) := by
  obtain ⟨m, e, _⟩ := construct_sim hP
  exact ⟨_, .init e⟩

/-- One more call. -/
theorem Reachable.call {P : Setup} {σ : SState} (hP : P.OK) (h : ∃ w, Reachable P w σ) (k : Call)
    (hk : Adm P σ k) (ha : k.defers = true → σ.auto = false := by no_defer) :
    ∃ o w, Reachable P w (next P.c σ k o) := by
  obtain ⟨w, h⟩ := h
  obtain ⟨o, w', e, _⟩ := sim (reachable_rel hP h) hk ha
  exact ⟨o, w', .step h hk e ha⟩

/-- A new diagram. -/
theorem Reachable.build {P : Setup} {σ : SState} (hP : P.OK) (h : ∃ w, Reachable P w σ) (k : Call)
    (hk : Adm P σ k) {σ' : SState} (hn : ∀ o, next P.c σ k o = σ')
    (ha : k.defers = true → σ.auto = false := by no_defer) : ∃ w, Reachable P w σ' := by
  obtain ⟨o, w, h⟩ := Reachable.call hP h k hk ha
  rw [hn o] at h
  exact ⟨w, h⟩

theorem bits_x {P : Setup} {i : Nat} (hi : i < P.c.n) (h2 : P.c.dom i = 2) :
    Bits (Range P.c fun x => (x i : Int)) := by
  rintro a ⟨x, hx, rfl⟩
  have := hx i hi
  rw [h2] at this
  dsimp only
  omega

/-- The state of `bdd3_world`: handles 0, 1, 2 hold x0, x1 and x0 ∧ x1. -/
def bdd3State : SState where
  slots := [some fun x => (x 0 : Int), some fun x => (x 1 : Int),
    some fun x => Op.AND.val (x 0) (x 1)]
  order := [2, 0, 1]
  canon := true
  cacheOK := true
  clean := true
  auto := false

theorem term1_bdd3 : TermOK bdd3.c 1 := ⟨by decide, fun _ m h => by cases h; decide⟩

/-- After `variable(0)`, `variable(1)`, `apply<AND>`. -/
theorem bdd3_world : ∃ w, Reachable bdd3 w bdd3State := by
  refine Reachable.build bdd3_ok (Reachable.build bdd3_ok (Reachable.build bdd3_ok
    (Reachable.start bdd3_ok) (.variableD 0) (show 0 < 3 by decide) (fun _ => rfl))
    (.variableD 1) (show 1 < 3 by decide) (fun _ => rfl)) (.apply Op.AND 0 1) ?_ (fun _ => rfl)
  refine ⟨rfl, rfl, fun x => (x 0 : Int), fun x => (x 1 : Int), rfl, rfl, ?_⟩
  exact opOK_AND ((bits_x (by decide) rfl).vals term1_bdd3) ((bits_x (by decide) rfl).vals term1_bdd3)

theorem bdd3_bits : ∀ g ∈ [fun x : Asg => (x 0 : Int), fun x => (x 1 : Int),
    fun x => Op.AND.val (x 0) (x 1)], ∀ x, InDomain bdd3.c.n bdd3.c.dom x → g x = 0 ∨ g x = 1 := by
  intro g hg x hx
  have h0 : x 0 < 2 := hx 0 (by decide)
  have h1 : x 1 < 2 := hx 1 (by decide)
  simp only [List.mem_cons, List.not_mem_nil, or_false] at hg
  rcases hg with rfl | rfl | rfl
  · dsimp only; omega
  · dsimp only; omega
  · exact and_closed _ _ (by omega) (by omega)

/-- The state of `mdd3_world`: handles 0, 1, 2 hold x0, x1 and max(x0, x1). -/
def mdd3State : SState where
  slots := [some fun x => (x 0 : Int), some fun x => (x 1 : Int),
    some fun x => Op.MAX.val (x 0) (x 1)]
  order := [0, 1, 2]
  canon := true
  cacheOK := true
  clean := true
  auto := false

theorem vals_x_mdd3 {i : Nat} (hi : i < 3) : Vals mdd3.c (Range mdd3.c fun x => (x i : Int)) := by
  rintro a ⟨x, hx, rfl⟩
  have := hx i hi
  have h3 : mdd3.c.dom i ≤ 3 := by simp only [mdd3]; split <;> decide
  refine ⟨⟨by dsimp only; omega, fun h => by cases h⟩, ?_⟩
  rw [nd_val]; dsimp only; omega

/-- After `variable(0)`, `variable(1)`, `apply<MAX>`. -/
theorem mdd3_world : ∃ w, Reachable mdd3 w mdd3State := by
  refine Reachable.build mdd3_ok (Reachable.build mdd3_ok (Reachable.build mdd3_ok
    (Reachable.start mdd3_ok) (.variableD 0) (show 0 < 3 by decide) (fun _ => rfl))
    (.variableD 1) (show 1 < 3 by decide) (fun _ => rfl)) (.apply Op.MAX 0 1) ?_ (fun _ => rfl)
  refine ⟨rfl, rfl, fun x => (x 0 : Int), fun x => (x 1 : Int), rfl, rfl, ?_⟩
  exact opOK_MAX (vals_x_mdd3 (by decide)) (vals_x_mdd3 (by decide))

end Teddy
