import Verif.Demo
import Verif.Proofs.Queens

/-!
# Counting with many variables, and the n-queens example
-/

namespace Teddy
namespace Properties

open SM Spec Queens

variable {P : Setup} {w : World} {σ : SState}

/-! ### C08 how many variables are too many -/

/-- `satisfy_count(v, d)` is the number of assignments on which `d` has value `v` whenever this number fits the
result type, and the domains of the variables without influence on some cofactor of the function have a product that
fits, too.  The total number of assignments need not fit.  (Examples: eight queens, below.) -/
theorem C08_wide_partial (hP : P.OK) (h : Reachable P w σ) (hclean : σ.clean = true) {a : Nat} {f : Asg → Int}
    (ha : σ.Has a f) {v : Int} (hv : ∀ m, P.c.fixedDom = some m → P.c.asserts = true → v < m)
    (hs : ∀ y i j, InDomain P.c.n P.c.dom y → i ≤ j → j ≤ P.c.n → Skips P.c.n P.c.dom σ.order f y i j →
      ProdFits P.c.fixedDom (((σ.order.take j).drop i).map P.c.dom))
    (hn : countValue P.c.n P.c.dom f v ≤ 9223372036854775807) :
    exec P.c (.satisfyCount v a) w = .ok (.int (countValue P.c.n P.c.dom f v : Nat), w) :=
  count_fits hP h hclean ha hv hs hn

/-- **C08.** In a `bdd_manager`, `satisfy_count` shifts by 64 or more whenever some cofactor of the function does not
depend on 64 consecutive variables of the order, however small the answer is.  (Examples: nine queens, below.) -/
theorem C08_violated_wide (hP : P.OK) (h : Reachable P w σ) (hclean : σ.clean = true) (hcan : σ.canon = true)
    (h2 : P.c.fixedDom = some 2) {a : Nat} {f : Asg → Int} (ha : σ.Has a f) {v : Int}
    (hv : ∀ m, P.c.fixedDom = some m → P.c.asserts = true → v < m)
    {y : Asg} (hy : InDomain P.c.n P.c.dom y) {i j : Nat} (hij : i + 64 ≤ j) (hj : j ≤ P.c.n)
    (hs : Skips P.c.n P.c.dom σ.order f y i j) : exec P.c (.satisfyCount v a) w = .error .overflow :=
  count_overflow hP h hclean hcan h2 ha hv hy hij hj hs

/-! ### C62 n queens -/

/-- The manager of the example: `bdd_manager(n * n, pool)` with the default order. -/
structure QueensManager (P : Setup) (n : Nat) : Prop where
  ok : P.OK
  vars : P.c.n = n * n
  dom : ∀ i, P.c.dom i = 2
  fixed : P.c.fixedDom = some 2
  order : P.order = List.range (n * n)
  ops : P.Γ = shipped 2

theorem QueensManager.binary {n : Nat} (h : QueensManager P n) : Binary P :=
  ⟨fun i _ => h.dom i, h.fixed, by rw [h.ops]; rfl, by rw [h.ops]; rfl⟩

theorem QueensManager.solve {n : Nat} (h : QueensManager P n) {m : Mgr}
    (hm : construct P.c P.pool P.order = .ok m) :
    Ok (Queens.solve P.c n) ⟨m, []⟩ (fun r w' => ∃ σ', Reachable P w' σ' ∧ σ'.order = List.range (n * n) ∧
      σ'.canon = true ∧ σ'.clean = true ∧ Queens.Holds P σ' r (IsSolution n)) := by
  refine (solve_ok h.ok h.binary h.vars (by have := h.ok.pool; omega) (.init hm)).mono ?_
  rintro r w' ⟨σ', h1, h2, h3, h4, h5⟩
  refine ⟨σ', h1, by rw [h2, h.order], h3, h4, h5.congr fun x hx => ?_⟩
  refine raw_iff fun i hi => ?_
  have := hx i (by rw [h.vars]; exact hi)
  rwa [h.dom] at this

open Classical in
/-- For any number of queens the program ends, and the diagram it builds evaluates to 1 on exactly the boards of the
solutions. -/
theorem C62_diagram {n : Nat} (h : QueensManager P n) {m : Mgr} (hm : construct P.c P.pool P.order = .ok m) :
    ∃ r w', Queens.solve P.c n ⟨m, []⟩ = .ok (r, w') ∧
      Denotes P w' r (fun x => if IsSolution n x then 1 else 0) := by
  obtain ⟨r, w', e, σ', h1, -, -, -, f, h2, h3⟩ := h.solve hm
  refine ⟨r, w', e, ?_⟩
  intro x hx
  obtain ⟨h4, h5⟩ := h3 x hx
  rw [(reachable_rel h.ok h1).denotes h2 x hx]
  congr 3
  dsimp only
  split
  · rename_i hs; exact h5.2 hs
  · rename_i hs
    rcases h4 with h4 | h4
    · exact h4
    · exact absurd (h5.1 h4) hs

/-- Up to eight queens, the number of solutions printed is the number of solutions.

Missing for the full property: nine queens and more (`C62_violated`); one queen, for which the manager cannot be made
(`C43_violated_one`). -/
theorem C62_count_partial {n : Nat} (h : QueensManager P n) (hn : n ≤ 8) {m : Mgr}
    (hm : construct P.c P.pool P.order = .ok m) :
    ∃ k w', report P.c n ⟨m, []⟩ = .ok ((.nat k, .int (solutions n)), w') := by
  obtain ⟨r, w', e, σ', h1, h2, h3, h4, f, h5, h6⟩ := h.solve hm
  have hv : ∀ m, P.c.fixedDom = some m → P.c.asserts = true → (1 : Int) < m :=
    fun m hm _ => by rw [h.fixed] at hm; cases hm; decide
  obtain ⟨o, e2, k, rfl, -⟩ := asks (k := .nodeCountOf r) h.ok h1 ⟨h4, f, h5⟩ rfl
  have hcv : countValue P.c.n P.c.dom f 1 = solutions n := by
    rw [h.vars]
    rw [h.vars] at h6
    exact solutions_perm n f (fun i _ => h.dom i) fun x hx => (h6 x hx).2
  have e3 : exec P.c (.satisfyCount 1 r) w' = .ok (.int (solutions n), w') := by
    rw [← hcv]
    refine C08_wide_partial h.ok h1 h4 h5 hv ?_ ?_
    · intro y i j hy hij hj hs
      rw [h2] at hs ⊢
      unfold ProdFits
      rw [h.fixed]
      rw [h.vars] at hj
      simp only [if_true, List.length_map, List.length_drop, List.length_take, List.length_range]
      by_cases h8 : n = 8
      · subst h8
        rw [h.vars] at hs hy
        have := narrow (fun i _ => h.dom i) (fun x hx => h6 x (by rw [h.vars]; exact hx)) hy hij hj hs
        omega
      · have : n * n ≤ 7 * 7 := Nat.mul_le_mul (by omega) (by omega)
        omega
    · rw [hcv]
      refine (solutions_le n).trans ?_
      interval_cases n <;> norm_num
  refine ⟨k, w', ?_⟩
  unfold report
  rw [bind_ok e, bind_ok e2, bind_ok e3]
  rfl

/-- **C62.** From nine queens on the program does not print the number of solutions: `satisfy_count` shifts by more
than 63. -/
theorem C62_violated {n : Nat} (h : QueensManager P n) (hn : 9 ≤ n) {m : Mgr}
    (hm : construct P.c P.pool P.order = .ok m) : report P.c n ⟨m, []⟩ = .error .overflow := by
  obtain ⟨r, w', e, σ', h1, h2, h3, h4, f, h5, h6⟩ := h.solve hm
  have hv : ∀ m, P.c.fixedDom = some m → P.c.asserts = true → (1 : Int) < m :=
    fun m hm _ => by rw [h.fixed] at hm; cases hm; decide
  obtain ⟨o, e2, k, rfl, -⟩ := asks (k := .nodeCountOf r) h.ok h1 ⟨h4, f, h5⟩ rfl
  have e3 : exec P.c (.satisfyCount 1 r) w' = .error .overflow := by
    refine C08_violated_wide (y := fun _ => 0) (i := n) (j := n * n) h.ok h1 h4 h3 h.fixed h5 hv ?_ ?_ ?_ ?_
    · intro i _
      rw [h.dom]; exact Nat.two_pos
    · have : 9 * n ≤ n * n := Nat.mul_le_mul_right n hn
      omega
    · rw [h.vars]
    · rw [h2, h.vars]
      rw [h.vars] at h6
      exact wide hn (fun i _ => h.dom i) h6
  unfold report
  rw [bind_ok e, bind_ok e2, bind_run, e3]

/-- The manager of the example. -/
def queens (n : Nat) : Setup where
  c := { n := n * n, dom := fun _ => 2, fixedDom := some 2, asserts := false, extra := 500000
         hash := List.sum, chash := fun a b d => a + b + d, addr := id }
  pool := 1000000
  order := List.range (n * n)
  Γ := shipped 2

theorem queens_manager {n : Nat} (hn : 2 ≤ n) : QueensManager (queens n) n where
  ok := {
    cfg := ⟨fun _ _ => Nat.two_pos, fun m h i _ => by cases h; rfl⟩
    vars := (by decide : 2 ≤ 2 * 2).trans (Nat.mul_le_mul hn hn)
    perm := List.Perm.refl _
    pool := (by decide : 5 ≤ 1000000)
    extra := (by decide : 0 < 500000) }
  vars := rfl
  dom _ := rfl
  fixed := rfl
  order := rfl
  ops := rfl

theorem queens_start {n : Nat} (hn : 2 ≤ n) :
    ∃ m, construct (queens n).c (queens n).pool (queens n).order = .ok m := by
  obtain ⟨m, e, -⟩ := construct_sim (queens_manager hn).ok
  exact ⟨m, e⟩

theorem solutions_five : solutions 5 = 10 := by decide +kernel

/-- Five queens have ten solutions. -/
example : ∃ m, construct (queens 5).c (queens 5).pool (queens 5).order = .ok m ∧
    ∃ k w', report (queens 5).c 5 ⟨m, []⟩ = .ok ((.nat k, .int 10), w') := by
  obtain ⟨m, e⟩ := queens_start (n := 5) (by decide)
  obtain ⟨k, w', e'⟩ := C62_count_partial (queens_manager (n := 5) (by decide)) (by decide) e
  rw [solutions_five] at e'
  exact ⟨m, e, k, w', e'⟩

/-- Eight queens. -/
example : ∃ m, construct (queens 8).c (queens 8).pool (queens 8).order = .ok m ∧
    ∃ k w', report (queens 8).c 8 ⟨m, []⟩ = .ok ((.nat k, .int (solutions 8)), w') := by
  obtain ⟨m, e⟩ := queens_start (n := 8) (by decide)
  exact ⟨m, e, C62_count_partial (queens_manager (n := 8) (by decide)) (by decide) e⟩

/-- Nine queens. -/
example : ∃ m, construct (queens 9).c (queens 9).pool (queens 9).order = .ok m ∧
    report (queens 9).c 9 ⟨m, []⟩ = .error .overflow := by
  obtain ⟨m, e⟩ := queens_start (n := 9) (by decide)
  exact ⟨m, e, C62_violated (queens_manager (by decide)) (by decide) e⟩

/-- Five queens: the diagram. -/
example : ∃ m r w', construct (queens 5).c (queens 5).pool (queens 5).order = .ok m ∧
    Queens.solve (queens 5).c 5 ⟨m, []⟩ = .ok (r, w') := by
  obtain ⟨m, e⟩ := queens_start (n := 5) (by decide)
  obtain ⟨r, w', e', -⟩ := C62_diagram (queens_manager (n := 5) (by decide)) e
  exact ⟨m, r, w', e, e'⟩

end Properties
end Teddy
