import Verif.Demo
import Verif.Proofs.Cost
import Verif.Proofs.Sizes

/-! The parity of all variables: it can be made in every manager of binary variables and its diagram is small. -/

namespace Teddy

open SM Spec

/-- An `imdd_manager` of `n` binary variables in the order 0, 1, …. -/
def imddN (n : Nat) : Setup where
  c := { n := n, dom := fun _ => 2, fixedDom := none, asserts := true, extra := 1000
         hash := List.sum, chash := fun a b d => a + b + d, addr := id }
  pool := 1000
  order := List.range n
  Γ := shipped 2

theorem imddN_ok {n : Nat} (hn : 2 ≤ n) : (imddN n).OK where
  cfg := ⟨fun _ _ => Nat.two_pos, fun m h => by cases h⟩
  vars := hn
  perm := List.Perm.refl _
  pool := show 5 ≤ 1000 by decide
  extra := show 0 < 1000 by decide

/-- The parity of the variables `vars`. -/
def parity (vars : List Nat) : Asg → Int := fun x => ((vars.map x).sum % 2 : Nat)

theorem xor_bits {a b : Nat} (ha : a < 2) (hb : b < 2) : Op.XOR.val a b = ((a + b) % 2 : Nat) := by
  have : ∀ a ∈ [0, 1], ∀ b ∈ [0, 1], Op.XOR.val (a : Nat) (b : Nat) = ((a + b) % 2 : Nat) := by decide +kernel
  exact this a (by simp; omega) b (by simp; omega)

/-- The parity of the first variables is made with `variable` and `apply<XOR>`. -/
theorem parity_reachable {n : Nat} (hn : 2 ≤ n) : ∀ k, k < n → ∃ σ a f, (∃ w, Reachable (imddN n) w σ) ∧
    σ.order = List.range n ∧ σ.canon = true ∧ σ.cacheOK = true ∧ σ.clean = true ∧ σ.auto = false ∧ σ.Has a f ∧
    ∀ x, InDomain n (fun _ => 2) x → f x = parity (List.range (k + 1)) x := by
  have ok := imddN_ok hn
  have h1 : TermOK (imddN n).c 1 := ⟨by decide, fun _ m h => by cases h⟩
  intro k
  induction k with
  | zero =>
      intro hk
      refine ⟨_, 0, fun x => (x 0 : Int), Reachable.build ok (Reachable.start ok) (.variableD 0) (show 0 < n by omega)
        (fun _ => rfl), rfl, rfl, rfl, rfl, rfl, rfl, fun x hx => ?_⟩
      have : x 0 < 2 := hx 0 hk
      show (x 0 : Int) = ((x 0 + 0) % 2 : Nat)
      omega
  | succ k ih =>
      intro hk
      obtain ⟨σ, a, f, hw, ho, hcan, hcache, hclean, hauto, hf, hp⟩ := ih (by omega)
      have hw1 := Reachable.build ok hw (.variableD (k + 1)) (show k + 1 < n from hk) (fun _ => rfl)
      let σ1 : SState := { σ with slots := σ.slots ++ [some fun x => (x (k + 1) : Int)] }
      have hlt := hf.lt
      have ha1 : σ1.Has a f := by
        unfold SState.Has
        show (σ.slots ++ _)[a]? = _
        rw [List.getElem?_append_left hlt]
        exact hf
      have hb1 : σ1.Has σ.slots.length (fun x => (x (k + 1) : Int)) := by
        unfold SState.Has
        show (σ.slots ++ _)[_]? = _
        simp
      have hbits : Bits (Range (imddN n).c f) := by
        rintro v ⟨x, hx, rfl⟩
        rw [hp x hx]
        unfold parity
        omega
      have hw2 := Reachable.build ok (σ := σ1) hw1 (.apply Op.XOR a σ.slots.length)
        ⟨hcache, rfl, f, fun x => (x (k + 1) : Int), ha1, hb1,
          opOK_XOR h1 hbits (bits_x (P := imddN n) (i := k + 1) hk rfl)⟩ (fun _ => rfl) (fun _ => hauto)
      refine ⟨_, σ1.slots.length, fun x => Op.XOR.val (f x) (x (k + 1)), hw2, ho, hcan, hcache, hclean, hauto, ?_, ?_⟩
      · unfold SState.Has
        show (σ1.slots ++ [some fun x => Op.XOR.val (σ1.fn a x) (σ1.fn σ.slots.length x)])[σ1.slots.length]? = _
        rw [ha1.fn, hb1.fn]
        simp
      · intro x hx
        have hx1 : x (k + 1) < 2 := hx (k + 1) hk
        dsimp only
        rw [hp x hx]
        unfold parity
        rw [xor_bits (Nat.mod_lt _ (by decide)) hx1, List.range_succ (n := k + 1), List.map_append, List.sum_append]
        simp only [List.map_cons, List.map_nil, List.sum_cons, List.sum_nil]
        omega

/-- Fixing the first variables leaves the parity of the others, or its negation. -/
theorem parity_subfunctions {n k : Nat} {dom : Nat → Nat}
    (h : CountFuns n dom (Subfunction n dom (List.range n) (parity (List.range n))) k) : k ≤ 2 * (n + 1) := by
  have := h.le ((List.range (n + 1)).flatMap fun l => (List.range 2).map fun b => fun x : Asg =>
    (((b + ((List.range' l (n - l)).map x).sum) % 2 : Nat) : Int)) ?_
  · refine this.trans ?_
    simp [Nat.mul_comm]
  · rintro _ ⟨l, y, hy, rfl⟩
    refine ⟨_, List.mem_flatMap.2 ⟨min l n, List.mem_range.2 (by omega), List.mem_map.2
      ⟨((List.range (min l n)).map y).sum % 2, List.mem_range.2 (Nat.mod_lt _ (by decide)), rfl⟩⟩, fun x _ => ?_⟩
    have hsplit : List.range n = List.range (min l n) ++ List.range' (min l n) (n - min l n) := by
      have := List.range'_append_1 (s := 0) (m := min l n) (n := n - min l n)
      rw [Nat.zero_add, show min l n + (n - min l n) = n by omega] at this
      rw [List.range_eq_range', List.range_eq_range', this]
    have htake : (List.range n).take l = List.range (min l n) := List.take_range
    have e1 : (List.range (min l n)).map (fixFirst (List.range n) l y x) = (List.range (min l n)).map y := by
      refine List.map_congr_left fun i hi => ?_
      simp only [fixFirst, htake, hi, if_true]
    have e2 : (List.range' (min l n) (n - min l n)).map (fixFirst (List.range n) l y x) =
        (List.range' (min l n) (n - min l n)).map x := by
      refine List.map_congr_left fun i hi => ?_
      have : i ∉ List.range (min l n) := by
        simp only [List.mem_range'_1, List.mem_range] at hi ⊢
        omega
      simp only [fixFirst, htake, this, if_false]
    show ((((List.range n).map (fixFirst (List.range n) l y x)).sum % 2 : Nat) : Int) = _
    rw [congrArg (List.map (fixFirst (List.range n) l y x)) hsplit, List.map_append, List.sum_append, e1, e2]
    omega

end Teddy
