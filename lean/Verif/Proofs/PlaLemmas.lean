import Verif.Pla

namespace Teddy
namespace Pla

/-! ### Cubes -/

/-- The vector has room for all positions. -/
def Cube.WF (c : Cube) (n : Nat) : Prop := c.size = n ∧ c.values.length = n / 4 + 1

/-- The four fields of a byte. -/
def Byte.field (b : Byte) : Nat → Fin 4
  | 0 => b.b0
  | 1 => b.b1
  | 2 => b.b2
  | _ => b.b3

/-- Replace a field. -/
def Byte.put (b : Byte) (k : Nat) (v : Fin 4) : Byte :=
  match k with
  | 0 => { b with b0 := v }
  | 1 => { b with b1 := v }
  | 2 => { b with b2 := v }
  | _ => { b with b3 := v }

theorem Byte.field_put (b : Byte) {j k : Nat} (hj : j < 4) (hk : k < 4) (v : Fin 4) :
    (b.put k v).field j = if j = k then v else b.field j := by
  match j, k, hj, hk with
  | 0, 0, _, _ | 0, 1, _, _ | 0, 2, _, _ | 0, 3, _, _ | 1, 0, _, _ | 1, 1, _, _ | 1, 2, _, _ |
    1, 3, _, _ | 2, 0, _, _ | 2, 1, _, _ | 2, 2, _, _ | 2, 3, _, _ | 3, 0, _, _ | 3, 1, _, _ |
    3, 2, _, _ | 3, 3, _, _ => rfl

/-- The value at a position. -/
def Cube.at (c : Cube) (i : Nat) : Fin 4 :=
  match c.values[i / 4]? with
  | some b => b.field (i % 4)
  | none => 0

theorem tdiv_nat (i : Nat) : (i : Int).tdiv 4 = (i / 4 : Nat) := by
  rw [Int.tdiv_eq_ediv_of_nonneg (by omega)]; omega

theorem tmod_nat (i : Nat) : (i : Int).tmod 4 = (i % 4 : Nat) := by
  rw [Int.tmod_eq_emod_of_nonneg (by omega)]; omega

variable {A : Bool} {c : Cube} {n : Nat}

theorem mk_ok (n : Nat) : ∃ c, Cube.mk' n = .ok c ∧ c.WF n ∧ ∀ i, c.at i = 0 := by
  unfold Cube.mk'
  rw [tdiv_nat, if_neg (by omega)]
  refine ⟨_, rfl, ⟨rfl, ?_⟩, ?_⟩
  · simp; omega
  · intro i
    unfold Cube.at
    simp only
    split
    · rename_i b hb
      have := List.mem_of_getElem? hb
      rw [List.mem_replicate] at this
      rw [this.2]
      have : i % 4 < 4 := Nat.mod_lt _ (by decide)
      match i % 4, this with
      | 0, _ | 1, _ | 2, _ | 3, _ => rfl
    · rfl

theorem byteAt_ok (h : c.WF n) {i : Nat} (hi : i < n) :
    ∃ b, c.byteAt A i = .ok b ∧ c.values[i / 4]? = some b := by
  have hl : i / 4 < c.values.length := by rw [h.2]; omega
  refine ⟨c.values[i / 4], ?_, List.getElem?_eq_getElem hl⟩
  unfold Cube.byteAt
  rw [tdiv_nat, if_pos (by omega), Int.toNat_natCast, List.getElem?_eq_getElem hl]

theorem get_ok (h : c.WF n) {i : Nat} (hi : i < n) : c.get A i = .ok (c.at i).val := by
  obtain ⟨b, e, hb⟩ := byteAt_ok (A := A) h hi
  unfold Cube.get Cube.at
  rw [e, hb, tmod_nat]
  have : i % 4 < 4 := Nat.mod_lt _ (by decide)
  match i % 4, this with
  | 0, _ | 1, _ | 2, _ | 3, _ => rfl

/-- The values that may be stored. -/
def Storable (A : Bool) (v : Int) : Prop := 0 ≤ v ∧ v < 4 ∧ (A = true → v ≠ 2)

theorem set_ok (h : c.WF n) {i : Nat} (hi : i < n) {v : Int} (hv : Storable A v) :
    ∃ c', c.set A i v = .ok c' ∧ c'.WF n ∧
      ∀ j, j < n → c'.at j = if j = i then low2 v else c.at j := by
  obtain ⟨b, e, hb⟩ := byteAt_ok (A := A) h hi
  have hA : (A && !(v == 0 || v == 1 || v == DontCare)) = false := by
    obtain ⟨h0, h1, h2⟩ := hv
    cases A
    · rfl
    · have := h2 rfl
      have : v = 0 ∨ v = 1 ∨ v = 3 := by omega
      rcases this with rfl | rfl | rfl <;> rfl
  refine ⟨{ c with values := c.values.set (i / 4) (b.put (i % 4) (low2 v)) }, ?_, ⟨h.1, ?_⟩, ?_⟩
  · unfold Cube.set
    simp only [e, hA, tmod_nat, tdiv_nat, Int.toNat_natCast]
    have : i % 4 < 4 := Nat.mod_lt _ (by decide)
    match i % 4, this with
    | 0, _ | 1, _ | 2, _ | 3, _ => rfl
  · simpa using h.2
  · intro j hj
    unfold Cube.at
    simp only [List.getElem?_set]
    have hl : i / 4 < c.values.length := by rw [h.2]; omega
    have hjm : j % 4 < 4 := Nat.mod_lt _ (by decide)
    have him : i % 4 < 4 := Nat.mod_lt _ (by decide)
    by_cases e1 : i / 4 = j / 4
    · rw [if_pos e1, if_pos hl, ← e1, hb]
      simp only
      rw [Byte.field_put _ hjm him]
      by_cases e2 : j = i
      · subst e2; simp
      · rw [if_neg e2, if_neg (by omega)]
    · rw [if_neg e1, if_neg (by rintro rfl; exact e1 rfl)]

theorem low2_val {v : Int} (h0 : 0 ≤ v) (h1 : v < 4) : ((low2 v).val : Int) = v := by
  unfold low2
  simp only
  omega

end Pla
end Teddy
