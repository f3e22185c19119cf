import Verif.SeriesParallelSpec
import Verif.Proofs.Pivot
import Verif.Proofs.Enum

/-!
# Derivatives of series-parallel systems are layered, and what their downward closures are
-/

namespace Teddy

open Spec

variable {n : Nat} {dom : Nat → Nat} {pr : Nat → Nat → Rat}

/-- `φ` is a conjunction of a monotone condition on the variables in `S` and an antitone one on the others. -/
structure Splits (φ : Asg → Prop) (S : Nat → Prop) (A B : Asg → Prop) : Prop where
  iff : ∀ x, φ x ↔ A x ∧ B x
  up : ∀ x y, (∀ j, S j → x j ≤ y j) → A x → A y
  down : ∀ x y, (∀ j, ¬ S j → y j ≤ x j) → B x → B y

theorem Splits.layered {f : Asg → Int} {S : Nat → Prop} {A B : Asg → Prop} (h : Splits (fun x => f x = 1) S A B)
    (order : List Nat) : Layered n dom order f := by
  intro l i y a b _ _ hab hb
  by_cases hs : S i
  · by_cases hz : ∀ z, InDomain n dom z → f (fixFirst order l y (upd z i a)) ≠ 1
    · exact .inl hz
    · right
      push Not at hz
      obtain ⟨z0, hz0, e0⟩ := hz
      intro z hz e
      classical
      refine ⟨fun j => if S j then max (z j) (z0 j) else z j, fun j hj => ?_, fun j _ => ?_, ?_⟩
      · dsimp only
        split
        · exact max_lt (hz j hj) (hz0 j hj)
        · exact hz j hj
      · dsimp only
        split
        · exact le_max_left _ _
        · exact Nat.le_refl _
      · refine (h.iff _).2 ⟨h.up _ _ (fun j hj => ?_) ((h.iff _).1 e0).1, h.down _ _ (fun j hj => ?_) ((h.iff _).1 e).2⟩
        · simp only [fixFirst, upd_apply]
          split
          · exact Nat.le_refl _
          · split
            · exact Nat.le_refl _
            · exact le_max_right _ _
        · have hne : j ≠ i := by rintro rfl; exact hj hs
          simp only [fixFirst, upd_apply, if_neg hne, if_neg hj]
          exact Nat.le_refl _
  · right
    intro z hz e
    refine ⟨z, hz, fun _ _ => Nat.le_refl _, ?_⟩
    obtain ⟨h1, h2⟩ := (h.iff _).1 e
    refine (h.iff _).2 ⟨h.up _ _ (fun j hj => ?_) h1, h.down _ _ (fun j _ => ?_) h2⟩
    · have hne : j ≠ i := by rintro rfl; exact hs hj
      simp only [fixFirst, upd_apply, if_neg hne]
      exact Nat.le_refl _
    · simp only [fixFirst, upd_apply]
      split
      · exact Nat.le_refl _
      · split
        · omega
        · exact Nat.le_refl _

namespace Spec.Structure

theorem value_mono {x y : Asg} : ∀ {e : Structure}, (∀ j ∈ e.components, x j ≤ y j) → e.value x ≤ e.value y
  | component i, h => by
      have := h i (by simp [components])
      simp only [value]
      omega
  | series a b, h => by
      simp only [components, List.mem_append] at h
      exact min_le_min (value_mono fun j hj => h j (.inl hj)) (value_mono fun j hj => h j (.inr hj))
  | parallel a b, h => by
      simp only [components, List.mem_append] at h
      exact max_le_max (value_mono fun j hj => h j (.inl hj)) (value_mono fun j hj => h j (.inr hj))

theorem value_congr {x y : Asg} {e : Structure} (h : ∀ j ∈ e.components, x j = y j) : e.value x = e.value y :=
  le_antisymm (value_mono fun j hj => (h j hj).le) (value_mono fun j hj => (h j hj).ge)

theorem value_upd {x : Asg} {e : Structure} {i k : Nat} (hi : i ∉ e.components) : e.value (upd x i k) = e.value x :=
  value_congr fun j hj => by rw [upd_apply, if_neg (by rintro rfl; exact hi hj)]

theorem value_zero : ∀ {e : Structure}, e.value (fun _ => 0) = 0
  | component _ => rfl
  | series a b => by simp [value, value_zero (e := a), value_zero (e := b)]
  | parallel a b => by simp [value, value_zero (e := a), value_zero (e := b)]

theorem value_nonneg {x : Asg} {e : Structure} : 0 ≤ e.value x :=
  (value_zero (e := e)).ge.trans (value_mono fun _ _ => Nat.zero_le _)

/-- The derivative of a system in which no component occurs twice splits; only components of the system matter. -/
theorem splits (i u v : Nat) (s : Int) : ∀ {e : Structure}, e.components.Nodup →
    ∃ (S : Nat → Prop) (A B : Asg → Prop),
      (∀ x, (s ≤ e.value (upd x i u) ∧ e.value (upd x i v) < s) ↔ A x ∧ B x) ∧
      (∀ x y, (∀ j ∈ e.components, S j → x j ≤ y j) → A x → A y) ∧
      (∀ x y, (∀ j ∈ e.components, ¬ S j → y j ≤ x j) → B x → B y)
  | component k, _ => by
      by_cases hk : k = i
      · subst hk
        refine ⟨fun _ => True, fun _ => s ≤ (u : Int) ∧ (v : Int) < s, fun _ => True, fun x => ?_, fun _ _ _ h => h,
          fun _ _ _ h => h⟩
        simp [value, upd_same]
      · refine ⟨fun _ => True, fun _ => False, fun _ => True, fun x => ?_, fun _ _ _ h => h, fun _ _ _ h => h⟩
        simp only [value, upd_apply, if_neg hk, false_and, iff_false]
        omega
  | series a b, h => by
      obtain ⟨ha, hb, hab⟩ := List.nodup_append.1 h
      have side : ∀ {p q : Structure}, (∀ j ∈ p.components, j ∉ q.components) → i ∉ q.components →
          (∃ (S : Nat → Prop) (A B : Asg → Prop),
            (∀ x, (s ≤ p.value (upd x i u) ∧ p.value (upd x i v) < s) ↔ A x ∧ B x) ∧
            (∀ x y, (∀ j ∈ p.components, S j → x j ≤ y j) → A x → A y) ∧
            (∀ x y, (∀ j ∈ p.components, ¬ S j → y j ≤ x j) → B x → B y)) →
          ∃ (S : Nat → Prop) (A B : Asg → Prop),
            (∀ x, (s ≤ min (p.value (upd x i u)) (q.value (upd x i u)) ∧
              min (p.value (upd x i v)) (q.value (upd x i v)) < s) ↔ A x ∧ B x) ∧
            (∀ x y, (∀ j, j ∈ p.components ∨ j ∈ q.components → S j → x j ≤ y j) → A x → A y) ∧
            (∀ x y, (∀ j, j ∈ p.components ∨ j ∈ q.components → ¬ S j → y j ≤ x j) → B x → B y) := by
        rintro p q hd hi ⟨S, A, B, h1, h2, h3⟩
        refine ⟨fun j => S j ∨ j ∈ q.components, fun x => A x ∧ s ≤ q.value x, B, fun x => ?_, ?_, ?_⟩
        · have := h1 x
          rw [value_upd hi, value_upd hi]
          constructor
          · rintro ⟨h4, h5⟩
            have h6 := le_min_iff.1 h4
            have h7 : p.value (upd x i v) < s := by
              rcases min_lt_iff.1 h5 with h | h
              · exact h
              · omega
            have h8 := this.1 ⟨h6.1, h7⟩
            exact ⟨⟨h8.1, h6.2⟩, h8.2⟩
          · rintro ⟨⟨h4, h5⟩, h6⟩
            have h7 := this.2 ⟨h4, h6⟩
            exact ⟨le_min h7.1 h5, min_lt_iff.2 (.inl h7.2)⟩
        · rintro x y h4 ⟨h5, h6⟩
          exact ⟨h2 x y (fun j hj hs => h4 j (.inl hj) (.inl hs)) h5,
            h6.trans (value_mono fun j hj => h4 j (.inr hj) (.inr hj))⟩
        · intro x y h4
          exact h3 x y fun j hj hs => h4 j (.inl hj) fun h => h.elim hs (hd j hj)
      simp only [components, List.mem_append, value]
      by_cases hi : i ∈ b.components
      · have hi' : i ∉ a.components := fun h => hab i h i hi rfl
        obtain ⟨S, A, B, h1, h2, h3⟩ := side (p := b) (q := a) (fun j hj hj' => hab j hj' j hj rfl) hi' (splits i u v s hb)
        refine ⟨S, A, B, fun x => ?_, fun x y h4 => h2 x y fun j hj => h4 j hj.symm,
          fun x y h4 => h3 x y fun j hj => h4 j hj.symm⟩
        rw [min_comm, min_comm (a.value _)]
        exact h1 x
      · exact side (fun j hj hj' => hab j hj j hj' rfl) hi (splits i u v s ha)
  | parallel a b, h => by
      obtain ⟨ha, hb, hab⟩ := List.nodup_append.1 h
      have side : ∀ {p q : Structure}, (∀ j ∈ p.components, j ∉ q.components) → i ∉ q.components →
          (∃ (S : Nat → Prop) (A B : Asg → Prop),
            (∀ x, (s ≤ p.value (upd x i u) ∧ p.value (upd x i v) < s) ↔ A x ∧ B x) ∧
            (∀ x y, (∀ j ∈ p.components, S j → x j ≤ y j) → A x → A y) ∧
            (∀ x y, (∀ j ∈ p.components, ¬ S j → y j ≤ x j) → B x → B y)) →
          ∃ (S : Nat → Prop) (A B : Asg → Prop),
            (∀ x, (s ≤ max (p.value (upd x i u)) (q.value (upd x i u)) ∧
              max (p.value (upd x i v)) (q.value (upd x i v)) < s) ↔ A x ∧ B x) ∧
            (∀ x y, (∀ j, j ∈ p.components ∨ j ∈ q.components → S j → x j ≤ y j) → A x → A y) ∧
            (∀ x y, (∀ j, j ∈ p.components ∨ j ∈ q.components → ¬ S j → y j ≤ x j) → B x → B y) := by
        rintro p q hd hi ⟨S, A, B, h1, h2, h3⟩
        refine ⟨fun j => S j ∧ j ∉ q.components, A, fun x => B x ∧ q.value x < s, fun x => ?_, ?_, ?_⟩
        · have := h1 x
          rw [value_upd hi, value_upd hi]
          constructor
          · rintro ⟨h4, h5⟩
            have h6 := max_lt_iff.1 h5
            have h7 : s ≤ p.value (upd x i u) := by
              rcases le_max_iff.1 h4 with h | h
              · exact h
              · omega
            have h8 := this.1 ⟨h7, h6.1⟩
            exact ⟨h8.1, h8.2, h6.2⟩
          · rintro ⟨h4, h5, h6⟩
            have h7 := this.2 ⟨h4, h5⟩
            exact ⟨le_max_iff.2 (.inl h7.1), max_lt h7.2 h6⟩
        · intro x y h4
          exact h2 x y fun j hj hs => h4 j (.inl hj) ⟨hs, hd j hj⟩
        · rintro x y h4 ⟨h5, h6⟩
          exact ⟨h3 x y (fun j hj hs => h4 j (.inl hj) fun h => hs h.1) h5,
            (value_mono fun j hj => h4 j (.inr hj) fun h => h.2 hj).trans_lt h6⟩
      simp only [components, List.mem_append, value]
      by_cases hi : i ∈ b.components
      · have hi' : i ∉ a.components := fun h => hab i h i hi rfl
        obtain ⟨S, A, B, h1, h2, h3⟩ := side (p := b) (q := a) (fun j hj hj' => hab j hj' j hj rfl) hi' (splits i u v s hb)
        refine ⟨S, A, B, fun x => ?_, fun x y h4 => h2 x y fun j hj => h4 j hj.symm,
          fun x y h4 => h3 x y fun j hj => h4 j hj.symm⟩
        rw [max_comm, max_comm (a.value _)]
        exact h1 x
      · exact side (fun j hj hj' => hab j hj j hj' rfl) hi (splits i u v s ha)

end Spec.Structure

/-- The derivative of `f` when component `i` goes from `u` to `v`, for state `s`. -/
def drop3 (f : Asg → Int) (s : Int) (i u v : Nat) (x : Asg) : Int :=
  if s ≤ f (upd x i u) ∧ f (upd x i v) < s then 1 else 0

theorem drop3_one {f : Asg → Int} {s : Int} {i u v : Nat} {x : Asg} :
    drop3 f s i u v x = 1 ↔ s ≤ f (upd x i u) ∧ f (upd x i v) < s := by
  unfold drop3
  split <;> simp_all

theorem drop3_upd {f : Asg → Int} {s : Int} {i u v k : Nat} {x : Asg} :
    drop3 f s i u v (upd x i k) = drop3 f s i u v x := by
  simp only [drop3, upd_upd]

theorem Spec.Structure.layered {e : Structure} (h : e.components.Nodup) (s : Int) (i u v : Nat) (order : List Nat) :
    Layered n dom order (drop3 (fun x => e.value x) s i u v) := by
  obtain ⟨S, A, B, h1, h2, h3⟩ := splits i u v s h
  exact Splits.layered (S := S) (A := A) (B := B) ⟨fun x => by rw [drop3_one]; exact h1 x,
    fun x y h => h2 x y fun j _ => h j, fun x y h => h3 x y fun j _ => h j⟩ order

/-! ### Minimal cut vectors of coherent systems -/

/-- Above a vector below `s` there is one that cannot be improved. -/
theorem maximal_below {f : Asg → Int} {s : Int} : ∀ (k : Nat) (y : Asg), InDomain n dom y → f y < s →
    ((List.range n).map fun j => dom j - y j).sum ≤ k →
    ∃ m, InDomain n dom m ∧ (∀ j, y j ≤ m j) ∧ f m < s ∧ ∀ j, j < n → m j + 1 < dom j → s ≤ f (upd m j (m j + 1))
  | k, y, hy, hf, hk => by
      by_cases h : ∀ j, j < n → y j + 1 < dom j → s ≤ f (upd y j (y j + 1))
      · exact ⟨y, hy, fun _ => Nat.le_refl _, hf, h⟩
      · push Not at h
        obtain ⟨j, hj, hlt, hfj⟩ := h
        have hsum : ((List.range n).map fun i => dom i - upd y j (y j + 1) i).sum <
            ((List.range n).map fun i => dom i - y i).sum := by
          refine List.sum_lt_sum _ _ (fun i _ => ?_) ⟨j, List.mem_range.2 hj, ?_⟩
          · simp only [upd_apply]
            split
            · subst_vars; omega
            · exact Nat.le_refl _
          · simp only [upd_same]; omega
        cases k with
        | zero => omega
        | succ k =>
            obtain ⟨m, h1, h2, h3, h4⟩ := maximal_below k (upd y j (y j + 1)) (by
              intro i hi
              simp only [upd_apply]
              split
              · subst_vars; exact hlt
              · exact hy i hi) hfj (by omega)
            refine ⟨m, h1, fun i => (?_ : y i ≤ upd y j (y j + 1) i).trans (h2 i), h3, h4⟩
            simp only [upd_apply]
            split
            · subst_vars; omega
            · exact Nat.le_refl _

theorem mem_allAsg {x : Asg} (h : x ∈ allAsg n dom) : InDomain n dom x :=
  fun i hi => ((mem_assignments List.nodup_range).1 h).1 i (List.mem_range.2 hi)

/-- Every vector has the same values as one that is listed. -/
theorem exists_allAsg {x : Asg} (h : InDomain n dom x) : ∃ y ∈ allAsg n dom, ∀ i, i < n → y i = x i := by
  refine ⟨fun i => if i < n then x i else 0, (mem_assignments List.nodup_range).2 ⟨fun i hi => ?_, fun i hi => ?_⟩,
    fun i hi => if_pos hi⟩
  · have := List.mem_range.1 hi
    rw [if_pos this]
    exact h i this
  · simp only [List.mem_range] at hi
    exact if_neg hi

private theorem inDomain_upd {x : Asg} (h : InDomain n dom x) {i k : Nat} (hk : k < dom i) : InDomain n dom (upd x i k) := by
  intro j hj
  simp only [upd_apply]
  split
  · subst_vars; exact hk
  · exact h j hj

theorem belowCut_iff {f : Asg → Int} (hm : Monotone n dom f) {s : Int} {i v : Nat} (hi : i < n) (hv : v + 1 < dom i)
    (x : Asg) :
    BelowCut n dom f s i (v + 1) x ↔ x i < v + 1 ∧ Covered n dom (drop3 f s i (v + 1) v) x := by
  have ext : ∀ {x y : Asg}, InDomain n dom x → (∀ j, j < n → x j = y j) → f x = f y := by
    intro x y hx h
    have hy : InDomain n dom y := fun j hj => by rw [← h j hj]; exact hx j hj
    exact le_antisymm (hm x y hx hy fun j hj => (h j hj).le) (hm y x hy hx fun j hj => (h j hj).ge)
  constructor
  · rintro ⟨m, hml, ⟨-, h1, h2⟩, h3, h4⟩
    have h5 : m i = v := by omega
    refine ⟨Nat.lt_succ_of_le (by have := h4 i hi; omega), m, hml, h4, drop3_one.2 ⟨?_, ?_⟩⟩
    · have := h2 i hi (by omega)
      rwa [h5] at this
    · have : upd m i v = m := by rw [← h5]; exact upd_eta m i
      rw [this]
      exact h1
  · rintro ⟨h1, y, hy, h2, h3⟩
    obtain ⟨h4, h5⟩ := drop3_one.1 h3
    have hyd := mem_allAsg hy
    obtain ⟨m, m1, m2, m3, m4⟩ := maximal_below (n := n) (dom := dom) (f := f) (s := s) _ (upd y i v)
      (inDomain_upd hyd (by omega)) h5 (Nat.le_refl _)
    have hmi : m i = v := by
      have := m2 i
      rw [upd_same] at this
      by_contra hne
      have hle := hm (upd y i (v + 1)) m (inDomain_upd hyd hv) m1 fun j _ => by
        have := m2 j
        simp only [upd_apply] at this ⊢
        split
        · subst_vars; omega
        · rename_i h; rwa [if_neg h] at this
      omega
    obtain ⟨m', hm', e⟩ := exists_allAsg m1
    have mm : InDomain n dom m' := mem_allAsg hm'
    refine ⟨m', hm', ⟨⟨i, hi, by rw [e i hi, hmi]; exact hv⟩, ?_, fun j hj hlt => ?_⟩, by rw [e i hi, hmi], fun j hj => ?_⟩
    · rw [ext mm e]; exact m3
    · rw [e j hj] at hlt ⊢
      rw [ext (inDomain_upd mm hlt) (y := upd m j (m j + 1)) fun k hk => ?_]
      · exact m4 j hj hlt
      · simp only [upd_apply]
        split
        · rfl
        · exact e k hk
    · rw [e j hj]
      have h6 := m2 j
      simp only [upd_apply] at h6
      split at h6
      · subst_vars; omega
      · exact (h2 j hj).trans h6

/-! ### Probabilities -/

theorem sum_below (g : Nat → Rat) (v : Nat) : ∀ {d : Nat}, v ≤ d →
    ((List.range d).map fun k => if k < v then g k else 0).sum = ((List.range v).map g).sum := by
  intro d hd
  obtain ⟨k, rfl⟩ := Nat.exists_eq_add_of_le hd
  rw [List.range_add, List.map_append, List.sum_append, List.map_map]
  have e1 : (List.range v).map (fun k => if k < v then g k else 0) = (List.range v).map g :=
    List.map_congr_left fun k hk => if_pos (List.mem_range.1 hk)
  have e2 : ((List.range k).map ((fun k => if k < v then g k else 0) ∘ fun x => v + x)).sum = 0 := by
    refine List.sum_eq_zero fun x hx => ?_
    obtain ⟨j, -, rfl⟩ := List.mem_map.1 hx
    exact if_neg (by show ¬ v + j < v; omega)
  rw [e1, e2, add_zero]

/-- A component is below `v` independently of the others. -/
theorem probability_below (h : SumsToOne n dom pr) {i v : Nat} (hi : i < n) (hv : v ≤ dom i) {C : Asg → Bool}
    (hC : ∀ x k, InDomain n dom x → k < dom i → C (upd x i k) = C x) :
    probability n dom pr (fun x => decide (x i < v) && C x) = ((List.range v).map (pr i)).sum * probability n dom pr C := by
  rw [probability_pivot hi, ← sum_below (pr i) v hv, ← List.sum_map_mul_right]
  congr 1
  refine List.map_congr_left fun k hk => ?_
  have hk := List.mem_range.1 hk
  rw [← probability_fixed h hi hk]
  simp only [upd_same]
  by_cases hkv : k < v
  · rw [if_pos hkv]
    congr 1
    refine probability_congr' fun x hx => ?_
    rw [hC x k hx hk]
    simp [hkv]
  · rw [if_neg hkv]
    simp [hkv, probability]

theorem covered_upd {f : Asg → Int} {i : Nat} (hi : i < n) (hf : ∀ x k, f (upd x i k) = f x) {x : Asg} {k : Nat}
    (hx : x i < dom i) (hk : k < dom i) : Covered n dom f (upd x i k) ↔ Covered n dom f x := by
  have one : ∀ {x : Asg} {k : Nat}, k < dom i → Covered n dom f x → Covered n dom f (upd x i k) := by
    rintro x k hk ⟨y, hy, hle, e⟩
    have hy' := (mem_assignments List.nodup_range).1 hy
    refine ⟨upd y i k, (mem_assignments List.nodup_range).2 ⟨fun j hj => ?_, fun j hj => ?_⟩, fun j hj => ?_, ?_⟩
    · exact inDomain_upd (mem_allAsg hy) hk j (List.mem_range.1 hj)
    · rw [upd_apply, if_neg (by rintro rfl; exact hj (List.mem_range.2 hi))]
      exact hy'.2 j hj
    · simp only [upd_apply]
      split
      · exact Nat.le_refl _
      · exact hle j hj
    · rw [hf]; exact e
  refine ⟨fun h => ?_, one hk⟩
  have := one hx h
  rwa [upd_upd, upd_eta] at this

/-- What the function computes is Fussell-Vesely importance if the derivative is closed downwards correctly. -/
theorem fussellVesely_eq {f : Asg → Int} (hm : Monotone n dom f) (h : SumsToOne n dom pr) {s : Int} {i v : Nat} (hi : i < n)
    (hv : v + 1 < dom i) :
    ((List.range (v + 1)).map (pr i)).sum *
        probability n dom pr (fun x => decide (Covered n dom (drop3 f s i (v + 1) v) x)) =
      probability n dom pr (fun x => decide (BelowCut n dom f s i (v + 1) x)) := by
  rw [← probability_below h hi (by omega) fun x k hx hk =>
    decide_eq_decide.2 (covered_upd hi (fun _ _ => drop3_upd) (hx i hi) hk)]
  refine probability_congr' fun x _ => ?_
  rw [Bool.eq_iff_iff]
  simp only [Bool.and_eq_true, decide_eq_true_eq]
  exact (belowCut_iff hm hi hv x).symm

theorem weight_nonneg {y : Asg} : ∀ {vars : List Nat}, (∀ i ∈ vars, 0 ≤ pr i (y i)) → 0 ≤ weight pr vars y
  | [], _ => by simp [weight]
  | i :: is, h => by
      have := weight_nonneg (vars := is) fun j hj => h j (by simp [hj])
      simp only [weight, List.map_cons, List.prod_cons] at this ⊢
      exact mul_nonneg (h i (by simp)) this

theorem weight_pos {y : Asg} : ∀ {vars : List Nat}, (∀ i ∈ vars, 0 < pr i (y i)) → 0 < weight pr vars y
  | [], _ => by simp [weight]
  | i :: is, h => by
      have := weight_pos (vars := is) fun j hj => h j (by simp [hj])
      simp only [weight, List.map_cons, List.prod_cons] at this ⊢
      exact mul_pos (h i (by simp)) this

/-- An event that contains a possible state has a positive probability. -/
theorem probability_pos {φ : Asg → Bool} (h0 : ∀ i, i < n → ∀ k, k < dom i → 0 ≤ pr i k) {x : Asg} (hx : x ∈ allAsg n dom)
    (hφ : φ x = true) (hp : ∀ i, i < n → 0 < pr i (x i)) : 0 < probability n dom pr φ := by
  have hw : ∀ y ∈ allAsg n dom, 0 ≤ weight pr (List.range n) y := by
    intro y hy
    exact weight_nonneg fun i hi => h0 i (List.mem_range.1 hi) _ (mem_allAsg hy i (List.mem_range.1 hi))
  have hpos : 0 < weight pr (List.range n) x := weight_pos fun i hi => hp i (List.mem_range.1 hi)
  refine hpos.trans_le (List.single_le_sum ?_ _ (List.mem_map.2 ⟨x, List.mem_filter.2 ⟨hx, hφ⟩, rfl⟩))
  intro q hq
  obtain ⟨y, hy, rfl⟩ := List.mem_map.1 hq
  exact hw y (List.mem_filter.1 hy).1

end Teddy
