import Verif.TruthTable
import Verif.TruthTableSpec
import Mathlib.Tactic.Ring
import Mathlib.Tactic.Linarith
import Mathlib.Data.List.Nodup

/-! Truth tables: the walk over the domain, offsets and positions. -/

namespace Teddy
namespace TT

open Spec

/-! ### The walk over the domain -/

/-- `next` leads from each element of the list to the one after it and overflows on the last. -/
def Walk (dom : List Nat) : List (List Nat) → Prop
  | [] => False
  | [x] => next dom x = (dom.map fun _ => 0, true)
  | x :: y :: l => next dom x = (y, false) ∧ Walk dom (y :: l)

theorem next_cons {d e : Nat} {ds es : List Nat} : next (d :: ds) (e :: es) =
    if (next ds es).2 then
      if e + 1 = d then (0 :: (next ds es).1, true) else ((e + 1) :: (next ds es).1, false)
    else (e :: (next ds es).1, false) := rfl

/-- One block of the walk, followed by what comes after it. -/
theorem walk_block {d k : Nat} {ds : List Nat} {L : List (List Nat)} :
    ∀ l, Walk ds l → (k + 1 = d → L = []) →
      (k + 1 ≠ d → ∃ L', L = ((k + 1) :: ds.map fun _ => 0) :: L' ∧ Walk (d :: ds) L) →
      Walk (d :: ds) (l.map (k :: ·) ++ L)
  | [], h, _, _ => h.elim
  | [x], h, h1, h2 => by
      have h : next ds x = (ds.map fun _ => 0, true) := h
      by_cases e : k + 1 = d
      · rw [h1 e]
        show next (d :: ds) (k :: x) = _
        rw [next_cons, h]
        simp [e]
      · obtain ⟨L', rfl, hL⟩ := h2 e
        refine ⟨?_, hL⟩
        rw [next_cons, h]
        simp [e]
  | x :: y :: l, h, h1, h2 => by
      have h : next ds x = (y, false) ∧ Walk ds (y :: l) := h
      refine ⟨?_, walk_block (y :: l) h.2 h1 h2⟩
      rw [next_cons, h.1]
      simp

theorem tuples_walk : ∀ dom : List Nat, (∀ d ∈ dom, 0 < d) →
    Walk dom (tuples dom) ∧ ∃ l, tuples dom = (dom.map fun _ => 0) :: l
  | [], _ => ⟨rfl, [], rfl⟩
  | d :: ds, h => by
      obtain ⟨hw, l, hl⟩ := tuples_walk ds (fun x hx => h x (by simp [hx]))
      have hd := h d (by simp)
      have key : ∀ m k, m + k = d → 0 < m →
          Walk (d :: ds) ((List.range' k m).flatMap fun k => (tuples ds).map (k :: ·)) ∧
          ∃ L', ((List.range' k m).flatMap fun k => (tuples ds).map (k :: ·)) =
            (k :: ds.map fun _ => 0) :: L' := by
        intro m
        induction m with
        | zero => intro k _ h0; omega
        | succ m ih =>
            intro k hk _
            rw [List.range'_succ, List.flatMap_cons]
            refine ⟨walk_block _ hw ?_ ?_, ?_⟩
            · intro e
              have : m = 0 := by omega
              subst this
              rfl
            · intro e
              obtain ⟨h1, L', h2⟩ := ih (k + 1) (by omega) (by omega)
              exact ⟨L', h2, h1⟩
            · rw [hl]
              exact ⟨_, rfl⟩
      have := key d 0 (by omega) hd
      rw [← List.range_eq_range'] at this
      exact this

/-- The loop over a table visits the elements of the domain in order. -/
theorem loop_walk {τ : Type} {dom : List Nat} {F : Int → List Nat → τ → Except Err τ}
    {f : List Nat → Int} : ∀ (l : List (List Nat)) (x : List Nat), Walk dom (x :: l) → ∀ t,
      loop dom F ((x :: l).map f) x t = (x :: l).foldlM (fun t x => F (f x) x t) t
  | [], x, h, t => by
      have h : next dom x = _ := h
      simp only [List.map_cons, loop, h, List.foldlM_cons]
      cases F (f x) x t <;> rfl
  | y :: l, x, h, t => by
      have h : next dom x = (y, false) ∧ Walk dom (y :: l) := h
      rw [List.map_cons, loop, h.1, List.foldlM_cons]
      cases F (f x) x t with
      | error e => rfl
      | ok t' => exact loop_walk l y h.2 t'

theorem loop_tuples {τ : Type} {dom : List Nat} (hd : ∀ d ∈ dom, 0 < d)
    {F : Int → List Nat → τ → Except Err τ} {f : List Nat → Int} (t : τ) :
    loop dom F ((tuples dom).map f) (dom.map fun _ => 0) t =
      (tuples dom).foldlM (fun t x => F (f x) x t) t := by
  obtain ⟨hw, l, hl⟩ := tuples_walk dom hd
  rw [hl] at hw ⊢
  exact loop_walk l _ hw t

/-! ### Elements and positions -/

theorem sum_const (n m : Nat) : ((List.range n).map fun _ => m).sum = n * m := by
  induction n with
  | zero => simp
  | succ n ih => rw [List.range_succ, List.map_append, List.sum_append, ih, Nat.succ_mul]; simp

theorem tuples_length : ∀ dom, (tuples dom).length = dom.prod
  | [] => rfl
  | d :: ds => by
      rw [tuples, List.length_flatMap]
      simp only [List.length_map, tuples_length ds, sum_const, List.prod_cons]

theorem mem_tuples : ∀ {dom x : List Nat}, x ∈ tuples dom ↔ IsTuple dom x
  | [], x => by
      simp only [tuples, List.mem_singleton, IsTuple, List.length_nil, List.length_eq_zero_iff]
      exact ⟨fun h => ⟨h, fun i hi => absurd hi (by omega)⟩, fun h => h.1⟩
  | d :: ds, [] => by simp [tuples, IsTuple]
  | d :: ds, k :: x => by
      have ih := @mem_tuples ds x
      simp only [tuples, List.mem_flatMap, List.mem_range, List.mem_map, List.cons.injEq]
      constructor
      · rintro ⟨k', hk, y, hy, rfl, rfl⟩
        obtain ⟨h1, h2⟩ := ih.1 hy
        refine ⟨by simp [h1], fun i hi => ?_⟩
        cases i with
        | zero => exact hk
        | succ i => exact h2 i (by simpa using hi)
      · rintro ⟨h1, h2⟩
        exact ⟨k, h2 0 (by simp), x, ih.2 ⟨by simpa using h1, fun i hi => h2 (i + 1) (by simpa using hi)⟩,
          rfl, rfl⟩

/-- Position of an element in the list of all elements. -/
def pos : List Nat → List Nat → Nat
  | _ :: ds, x :: xs => x * ds.prod + pos ds xs
  | _, _ => 0

theorem flatMap_get {α : Type} {n : Nat} {g : Nat → List α} (hg : ∀ k, (g k).length = n) :
    ∀ (m j k i : Nat), k < m → i < n → ((List.range' j m).flatMap g)[k * n + i]? = (g (j + k))[i]?
  | 0, _, _, _, h, _ => by omega
  | m + 1, j, k, i, hk, hi => by
      rw [List.range'_succ, List.flatMap_cons]
      cases k with
      | zero => rw [List.getElem?_append_left (by rw [hg]; omega)]; simp
      | succ k =>
          rw [List.getElem?_append_right (by rw [hg, Nat.succ_mul]; omega), hg,
            show (k + 1) * n + i - n = k * n + i from by rw [Nat.succ_mul]; omega,
            flatMap_get hg m (j + 1) k i (by omega) hi, show j + 1 + k = j + (k + 1) from by omega]

theorem pos_lt : ∀ {dom x : List Nat}, IsTuple dom x → pos dom x < dom.prod
  | [], x, _ => by simp [pos]
  | d :: ds, [], h => by simp [IsTuple] at h
  | d :: ds, k :: x, h => by
      have h0 : k < d := h.2 0 (by simp)
      have h1 := pos_lt (dom := ds) (x := x)
        ⟨by simpa using h.1, fun i hi => h.2 (i + 1) (by simpa using hi)⟩
      simp only [pos, List.prod_cons]
      calc k * ds.prod + pos ds x < k * ds.prod + ds.prod := by omega
        _ = (k + 1) * ds.prod := by rw [Nat.succ_mul]
        _ ≤ d * ds.prod := Nat.mul_le_mul_right _ h0

theorem tuples_get : ∀ {dom x : List Nat}, IsTuple dom x → (tuples dom)[pos dom x]? = some x
  | [], x, h => by
      have : x = [] := by simpa [IsTuple] using h.1
      subst this; rfl
  | d :: ds, [], h => by simp [IsTuple] at h
  | d :: ds, k :: x, h => by
      have h0 : k < d := h.2 0 (by simp)
      have hx : IsTuple ds x := ⟨by simpa using h.1, fun i hi => h.2 (i + 1) (by simpa using hi)⟩
      have hp := pos_lt hx
      simp only [tuples, pos]
      rw [List.range_eq_range', flatMap_get (n := ds.prod) (fun k => by simp [tuples_length]) d 0 k _ h0 hp,
        List.getElem?_map, tuples_get hx]
      simp

/-- The offsets are the products of the later domains. -/
def offs : List Nat → List Int
  | [] => []
  | _ :: ds => (ds.prod : Int) :: offs ds

theorem prod_pos' {l : List Nat} (h : ∀ d ∈ l, 0 < d) : 0 < l.prod := by
  induction l with
  | nil => simp
  | cons d l ih =>
      rw [List.prod_cons]
      exact Nat.mul_pos (h d (by simp)) (ih fun x hx => h x (by simp [hx]))

theorem offsets_ok : ∀ {dom : List Nat}, dom ≠ [] → (∀ d ∈ dom, 0 < d) → dom.prod ≤ 2147483647 →
    offsets dom = .ok (offs dom)
  | [], h, _, _ => absurd rfl h
  | [_], _, _, _ => by simp [offsets, offs]
  | a :: d :: ds, _, hp, hm => by
      have ha := hp a (by simp)
      have hle : (d :: ds).prod ≤ (a :: d :: ds).prod := by
        rw [List.prod_cons (a := a)]
        exact Nat.le_mul_of_pos_left _ ha
      have ih := offsets_ok (dom := d :: ds) (by simp) (fun x hx => hp x (by simp [hx])) (by omega)
      rw [offsets, ih]
      have e : (d : Int) * (ds.prod : Int) = ((d :: ds).prod : Int) := by
        rw [List.prod_cons]; push_cast; rfl
      have hb : (((d :: ds).prod : Nat) : Int) ≤ 2147483647 := by
        have := hle.trans hm
        exact_mod_cast this
      have hb0 : (0 : Int) ≤ (((d :: ds).prod : Nat) : Int) := Int.natCast_nonneg _
      show (offs (d :: ds) |> fun os => _) = _
      simp only [offs, bind, Except.bind]
      rw [e, fit32, if_pos ⟨by omega, hb⟩]

theorem indexLoop_ok : ∀ {dom x : List Nat} {a : Nat}, IsTuple dom x → a + dom.prod ≤ 2147483648 →
    indexLoop x (offs dom) a = .ok ((a + pos dom x : Nat) : Int)
  | [], x, a, h, _ => by
      have : x = [] := by simpa [IsTuple] using h.1
      subst this; simp [indexLoop, pos]
  | d :: ds, [], _, h, _ => by simp [IsTuple] at h
  | d :: ds, k :: x, a, h, hm => by
      have h0 : k < d := h.2 0 (by simp)
      have hx : IsTuple ds x := ⟨by simpa using h.1, fun i hi => h.2 (i + 1) (by simpa using hi)⟩
      have hlt := pos_lt hx
      have hmul : (k + 1) * ds.prod ≤ d * ds.prod := Nat.mul_le_mul_right _ h0
      rw [List.prod_cons] at hm
      rw [Nat.succ_mul] at hmul
      have b1 : ((k : Int) * (ds.prod : Int)) = ((k * ds.prod : Nat) : Int) := by push_cast; rfl
      have b2 : ((a : Int) + ((k * ds.prod : Nat) : Int)) = ((a + k * ds.prod : Nat) : Int) := by
        push_cast; rfl
      have c1 : fit32 ((k * ds.prod : Nat) : Int) = .ok ((k * ds.prod : Nat) : Int) := by
        rw [fit32, if_pos ⟨by omega, by omega⟩]
      have c2 : fit32 ((a + k * ds.prod : Nat) : Int) = .ok ((a + k * ds.prod : Nat) : Int) := by
        rw [fit32, if_pos ⟨by omega, by omega⟩]
      simp only [indexLoop, offs, bind, Except.bind]
      rw [b1, c1]
      dsimp only
      rw [b2, c2]
      dsimp only
      rw [indexLoop_ok hx (by omega)]
      simp only [pos, Nat.add_assoc]

theorem pos_get : ∀ {dom : List Nat} {j : Nat} {y : List Nat}, (tuples dom)[j]? = some y → pos dom y = j
  | [], j, y, h => by
      cases j with
      | zero => simp [pos]
      | succ j => simp [tuples] at h
  | d :: ds, j, y, h => by
      have hj : j < d * ds.prod := by
        have := (List.getElem?_eq_some_iff.1 h).1
        rwa [tuples_length, List.prod_cons] at this
      have hn : 0 < ds.prod := Nat.pos_of_ne_zero fun e => by rw [e] at hj; omega
      have hk : j / ds.prod < d := Nat.div_lt_of_lt_mul (by rw [Nat.mul_comm]; exact hj)
      have hi := Nat.mod_lt j hn
      have e : j = j / ds.prod * ds.prod + j % ds.prod := by
        rw [Nat.mul_comm]; exact (Nat.div_add_mod j _).symm
      rw [e, tuples, List.range_eq_range', flatMap_get (n := ds.prod) (fun k => by simp [tuples_length]) d 0 _ _
        hk hi, List.getElem?_map] at h
      cases hy : (tuples ds)[j % ds.prod]? with
      | none => rw [hy] at h; cases h
      | some z =>
          rw [hy] at h
          simp only [Nat.zero_add, Option.map_some, Option.some.injEq] at h
          subst h
          rw [pos, pos_get hy]
          exact e.symm

theorem tuples_nodup (dom : List Nat) : (tuples dom).Nodup := by
  rw [List.nodup_iff_injective_getElem]
  intro i j e
  have h1 := pos_get (List.getElem?_eq_getElem i.2)
  have h2 := pos_get (List.getElem?_eq_getElem j.2)
  dsimp only at e
  rw [e] at h1
  exact Fin.ext (h1.symm.trans h2)

/-! ### Tables of functions -/

/-- The vector is that of `f`. -/
structure VecOf (dom : List Nat) (f : List Nat → Int) (t : Table) : Prop where
  vec : t.vec = (tuples dom).map f
  dim : t.dom = dom

/-- The table of `f`. -/
structure Of (dom : List Nat) (f : List Nat → Int) (t : Table) : Prop extends VecOf dom f t where
  off : t.off = offs dom
  le : ∀ x, IsTuple dom x → f x ≠ Undefined → f x ≤ t.maxVal
  attained : ∃ x, IsTuple dom x ∧ f x ≠ Undefined ∧ f x = t.maxVal

theorem product32_ok : ∀ {dom : List Nat} {a : Nat}, (∀ d ∈ dom, 0 < d) → a * dom.prod ≤ 2147483647 →
    product32 dom a = .ok ((a * dom.prod : Nat) : Int)
  | [], a, _, _ => by simp [product32]
  | d :: ds, a, hp, h => by
      have h' : a * d * ds.prod ≤ 2147483647 := by rw [List.prod_cons, ← Nat.mul_assoc] at h; exact h
      have hpp := prod_pos' (l := ds) (fun x hx => hp x (by simp [hx]))
      have hle : a * d ≤ a * d * ds.prod := Nat.le_mul_of_pos_right _ hpp
      have e : (a : Int) * (d : Int) = ((a * d : Nat) : Int) := by push_cast; rfl
      simp only [product32, bind, Except.bind]
      rw [e, fit32, if_pos ⟨by omega, by omega⟩]
      dsimp only
      rw [product32_ok (fun x hx => hp x (by simp [hx])) h', List.prod_cons, Nat.mul_assoc]

theorem foldl_max_mem : ∀ (l : List Int) (a : Int), l.foldl max a ∈ a :: l
  | [], a => by simp
  | b :: l, a => by
      have h := foldl_max_mem l (max a b)
      rw [List.foldl_cons]
      rcases List.mem_cons.1 h with h | h
      · rw [h]
        rcases Int.le_total a b with hab | hab
        · rw [Int.max_eq_right hab]; simp
        · rw [Int.max_eq_left hab]; simp
      · simp [h]

theorem foldl_max_le : ∀ (l : List Int) (a : Int), a ≤ l.foldl max a ∧ ∀ v ∈ l, v ≤ l.foldl max a
  | [], a => ⟨Int.le_refl _, by simp⟩
  | b :: l, a => by
      obtain ⟨h1, h2⟩ := foldl_max_le l (max a b)
      refine ⟨by rw [List.foldl_cons]; omega, fun v hv => ?_⟩
      rw [List.foldl_cons]
      rcases List.mem_cons.1 hv with rfl | hv
      · omega
      · exact h2 v hv

theorem maxDefined_ok {vec : List Int} (h : ∃ v ∈ vec, v ≠ Undefined) :
    ∃ m, maxDefined vec = .ok m ∧ (m ∈ vec ∧ m ≠ Undefined) ∧ ∀ v ∈ vec, v ≠ Undefined → v ≤ m := by
  unfold maxDefined
  have hmem : ∀ v, v ∈ vec.filter (fun v => decide (v ≠ Undefined)) ↔ v ∈ vec ∧ v ≠ Undefined := by
    intro v; simp
  cases hl : vec.filter (fun v => decide (v ≠ Undefined)) with
  | nil =>
      obtain ⟨v, h1, h2⟩ := h
      have := (hmem v).2 ⟨h1, h2⟩
      rw [hl] at this
      cases this
  | cons a l =>
      refine ⟨_, rfl, (hmem _).1 (by rw [hl]; exact foldl_max_mem l a), fun v h1 h2 => ?_⟩
      have := (hmem v).2 ⟨h1, h2⟩
      rw [hl] at this
      obtain ⟨h3, h4⟩ := foldl_max_le l a
      rcases List.mem_cons.1 this with rfl | h5
      · exact h3
      · exact h4 v h5

theorem make_ok (asserts : Bool) {dom : List Nat} (hd : DomOK dom) {f : List Nat → Int}
    (hf : ∃ x, IsTuple dom x ∧ f x ≠ Undefined) :
    ∃ t, make asserts ((tuples dom).map f) dom = .ok t ∧ Of dom f t := by
  obtain ⟨m, hm, hmm, hle⟩ := maxDefined_ok (vec := (tuples dom).map f) (by
    obtain ⟨x, h1, h2⟩ := hf
    exact ⟨f x, List.mem_map.2 ⟨x, mem_tuples.2 h1, rfl⟩, h2⟩)
  refine ⟨⟨_, dom, offs dom, m⟩, ?_, ⟨⟨rfl, rfl⟩, rfl, fun x hx => hle _ (List.mem_map.2
    ⟨x, mem_tuples.2 hx, rfl⟩), by
      obtain ⟨y, hy, ey⟩ := List.mem_map.1 hmm.1
      exact ⟨y, mem_tuples.1 hy, by rw [ey]; exact hmm.2, ey⟩⟩⟩
  have hp := product32_ok (dom := dom) (a := 1) hd.pos (by rw [Nat.one_mul]; exact hd.fits)
  simp only [make, bind, Except.bind, hm, offsets_ok hd.ne hd.pos hd.fits]
  cases asserts with
  | false => rfl
  | true =>
      rw [if_pos rfl, show (1 : Int) = ((1 : Nat) : Int) from rfl, hp]
      dsimp only
      rw [if_neg (by simp [tuples_length]), if_neg hd.ne]

section
variable {dom : List Nat} {f : List Nat → Int} {t : Table} {asserts : Bool}

theorem of_make (hd : DomOK dom) (h : make asserts ((tuples dom).map f) dom = .ok t) : Of dom f t := by
  by_cases hf : ∃ x, IsTuple dom x ∧ f x ≠ Undefined
  · obtain ⟨t', e, ht⟩ := make_ok asserts hd hf
    rw [h] at e
    cases e
    exact ht
  · have : ((tuples dom).map f).filter (fun v => decide (v ≠ Undefined)) = [] := by
      rw [List.filter_eq_nil_iff]
      intro v hv
      obtain ⟨x, hx, rfl⟩ := List.mem_map.1 hv
      simp only [decide_eq_true_eq]
      exact fun hne => hf ⟨x, mem_tuples.1 hx, hne⟩
    simp only [make, maxDefined, this, bind, Except.bind] at h
    cases h

theorem toIndex_ok (hd : DomOK dom) (h : Of dom f t) {x : List Nat} (hx : IsTuple dom x) :
    toIndex asserts t x = .ok ((pos dom x : Nat) : Int) := by
  have := indexLoop_ok (a := 0) hx (by have := hd.fits; omega)
  unfold toIndex
  rw [h.dim, if_neg (by simp [hx.1]), if_neg (by rw [hx.1]; omega), h.off,
    List.take_of_length_le (Nat.le_of_eq hx.1)]
  simpa using this

theorem evaluate_ok (hd : DomOK dom) (h : Of dom f t) {x : List Nat} (hx : IsTuple dom x) :
    evaluate asserts t x = .ok (f x) := by
  simp only [evaluate, bind, Except.bind, toIndex_ok hd h hx, at?]
  rw [if_neg (by omega), h.vec, Int.toNat_natCast, List.getElem?_map, tuples_get hx]
  rfl

theorem foldlM_ok {α τ : Type} {F : τ → α → Except Err τ} {G : τ → α → τ} :
    ∀ (l : List α) (t : τ), (∀ x ∈ l, ∀ t, F t x = .ok (G t x)) → l.foldlM F t = .ok (l.foldl G t)
  | [], _, _ => rfl
  | x :: l, t, h => by
      rw [List.foldlM_cons, h x (by simp)]
      exact foldlM_ok l _ (fun y hy => h y (by simp [hy]))

theorem forEach_ok {τ : Type} (hd : DomOK dom) (h : VecOf dom f t)
    {F : Int → List Nat → τ → Except Err τ} {G : τ → List Nat → τ}
    (hF : ∀ x, IsTuple dom x → ∀ a, F (f x) x a = .ok (G a x)) (a : τ) :
    forEach t F a = .ok ((tuples dom).foldl G a) := by
  unfold forEach
  rw [h.vec, h.dim, loop_tuples hd.pos]
  exact foldlM_ok _ _ fun x hx a => hF x (mem_tuples.1 hx) a

theorem foldl_filter {α : Type} (p : α → Bool) : ∀ (l acc : List α),
    l.foldl (fun acc x => if p x = true then acc ++ [x] else acc) acc = acc ++ l.filter p
  | [], acc => by simp
  | x :: l, acc => by
      rw [List.foldl_cons, foldl_filter p l]
      cases hp : p x <;> simp [hp]

theorem satisfyAll_ok (hd : DomOK dom) (h : VecOf dom f t) (val : Int) :
    satisfyAll t val = .ok ((tuples dom).filter fun x => decide (f x = val)) := by
  unfold satisfyAll
  rw [forEach_ok hd h (G := fun acc x => if decide (f x = val) = true then acc ++ [x] else acc)
    (fun x _ a => by simp) [], foldl_filter]
  rfl

theorem satisfyCount_ok (h : VecOf dom f t) (val : Int) : satisfyCount t val = tupleCount dom f val := by
  unfold satisfyCount tupleCount
  rw [h.vec, List.filter_map, List.length_map]
  rfl

/-! ### Derivatives -/

theorem isTuple_set {x : List Nat} (hx : IsTuple dom x) {i v : Nat} (hv : v < dom.getD i 0) :
    IsTuple dom (x.set i v) := by
  refine ⟨by simp [hx.1], fun j hj => ?_⟩
  rw [List.getD_eq_getElem?_getD, List.getElem?_set]
  split
  · rename_i e
    subst e
    rw [if_pos (by rw [hx.1]; exact hj)]
    exact hv
  · rw [← List.getD_eq_getElem?_getD]; exact hx.2 j hj

theorem get_tuple {x : List Nat} (hx : IsTuple dom x) {i : Nat} (hi : i < dom.length) :
    x[i]? = some (x.getD i 0) := by
  have : i < x.length := by rw [hx.1]; exact hi
  rw [List.getElem?_eq_getElem this, List.getD_eq_getElem?_getD, List.getElem?_eq_getElem this]
  rfl

theorem foldl_map_acc {α β : Type} (g : α → β) : ∀ (l : List α) (acc : List β),
    l.foldl (fun acc x => acc ++ [g x]) acc = acc ++ l.map g
  | [], acc => by simp
  | x :: l, acc => by rw [List.foldl_cons, foldl_map_acc g l]; simp

theorem zero_tuple (hd : DomOK dom) : IsTuple dom (dom.map fun _ => 0) := by
  refine ⟨by simp, fun i hi => ?_⟩
  have e : dom.getD i 0 = dom[i] := by
    rw [List.getD_eq_getElem?_getD, List.getElem?_eq_getElem hi]; rfl
  have := hd.pos _ (List.getElem_mem hi)
  rw [List.getD_eq_getElem?_getD, List.getElem?_map, List.getElem?_eq_getElem hi, e]
  exact this

/-- The extended derivative as a function. -/
def derE (f : List Nat → Int) (vc : VarChange) (ch : Int → Int → Bool) (x : List Nat) : Int :=
  if x.getD vc.index 0 = vc.from then if ch (f x) (f (x.set vc.index vc.to)) = true then 1 else 0
  else Undefined

theorem dpldE_ok (hd : DomOK dom) (h : Of dom f t) {vc : VarChange} (hi : vc.index < dom.length)
    (hfrom : vc.from < dom.getD vc.index 0) (hto : vc.to < dom.getD vc.index 0)
    (ch : Int → Int → Bool) : ∃ t', dpldE asserts t vc ch = .ok t' ∧ Of dom (derE f vc ch) t' := by
  unfold dpldE
  rw [forEach_ok hd h.toVecOf (G := fun acc x => acc ++ [derE f vc ch x]) ?_ [], foldl_map_acc]
  rotate_left
  · intro x hx a
    rw [get_tuple hx hi]
    dsimp only
    unfold derE
    by_cases e : x.getD vc.index 0 = vc.from
    · rw [if_neg (by simpa using e), if_pos e]
      simp only [setVar, if_pos (show vc.index < x.length by rw [hx.1]; exact hi), bind, Except.bind]
      rw [evaluate_ok hd h (isTuple_set hx hto)]
    · rw [if_pos e, if_neg e]
  simp only [bind, Except.bind, List.nil_append]
  rw [h.dim]
  refine make_ok asserts hd ⟨(dom.map fun _ => 0).set vc.index vc.from, isTuple_set (zero_tuple hd) hfrom, ?_⟩
  unfold derE
  rw [if_pos (by
    rw [List.getD_eq_getElem?_getD, List.getElem?_set_self (by simpa using hi)]; rfl)]
  split <;> decide

/-- The derivative as a function. -/
def der (f : List Nat → Int) (vc : VarChange) (ch : Int → Int → Bool) (x : List Nat) : Int :=
  if ch (f (x.set vc.index vc.from)) (f (x.set vc.index vc.to)) = true then 1 else 0

theorem spread_ok (hd : DomOK dom) (h : Of dom f t) {i : Nat} (hi : i < dom.length) {x : List Nat}
    (hx : IsTuple dom x) (v : Int) : ∀ (ks : List Nat) (res : List Int), (∀ k ∈ ks, k < dom.getD i 0) →
      res.length = dom.prod → ∃ res', spread asserts t i v x ks res = .ok res' ∧ res'.length = dom.prod ∧
        ∀ y, IsTuple dom y → res'[pos dom y]? =
          if ∃ k ∈ ks, y = x.set i k then some v else res[pos dom y]?
  | [], res, _, hl => ⟨res, rfl, hl, fun y _ => by simp⟩
  | k :: ks, res, hk, hl => by
      have hxk := isTuple_set hx (hk k (by simp))
      have hlt := pos_lt hxk
      obtain ⟨res', e, hl', hr⟩ := spread_ok hd h hi hx v ks (res.set (pos dom (x.set i k)) v)
        (fun j hj => hk j (by simp [hj])) (by simpa using hl)
      refine ⟨res', ?_, hl', fun y hy => ?_⟩
      · simp only [spread, setVar, if_pos (show i < x.length by rw [hx.1]; exact hi), bind, Except.bind,
          toIndex_ok hd h hxk, setAt]
        rw [if_neg (by omega), Int.toNat_natCast, if_pos (by rw [hl]; exact hlt)]
        exact e
      · rw [hr y hy]
        by_cases h1 : ∃ j ∈ ks, y = x.set i j
        · obtain ⟨j, hj, e⟩ := h1
          rw [if_pos ⟨j, hj, e⟩, if_pos ⟨j, by simp [hj], e⟩]
        · rw [if_neg h1, List.getElem?_set]
          by_cases h2 : y = x.set i k
          · subst h2
            rw [if_pos rfl, if_pos (by rw [hl]; exact hlt), if_pos ⟨k, by simp, rfl⟩]
          · rw [if_neg (fun e => h2 (by
              have a := tuples_get hy
              have b := tuples_get hxk
              rw [e, a] at b
              exact Option.some.inj b)), if_neg]
            rintro ⟨j, hj, ej⟩
            rcases List.mem_cons.1 hj with rfl | hj
            · exact h2 ej
            · exact h1 ⟨j, hj, ej⟩

theorem foldlM_rule {α τ : Type} {F : τ → α → Except Err τ} {I : List α → τ → Prop} :
    ∀ (l done : List α) (t : τ), I done t → (∀ done x t, x ∈ l → I done t →
      ∃ t', F t x = .ok t' ∧ I (done ++ [x]) t') → ∃ t', l.foldlM F t = .ok t' ∧ I (done ++ l) t'
  | [], done, t, h, _ => ⟨t, rfl, by simpa using h⟩
  | x :: l, done, t, h, hF => by
      obtain ⟨t1, e1, h1⟩ := hF done x t (by simp) h
      obtain ⟨t2, e2, h2⟩ := foldlM_rule l (done ++ [x]) t1 h1 (fun d y t hy => hF d y t (by simp [hy]))
      refine ⟨t2, ?_, by simpa using h2⟩
      rw [List.foldlM_cons, e1]
      exact e2

theorem forEach_bind {τ β : Type} (hd : DomOK dom) (h : VecOf dom f t)
    {F : Int → List Nat → τ → Except Err τ} {K : τ → Except Err β} {Q : β → Prop} {a : τ}
    (I : List (List Nat) → τ → Prop) (h0 : I [] a)
    (hF : ∀ done x b, IsTuple dom x → I done b → ∃ b', F (f x) x b = .ok b' ∧ I (done ++ [x]) b')
    (hK : ∀ b, I (tuples dom) b → ∃ r, K b = .ok r ∧ Q r) :
    ∃ r, (forEach t F a >>= K) = .ok r ∧ Q r := by
  obtain ⟨b, e, hb⟩ := foldlM_rule (F := fun b x => F (f x) x b) (I := I) (tuples dom) [] a h0
    (fun done x b hx => hF done x b (mem_tuples.1 hx))
  obtain ⟨r, er, hr⟩ := hK b hb
  refine ⟨r, ?_, hr⟩
  unfold forEach
  rw [h.vec, h.dim, loop_tuples hd.pos]
  simp only [bind, Except.bind]
  rw [show (tuples dom).foldlM (fun b x => F (f x) x b) a = .ok b from e]
  exact er

theorem dpld_ok (hd : DomOK dom) (h : Of dom f t) {vc : VarChange} (hi : vc.index < dom.length)
    (hfrom : vc.from < dom.getD vc.index 0) (hto : vc.to < dom.getD vc.index 0)
    (ch : Int → Int → Bool) : ∃ t', dpld asserts t vc ch = .ok t' ∧ Of dom (der f vc ch) t' := by
  have set_set : ∀ (x : List Nat) a b, (x.set vc.index a).set vc.index b = x.set vc.index b :=
    fun x a b => List.set_set ..
  have self : ∀ x, IsTuple dom x → x.set vc.index (x.getD vc.index 0) = x := by
    intro x hx
    have hix : vc.index < x.length := by rw [hx.1]; exact hi
    rw [List.getD_eq_getElem?_getD, List.getElem?_eq_getElem hix]
    exact List.set_getElem_self hix
  have same : ∀ z w : List Nat, (∃ a b, z.set vc.index a = w.set vc.index b) →
      der f vc ch z = der f vc ch w := by
    rintro z w ⟨a, b, e3⟩
    unfold der
    have e4 : ∀ c, z.set vc.index c = w.set vc.index c := fun c => by
      rw [← set_set z a c, e3, set_set]
    rw [e4, e4]
  unfold dpld
  refine forEach_bind hd h.toVecOf (I := fun done res => res.length = dom.prod ∧
    ∀ x ∈ done, IsTuple dom x → x.getD vc.index 0 = vc.from → ∀ k, k < dom.getD vc.index 0 →
      res[pos dom (x.set vc.index k)]? = some (der f vc ch x)) ⟨by simp [h.vec, tuples_length], by simp⟩ ?_ ?_
  · rintro done x res hx ⟨hl, hr⟩
    rw [get_tuple hx hi]
    dsimp only
    by_cases e : x.getD vc.index 0 = vc.from
    · rw [if_pos e, h.dim]
      simp only [setVar, if_pos (show vc.index < x.length by rw [hx.1]; exact hi), bind, Except.bind]
      rw [evaluate_ok hd h (isTuple_set hx hto)]
      dsimp only
      obtain ⟨res', e', hl', hr'⟩ := spread_ok (asserts := asserts) hd h hi hx
        (if ch (f x) (f (x.set vc.index vc.to)) = true then 1 else 0) (List.range (dom.getD vc.index 0)) res
        (fun k hk => List.mem_range.1 hk) hl
      have hder : (if ch (f x) (f (x.set vc.index vc.to)) = true then (1 : Int) else 0) = der f vc ch x := by
        unfold der
        rw [← e, self x hx]
      refine ⟨res', e', hl', fun y hy hyT ey k hk => ?_⟩
      rw [hr' _ (isTuple_set hyT hk)]
      by_cases hh : ∃ k' ∈ List.range (dom.getD vc.index 0), y.set vc.index k = x.set vc.index k'
      · rw [if_pos hh, hder]
        obtain ⟨k', -, e2⟩ := hh
        rw [same y x ⟨k, k', e2⟩]
      · rw [if_neg hh]
        rcases List.mem_append.1 hy with hy | hy
        · exact hr y hy hyT ey k hk
        · have : y = x := by simpa using hy
          subst this
          exact absurd ⟨k, List.mem_range.2 hk, rfl⟩ hh
    · rw [if_neg e]
      refine ⟨res, rfl, hl, fun y hy hyT ey k hk => ?_⟩
      rcases List.mem_append.1 hy with hy | hy
      · exact hr y hy hyT ey k hk
      · have : y = x := by simpa using hy
        subst this
        exact absurd ey e
  · rintro res ⟨hl, hr⟩
    have hres : res = (tuples dom).map (der f vc ch) := by
      apply List.ext_getElem?
      intro j
      cases hj : (tuples dom)[j]? with
      | none =>
          have : dom.prod ≤ j := by rw [← tuples_length]; exact List.getElem?_eq_none_iff.1 hj
          rw [List.getElem?_map, hj, List.getElem?_eq_none (by omega)]
          rfl
      | some y =>
          have hy := mem_tuples.1 (List.mem_of_getElem? hj)
          have hx := isTuple_set hy hfrom
          have hix : vc.index < y.length := by rw [hy.1]; exact hi
          have := hr _ (mem_tuples.2 hx) hx (by
            rw [List.getD_eq_getElem?_getD, List.getElem?_set_self hix]; rfl) _ (hy.2 _ hi)
          rw [set_set, self y hy, pos_get hj] at this
          rw [List.getElem?_map, hj, this]
          exact congrArg some (same _ _ ⟨0, 0, set_set ..⟩)
    rw [hres, h.dim]
    exact make_ok asserts hd ⟨_, zero_tuple hd, by unfold der; split <;> decide⟩

end

end TT
end Teddy
