import Verif.Queens
import Verif.QueensSpec
import Verif.Proofs.MakeDiagram
import Verif.Proofs.CountWide

/-!
# Proofs about the n-queens example
-/

namespace Teddy
namespace Queens

open SM Spec Tsl

variable {P : Setup} {w : World} {σ : SState}

/-- A `bdd_manager`. -/
structure Binary (P : Setup) : Prop where
  dom : ∀ i, i < P.c.n → P.c.dom i = 2
  fixed : P.c.fixedDom = some 2
  and : P.Γ Op.AND.id = Op.AND
  or : P.Γ Op.OR.id = Op.OR

theorem Binary.term {v : Int} (h : Binary P) (h0 : 0 ≤ v) (h1 : v ≤ 1) : TermOK P.c v :=
  ⟨by omega, fun _ m hm => by rw [h.fixed] at hm; cases hm; omega⟩

theorem Binary.opType (h : Binary P) {op : BinOp} (ho : op.id ≠ Op.MAX.id) : opType P.c op = op := by
  unfold Teddy.opType
  rw [h.fixed]
  simp only [if_neg ho]

/-- Handle `a` holds the diagram of the predicate `φ`. -/
def Holds (P : Setup) (σ : SState) (a : Nat) (φ : Asg → Prop) : Prop :=
  ∃ f, σ.Has a f ∧ ∀ x, InDomain P.c.n P.c.dom x → (f x = 0 ∨ f x = 1) ∧ (f x = 1 ↔ φ x)

theorem Holds.lt {a : Nat} {φ : Asg → Prop} (h : Holds P σ a φ) : a < σ.slots.length := by
  obtain ⟨f, hf, _⟩ := h
  exact hf.lt

/-- `apply` may be called: no stale cache entries, no reordering due. -/
def _root_.Teddy.SState.ready (σ : SState) : Bool := σ.cacheOK && !σ.auto

theorem ready_cache (h : σ.ready = true) : σ.cacheOK = true := by
  simp only [SState.ready, Bool.and_eq_true] at h; exact h.1

theorem ready_auto (h : σ.ready = true) : σ.auto = false := by
  simp only [SState.ready, Bool.and_eq_true, Bool.not_eq_true'] at h; exact h.2

/-- Some calls happened; of the handles of `σ`, only `a` may have changed. -/
structure Step (σ σ' : SState) (a : Nat) : Prop where
  order : σ'.order = σ.order
  canon : σ'.canon = σ.canon
  ready : σ'.ready = σ.ready
  clean : σ'.clean = σ.clean
  len : σ.slots.length ≤ σ'.slots.length
  frame : ∀ j, j ≠ a → j < σ.slots.length → σ'.slots[j]? = σ.slots[j]?

theorem Step.refl (σ : SState) (a : Nat) : Step σ σ a := ⟨rfl, rfl, rfl, rfl, Nat.le_refl _, fun _ _ _ => rfl⟩

theorem Step.trans {σ' σ'' : SState} {a b : Nat} (h : Step σ σ' a) (h' : Step σ' σ'' b)
    (hb : b = a ∨ σ.slots.length ≤ b) : Step σ σ'' a where
  order := h'.order.trans h.order
  canon := h'.canon.trans h.canon
  ready := h'.ready.trans h.ready
  clean := h'.clean.trans h.clean
  len := h.len.trans h'.len
  frame j hj hl := by
    rw [h'.frame j (by omega) (Nat.lt_of_lt_of_le hl h.len), h.frame j hj hl]

theorem Step.has {σ' : SState} {a j : Nat} (h : Step σ σ' a) (hj : j ≠ a) {f : Asg → Int} (hf : σ.Has j f) :
    σ'.Has j f := by
  unfold SState.Has
  rw [h.frame j hj hf.lt]
  exact hf

theorem Step.holds {σ' : SState} {a j : Nat} (h : Step σ σ' a) (hj : j ≠ a) {φ : Asg → Prop} (hf : Holds P σ j φ) :
    Holds P σ' j φ := by
  obtain ⟨f, h1, h2⟩ := hf
  exact ⟨f, h.has hj h1, h2⟩

theorem Step.append (σ : SState) (a : Nat) (f : Option (Asg → Int)) : Step σ (withSlots σ (σ.slots ++ [f])) a where
  order := rfl
  canon := rfl
  ready := rfl
  clean := rfl
  len := by simp [withSlots]
  frame j _ hl := by simp only [withSlots]; rw [List.getElem?_append_left hl]

/-- Destroying a handle. -/
theorem drop_ok (hP : P.OK) (h : Reachable P w σ) {a : Nat} (ha : a < σ.slots.length) :
    Ok (exec P.c (.drop a)) w (fun _ w' => ∃ σ', Reachable P w' σ' ∧ Step σ σ' a) := by
  have had : Adm P σ (.drop a) := ha
  obtain ⟨o, w', e, _, _⟩ := sim (reachable_rel hP h) had
  refine ⟨o, w', e, _, Reachable.step h had e, rfl, rfl, rfl, rfl, by simp [next], fun j hj _ => ?_⟩
  simp only [next]
  rw [List.getElem?_set_ne (Ne.symm hj)]

/-- A connective. -/
structure Conn (P : Setup) (op : BinOp) (C : Prop → Prop → Prop) : Prop where
  type : opType P.c op = op
  id : P.Γ op.id = op
  ok : ∀ A B, Bits A → Bits B → OpOK P.c op A B
  bits : ∀ a b : Int, (a = 0 ∨ a = 1) → (b = 0 ∨ b = 1) → (op.val a b = 0 ∨ op.val a b = 1) ∧
    (op.val a b = 1 ↔ C (a = 1) (b = 1))

theorem conn_and (h : Binary P) : Conn P Op.AND And where
  type := h.opType (by decide)
  id := h.and
  ok A B hA hB := opOK_AND (hA.vals (h.term (by decide) (by decide))) (hB.vals (h.term (by decide) (by decide)))
  bits a b ha hb := by rcases ha with rfl | rfl <;> rcases hb with rfl | rfl <;> decide

theorem conn_or (h : Binary P) : Conn P Op.OR Or where
  type := h.opType (by decide)
  id := h.or
  ok A B hA hB := opOK_OR (h.term (by decide) (by decide)) hA hB
  bits a b ha hb := by rcases ha with rfl | rfl <;> rcases hb with rfl | rfl <;> decide

theorem assignApply_ok (hP : P.OK) (h : Reachable P w σ) (hc : σ.ready = true) {op : BinOp}
    {C : Prop → Prop → Prop} (hC : Conn P op C) {tmp d : Nat} {φ ψ : Asg → Prop} (ht : Holds P σ tmp φ)
    (hd : Holds P σ d ψ) :
    Ok (assignApply P.c op tmp d) w (fun _ w' => ∃ σ', Reachable P w' σ' ∧ Step σ σ' tmp ∧
      Holds P σ' tmp (fun x => C (φ x) (ψ x))) := by
  obtain ⟨f, hf, bf⟩ := ht
  obtain ⟨g, hg, bg⟩ := hd
  have bits : ∀ {u : Asg → Int} {χ : Asg → Prop},
      (∀ x, InDomain P.c.n P.c.dom x → (u x = 0 ∨ u x = 1) ∧ (u x = 1 ↔ χ x)) → Bits (Range P.c u) := by
    rintro u χ hu _ ⟨x, hx, rfl⟩
    exact (hu x hx).1
  have ha : Adm P σ (.apply op tmp d) :=
    ⟨ready_cache hc, by rw [hC.type]; exact hC.id, f, g, hf, hg, by rw [hC.type]; exact hC.ok _ _ (bits bf) (bits bg)⟩
  have htl := hf.lt
  unfold assignApply
  refine (newSlot_ok (k := .apply op tmp d) hP h ha rfl (fun _ => rfl) (fun _ => ready_auto hc)).bind ?_
  rintro e w1 ⟨rfl, h1⟩
  generalize hu : (fun x => (opType P.c op).val (σ.fn tmp x) (σ.fn d x)) = u at h1
  have bu : ∀ x, InDomain P.c.n P.c.dom x → (u x = 0 ∨ u x = 1) ∧ (u x = 1 ↔ C (φ x) (ψ x)) := by
    intro x hx
    subst hu
    dsimp only
    rw [hC.type, hf.fn, hg.fn]
    obtain ⟨b1, b2⟩ := hC.bits _ _ (bf x hx).1 (bg x hx).1
    refine ⟨b1, b2.trans ?_⟩
    rw [propext (bf x hx).2, propext (bg x hx).2]
  clear hu
  have hm : Adm P (withSlots σ (σ.slots ++ [some u])) (.move tmp σ.slots.length) := by
    constructor
    · simp only [withSlots, List.length_append]; omega
    · simp [withSlots]
  obtain ⟨o2, w2, e2, _, _⟩ := sim (reachable_rel hP h1) hm
  have h2 := Reachable.step h1 hm e2
  refine Ok.bindEq e2 ?_
  have hs2 : (next P.c (withSlots σ (σ.slots ++ [some u])) (.move tmp σ.slots.length) o2).slots =
      (σ.slots ++ [none]).set tmp (some u) := by
    simp [next, withSlots]
  generalize hσ2 : next P.c (withSlots σ (σ.slots ++ [some u])) (.move tmp σ.slots.length) o2 = σ2 at h2 hs2
  have hst : Step σ σ2 tmp := by
    subst hσ2
    refine ⟨rfl, rfl, rfl, rfl, by rw [hs2]; simp, fun j hj hl => ?_⟩
    rw [hs2, List.getElem?_set_ne (Ne.symm hj), List.getElem?_append_left hl]
  have hh2 : Holds P σ2 tmp (fun x => C (φ x) (ψ x)) := by
    refine ⟨u, ?_, bu⟩
    unfold SState.Has
    rw [hs2, List.getElem?_set_self (by simp; omega)]
  refine Ok.bind (drop_ok hP h2 (a := σ.slots.length) (by rw [hs2]; simp)) ?_
  rintro _ w3 ⟨σ3, h3, st3⟩
  exact Ok.pure ⟨σ3, h3, hst.trans st3 (Or.inr (Nat.le_refl _)), st3.holds (by omega) hh2⟩

theorem assignApplyNot_ok (hP : P.OK) (hB : Binary P) (h : Reachable P w σ) (hc : σ.ready = true) {op : BinOp}
    {C : Prop → Prop → Prop} (hC : Conn P op C) {tmp i : Nat} {φ ψ : Asg → Prop} (ht : Holds P σ tmp φ)
    (hi : Holds P σ i ψ) :
    Ok (assignApplyNot P.c op tmp i) w (fun _ w' => ∃ σ', Reachable P w' σ' ∧ Step σ σ' tmp ∧
      Holds P σ' tmp (fun x => C (φ x) (¬ ψ x))) := by
  obtain ⟨g, hg, bg⟩ := hi
  have htl := ht.lt
  have ha : Adm P σ (.negate i) := by
    refine ⟨g, hg, ?_⟩
    rintro _ ⟨x, hx, rfl⟩
    rcases (bg x hx).1 with e | e <;> rw [e] <;> exact hB.term (by decide) (by decide)
  unfold assignApplyNot
  refine (newSlot_ok (k := .negate i) hP h ha rfl (fun _ => rfl) (fun _ => ready_auto hc)).bind ?_
  rintro d w1 ⟨rfl, h1⟩
  have s1 := Step.append σ σ.slots.length (some fun x => 1 - σ.fn i x)
  have hd : Holds P (withSlots σ (σ.slots ++ [some fun x => 1 - σ.fn i x])) σ.slots.length (fun x => ¬ ψ x) := by
    refine ⟨fun x => 1 - σ.fn i x, by simp [SState.Has, withSlots], fun x hx => ?_⟩
    obtain ⟨b1, b2⟩ := bg x hx
    dsimp only
    rw [hg.fn, ← b2]
    rcases b1 with e | e <;> rw [e] <;> decide
  refine (assignApply_ok hP h1 hc hC (s1.holds (by omega) ht) hd).bind ?_
  rintro _ w2 ⟨σ2, h2, s2, hh2⟩
  have hl2 : σ.slots.length < σ2.slots.length := by
    have := s2.len
    simp [withSlots] at this
    omega
  refine Ok.bind (drop_ok hP h2 hl2) ?_
  rintro _ w3 ⟨σ3, h3, s3⟩
  refine Ok.pure ⟨σ3, h3, ?_, s3.holds (by omega) hh2⟩
  exact ((Step.append σ tmp _).trans s2 (Or.inl rfl)).trans s3 (Or.inr (Nat.le_refl _))

/-- The handles of the board. -/
def Board (P : Setup) (σ : SState) : Prop := ∀ i, i < P.c.n → Holds P σ i (fun x => x i = 1)

theorem Board.step {σ' : SState} {a : Nat} (h : Board P σ) (s : Step σ σ' a) (ha : P.c.n ≤ a) : Board P σ' :=
  fun i hi => s.holds (by omega) (h i hi)

/-- A loop in which each round combines the diagram of handle `r` with another predicate. -/
theorem loop_ok {α : Type} {C : Prop → Prop → Prop} {body : α → SM World Unit} {ψ : α → Asg → Prop} {r : Nat}
    (hr : P.c.n ≤ r) :
    ∀ (l : List α), (∀ t ∈ l, ∀ {w : World} {σ : SState} {φ : Asg → Prop}, Reachable P w σ → σ.ready = true →
        Board P σ → Holds P σ r φ → Ok (body t) w (fun _ w' => ∃ σ', Reachable P w' σ' ∧ Step σ σ' r ∧
          Holds P σ' r (fun x => C (φ x) (ψ t x)))) →
      ∀ {w : World} {σ : SState} {φ : Asg → Prop}, Reachable P w σ → σ.ready = true → Board P σ →
        Holds P σ r φ → Ok (forL body l) w (fun _ w' => ∃ σ', Reachable P w' σ' ∧ Step σ σ' r ∧
          Holds P σ' r (fun x => l.foldl (fun b t => C b (ψ t x)) (φ x)))
  | [], _, w, σ, φ, h, _, _, hh => ⟨(), w, rfl, σ, h, Step.refl σ r, hh⟩
  | t :: l, hb, w, σ, φ, h, hc, hbd, hh => by
      unfold forL
      refine (hb t (by simp) h hc hbd hh).bind ?_
      rintro _ w1 ⟨σ1, h1, s1, hh1⟩
      refine (loop_ok hr l (fun t ht => hb t (by simp [ht])) h1 (by rw [s1.ready]; exact hc) (hbd.step s1 hr)
        hh1).mono ?_
      rintro _ w2 ⟨σ2, h2, s2, hh2⟩
      exact ⟨σ2, h2, s1.trans s2 (Or.inl rfl), hh2⟩

theorem foldl_and {α : Type} (ψ : α → Prop) : ∀ (l : List α) (b : Prop),
    l.foldl (fun b t => b ∧ ψ t) b ↔ b ∧ ∀ t ∈ l, ψ t
  | [], b => by simp
  | t :: l, b => by rw [List.foldl_cons, foldl_and ψ l]; simp [and_assoc]

theorem foldl_or {α : Type} (ψ : α → Prop) : ∀ (l : List α) (b : Prop),
    l.foldl (fun b t => b ∨ ψ t) b ↔ b ∨ ∃ t ∈ l, ψ t
  | [], b => by simp
  | t :: l, b => by rw [List.foldl_cons, foldl_or ψ l]; simp [or_assoc]

theorem Holds.congr {a : Nat} {φ ψ : Asg → Prop} (h : Holds P σ a φ)
    (e : ∀ x, InDomain P.c.n P.c.dom x → (φ x ↔ ψ x)) : Holds P σ a ψ := by
  obtain ⟨f, h1, h2⟩ := h
  exact ⟨f, h1, fun x hx => ⟨(h2 x hx).1, (h2 x hx).2.trans (e x hx)⟩⟩

/-- A new constant. -/
theorem const_ok (hP : P.OK) (hB : Binary P) (h : Reachable P w σ) {v : Int} (h0 : v = 0 ∨ v = 1) :
    Ok (newSlot P.c (.constant v)) w (fun a w' => a = σ.slots.length ∧ ∃ σ', Reachable P w' σ' ∧
      (∀ b, Step σ σ' b) ∧ σ'.slots.length = σ.slots.length + 1 ∧ Holds P σ' a (fun _ => v = 1)) := by
  have ha : Adm P σ (.constant v) := hB.term (by rcases h0 with rfl | rfl <;> decide)
    (by rcases h0 with rfl | rfl <;> decide)
  refine (newSlot_ok (k := .constant v) hP h ha rfl (fun _ => rfl)).mono ?_
  rintro a w' ⟨rfl, h1⟩
  exact ⟨rfl, _, h1, fun b => Step.append σ b _, by simp [withSlots],
    fun _ => v, by simp [SState.Has, withSlots], fun x _ => ⟨h0, Iff.rfl⟩⟩

/-- One constraint. -/
theorem constraint_ok (hP : P.OK) (hB : Binary P) {r : Nat} (hr : P.c.n ≤ r) {others : List Nat} {q : Nat}
    (ho : ∀ o ∈ others, o < P.c.n) (hq : q < P.c.n) (h : Reachable P w σ) (hc : σ.ready = true)
    (hb : Board P σ) {φ : Asg → Prop} (hh : Holds P σ r φ) :
    Ok (constraint P.c r others q) w (fun _ w' => ∃ σ', Reachable P w' σ' ∧ Step σ σ' r ∧
      Holds P σ' r (fun x => φ x ∧ ((∀ o ∈ others, ¬ x o = 1) ∨ ¬ x q = 1))) := by
  have hrl := hh.lt
  unfold constraint
  refine (const_ok hP hB h (v := 1) (Or.inr rfl)).bind ?_
  rintro tmp w1 ⟨rfl, σ1, h1, s1, l1, hh1⟩
  have hnt : P.c.n ≤ σ.slots.length := by omega
  refine (loop_ok (C := And) (ψ := fun o x => ¬ x o = 1) hnt others ?_ h1 (by rw [(s1 r).ready]; exact hc)
    (hb.step (s1 σ.slots.length) hnt) hh1).bind ?_
  · intro o ho' w σ φ h hc hb hh
    exact assignApplyNot_ok hP hB h hc (conn_and hB) hh (hb o (ho o ho'))
  rintro _ w2 ⟨σ2, h2, s2, hh2⟩
  have c2 : σ2.ready = true := by rw [s2.ready, (s1 r).ready]; exact hc
  have b2 : Board P σ2 := (hb.step (s1 σ.slots.length) hnt).step s2 hnt
  refine (assignApplyNot_ok hP hB h2 c2 (conn_or hB) hh2 (b2 q hq)).bind ?_
  rintro _ w3 ⟨σ3, h3, s3, hh3⟩
  have s03 : Step σ σ3 σ.slots.length :=
    ((s1 σ.slots.length).trans s2 (Or.inl rfl)).trans s3 (Or.inl rfl)
  refine (assignApply_ok hP h3 (by rw [s03.ready]; exact hc) (conn_and hB) (s03.holds (by omega) hh) hh3).bind ?_
  rintro _ w4 ⟨σ4, h4, s4, hh4⟩
  have hl4 : σ.slots.length < σ4.slots.length := by
    have h1 := s4.len
    have h2 := s3.len
    have h3 := s2.len
    omega
  refine Ok.bind (drop_ok hP h4 hl4) ?_
  rintro _ w5 ⟨σ5, h5, s5⟩
  have s05 : Step σ σ5 r := by
    refine Step.trans (b := σ.slots.length) (σ' := σ4) ?_ s5 (Or.inr (Nat.le_refl _))
    refine Step.trans (b := r) (σ' := σ3) ?_ s4 (Or.inl rfl)
    refine Step.trans (b := σ.slots.length) (σ' := σ2) ?_ s3 (Or.inr (Nat.le_refl _))
    exact Step.trans (s1 r) s2 (Or.inr (Nat.le_refl _))
  refine Ok.pure ⟨σ5, h5, s05, (s5.holds (by omega) hh4).congr fun x _ => ?_⟩
  rw [foldl_and]
  simp

/-- The loop over all fields with one kind of constraint. -/
theorem constraints_ok (hP : P.OK) (hB : Binary P) {r : Nat} (hr : P.c.n ≤ r) {n : Nat} (fs : List (Nat × Nat))
    {others : Nat → Nat → List Nat} (ho : ∀ t ∈ fs, ∀ o ∈ others t.1 t.2, o < P.c.n)
    (hq : ∀ t ∈ fs, t.1 * n + t.2 < P.c.n) (h : Reachable P w σ) (hc : σ.ready = true)
    (hb : Board P σ) {φ : Asg → Prop} (hh : Holds P σ r φ) :
    Ok (forL (fun t => constraint P.c r (others t.1 t.2) (t.1 * n + t.2)) fs) w (fun _ w' => ∃ σ',
      Reachable P w' σ' ∧ Step σ σ' r ∧ Holds P σ' r (fun x => φ x ∧ ∀ t ∈ fs,
        (∀ o ∈ others t.1 t.2, ¬ x o = 1) ∨ ¬ x (t.1 * n + t.2) = 1)) := by
  refine (loop_ok (C := And)
    (ψ := fun t x => (∀ o ∈ others t.1 t.2, ¬ x o = 1) ∨ ¬ x (t.1 * n + t.2) = 1) hr fs ?_ h hc hb hh).mono ?_
  · intro t ht w σ φ h hc hb hh
    exact constraint_ok hP hB hr (ho t ht) (hq t ht) h hc hb hh
  · rintro _ w' ⟨σ', h', s, hh'⟩
    exact ⟨σ', h', s, hh'.congr fun x _ => foldl_and _ _ _⟩

/-- One queen in row `i`. -/
theorem placeRow_ok (hP : P.OK) (hB : Binary P) {r n i : Nat} (hr : P.c.n ≤ r)
    (hq : ∀ j, j < n → i * n + j < P.c.n) (h : Reachable P w σ) (hc : σ.ready = true)
    (hb : Board P σ) {φ : Asg → Prop} (hh : Holds P σ r φ) :
    Ok (placeRow P.c n r i) w (fun _ w' => ∃ σ', Reachable P w' σ' ∧ Step σ σ' r ∧
      Holds P σ' r (fun x => φ x ∧ ∃ j, j < n ∧ x (i * n + j) = 1)) := by
  have hrl := hh.lt
  unfold placeRow
  refine (const_ok hP hB h (v := 0) (Or.inl rfl)).bind ?_
  rintro tmp w1 ⟨rfl, σ1, h1, s1, l1, hh1⟩
  have hnt : P.c.n ≤ σ.slots.length := by omega
  refine (loop_ok (C := Or) (ψ := fun j x => x (i * n + j) = 1) hnt (List.range n) ?_ h1
    (by rw [(s1 r).ready]; exact hc) (hb.step (s1 σ.slots.length) hnt) hh1).bind ?_
  · intro j hj w σ φ h hc hb hh
    exact assignApply_ok hP h hc (conn_or hB) hh (hb _ (hq j (List.mem_range.1 hj)))
  rintro _ w2 ⟨σ2, h2, s2, hh2⟩
  have s02 : Step σ σ2 σ.slots.length := (s1 σ.slots.length).trans s2 (Or.inl rfl)
  refine (assignApply_ok hP h2 (by rw [s02.ready]; exact hc) (conn_and hB) (s02.holds (by omega) hh) hh2).bind ?_
  rintro _ w4 ⟨σ4, h4, s4, hh4⟩
  have hl4 : σ.slots.length < σ4.slots.length := by
    have h1 := s4.len
    have h3 := s2.len
    omega
  refine Ok.bind (drop_ok hP h4 hl4) ?_
  rintro _ w5 ⟨σ5, h5, s5⟩
  have s05 : Step σ σ5 r := by
    refine Step.trans (b := σ.slots.length) (σ' := σ4) ?_ s5 (Or.inr (Nat.le_refl _))
    refine Step.trans (b := r) (σ' := σ2) ?_ s4 (Or.inl rfl)
    exact Step.trans (s1 r) s2 (Or.inr (Nat.le_refl _))
  refine Ok.pure ⟨σ5, h5, s05, (s5.holds (by omega) hh4).congr fun x _ => ?_⟩
  rw [foldl_or]
  simp

/-- The predicate the program builds. -/
def Raw (n : Nat) (x : Asg) : Prop :=
  ((((True ∧ (∀ t ∈ fields n, (∀ o ∈ rowOf n t.1 t.2, ¬ x o = 1) ∨ ¬ x (t.1 * n + t.2) = 1)) ∧
    (∀ t ∈ fieldsByCol n, (∀ o ∈ colOf n t.1 t.2, ¬ x o = 1) ∨ ¬ x (t.1 * n + t.2) = 1)) ∧
    (∀ t ∈ fields n, (∀ o ∈ risingOf n t.1 t.2, ¬ x o = 1) ∨ ¬ x (t.1 * n + t.2) = 1)) ∧
    (∀ t ∈ fields n, (∀ o ∈ fallingOf n t.1 t.2, ¬ x o = 1) ∨ ¬ x (t.1 * n + t.2) = 1)) ∧
    ∀ i ∈ List.range n, ∃ j, j < n ∧ x (i * n + j) = 1

theorem mem_fields {n : Nat} {t : Nat × Nat} : t ∈ fields n ↔ t.1 < n ∧ t.2 < n := by
  unfold fields
  simp only [List.mem_flatMap, List.mem_map, List.mem_range]
  constructor
  · rintro ⟨i, hi, j, hj, rfl⟩; exact ⟨hi, hj⟩
  · rintro ⟨h1, h2⟩; exact ⟨t.1, h1, t.2, h2, rfl⟩

theorem mem_fieldsByCol {n : Nat} {t : Nat × Nat} : t ∈ fieldsByCol n ↔ t.1 < n ∧ t.2 < n := by
  unfold fieldsByCol
  simp only [List.mem_flatMap, List.mem_map, List.mem_range]
  constructor
  · rintro ⟨i, hi, j, hj, rfl⟩; exact ⟨hj, hi⟩
  · rintro ⟨h1, h2⟩; exact ⟨t.2, h2, t.1, h1, rfl⟩

theorem field_lt {n i j : Nat} (hi : i < n) (hj : j < n) : i * n + j < n * n := by
  calc i * n + j < i * n + n := by omega
    _ = (i + 1) * n := by ring
    _ ≤ n * n := Nat.mul_le_mul_right n hi

theorem mem_rowOf {n i j o : Nat} : o ∈ rowOf n i j ↔ ∃ k, k < n ∧ j ≠ k ∧ o = i * n + k := by
  unfold rowOf
  simp only [List.mem_map, List.mem_filter, List.mem_range, decide_eq_true_eq]
  constructor
  · rintro ⟨k, ⟨h1, h2⟩, rfl⟩; exact ⟨k, h1, h2, rfl⟩
  · rintro ⟨k, h1, h2, rfl⟩; exact ⟨k, ⟨h1, h2⟩, rfl⟩

theorem mem_colOf {n i j o : Nat} : o ∈ colOf n i j ↔ ∃ k, k < n ∧ i ≠ k ∧ o = k * n + j := by
  unfold colOf
  simp only [List.mem_map, List.mem_filter, List.mem_range, decide_eq_true_eq]
  constructor
  · rintro ⟨k, ⟨h1, h2⟩, rfl⟩; exact ⟨k, h1, h2, rfl⟩
  · rintro ⟨k, h1, h2, rfl⟩; exact ⟨k, ⟨h1, h2⟩, rfl⟩

theorem mem_risingOf {n i j o : Nat} :
    o ∈ risingOf n i j ↔ ∃ k, k < n ∧ (j + k ≥ i ∧ j + k < n + i ∧ k ≠ i) ∧ o = k * n + (j + k - i) := by
  unfold risingOf
  simp only [List.mem_map, List.mem_filter, List.mem_range, decide_eq_true_eq]
  constructor
  · rintro ⟨k, ⟨h1, h2⟩, rfl⟩; exact ⟨k, h1, h2, rfl⟩
  · rintro ⟨k, h1, h2, rfl⟩; exact ⟨k, ⟨h1, h2⟩, rfl⟩

theorem mem_fallingOf {n i j o : Nat} :
    o ∈ fallingOf n i j ↔ ∃ k, k < n ∧ (j + i ≥ k ∧ j + i < n + k ∧ k ≠ i) ∧ o = k * n + (j + i - k) := by
  unfold fallingOf
  simp only [List.mem_map, List.mem_filter, List.mem_range, decide_eq_true_eq]
  constructor
  · rintro ⟨k, ⟨h1, h2⟩, rfl⟩; exact ⟨k, h1, h2, rfl⟩
  · rintro ⟨k, h1, h2, rfl⟩; exact ⟨k, ⟨h1, h2⟩, rfl⟩

/-- The program builds the predicate `Raw`. -/
theorem solve_ok (hP : P.OK) (hB : Binary P) {n : Nat} (hn : P.c.n = n * n) (hg : 100 ≤ 30 * P.pool)
    (h : Reachable P w (SState.init P)) :
    Ok (solve P.c n) w (fun r w' => ∃ σ', Reachable P w' σ' ∧ σ'.order = P.order ∧ σ'.canon = true ∧
      σ'.clean = true ∧ Holds P σ' r (Raw n)) := by
  unfold solve
  have a1 : Adm P (SState.init P) (.setCacheRatio 2 1) := by show 0 < 2; decide
  obtain ⟨o1, w1, e1, _, _⟩ := sim (reachable_rel hP h) a1
  have h1 : Reachable P w1 (SState.init P) := Reachable.step h a1 e1
  refine Ok.bindEq e1 ?_
  have a2 : Adm P (SState.init P) (.setGcRatio 30 100) := ⟨by decide, by decide, hg⟩
  obtain ⟨o2, w2, e2, _, _⟩ := sim (reachable_rel hP h1) a2
  have h2 : Reachable P w2 (SState.init P) := Reachable.step h1 a2 e2
  refine Ok.bindEq e2 ?_
  refine (variables_ok hP h2 (is := List.range (n * n)) (fun i hi => by rw [hn]; exact List.mem_range.1 hi)).bind ?_
  rintro _ w3 ⟨-, h3⟩
  generalize hσ3 : withSlots (SState.init P) ((SState.init P).slots ++
    (List.range (n * n)).map fun i => some fun x : Asg => (x i : Int)) = σ3 at h3
  have l3 : σ3.slots.length = n * n := by rw [← hσ3]; simp [withSlots, SState.init]
  have b3 : Board P σ3 := by
    intro i hi
    rw [hn] at hi
    refine ⟨fun x => (x i : Int), ?_, fun x hx => ?_⟩
    · rw [← hσ3]
      simp [SState.Has, withSlots, SState.init, hi]
    · have := hx i (by rw [hn]; exact hi)
      rw [hB.dom i (by rw [hn]; exact hi)] at this
      dsimp only
      omega
  have o3 : σ3.order = P.order ∧ σ3.canon = true ∧ σ3.clean = true ∧ σ3.ready = true := by
    rw [← hσ3]; exact ⟨rfl, rfl, rfl, rfl⟩
  clear hσ3
  refine (const_ok hP hB h3 (v := 1) (Or.inr rfl)).bind ?_
  rintro r w4 ⟨rfl, σ4, h4, s4, l4, hh4⟩
  rw [l3] at hh4 ⊢
  have hr : P.c.n ≤ n * n := by omega
  have s4' := s4 (n * n)
  have b4 := b3.step s4' hr
  have lt : ∀ {i j}, i < n → j < n → i * n + j < P.c.n := fun hi hj => by rw [hn]; exact field_lt hi hj
  refine (constraints_ok (others := rowOf n) hP hB hr (fields n) ?_ ?_ h4 (by rw [s4'.ready]; exact o3.2.2.2) b4
    hh4).bind ?_
  · intro t ht o ho
    obtain ⟨h1, h2⟩ := mem_fields.1 ht
    obtain ⟨k, hk, _, rfl⟩ := mem_rowOf.1 ho
    exact lt h1 hk
  · intro t ht
    exact lt (mem_fields.1 ht).1 (mem_fields.1 ht).2
  rintro _ w5 ⟨σ5, h5, s5, hh5⟩
  have t5 := s4'.trans s5 (Or.inl rfl)
  refine (constraints_ok (others := colOf n) hP hB hr (fieldsByCol n) ?_ ?_ h5 (by rw [t5.ready]; exact o3.2.2.2)
    (b3.step t5 hr) hh5).bind ?_
  · intro t ht o ho
    obtain ⟨h1, h2⟩ := mem_fieldsByCol.1 ht
    obtain ⟨k, hk, _, rfl⟩ := mem_colOf.1 ho
    exact lt hk h2
  · intro t ht
    exact lt (mem_fieldsByCol.1 ht).1 (mem_fieldsByCol.1 ht).2
  rintro _ w6 ⟨σ6, h6, s6, hh6⟩
  have t6 := t5.trans s6 (Or.inl rfl)
  refine (constraints_ok (others := risingOf n) hP hB hr (fields n) ?_ ?_ h6 (by rw [t6.ready]; exact o3.2.2.2)
    (b3.step t6 hr) hh6).bind ?_
  · intro t ht o ho
    obtain ⟨h1, h2⟩ := mem_fields.1 ht
    obtain ⟨k, hk, _, rfl⟩ := mem_risingOf.1 ho
    exact lt hk (by omega)
  · intro t ht
    exact lt (mem_fields.1 ht).1 (mem_fields.1 ht).2
  rintro _ w7 ⟨σ7, h7, s7, hh7⟩
  have t7 := t6.trans s7 (Or.inl rfl)
  refine (constraints_ok (others := fallingOf n) hP hB hr (fields n) ?_ ?_ h7 (by rw [t7.ready]; exact o3.2.2.2)
    (b3.step t7 hr) hh7).bind ?_
  · intro t ht o ho
    obtain ⟨h1, h2⟩ := mem_fields.1 ht
    obtain ⟨k, hk, _, rfl⟩ := mem_fallingOf.1 ho
    exact lt hk (by omega)
  · intro t ht
    exact lt (mem_fields.1 ht).1 (mem_fields.1 ht).2
  rintro _ w8 ⟨σ8, h8, s8, hh8⟩
  have t8 := t7.trans s8 (Or.inl rfl)
  have last : Ok (forL (placeRow P.c n (n * n)) (List.range n)) w8 (fun _ w' => ∃ σ', Reachable P w' σ' ∧
      Step σ8 σ' (n * n) ∧ Holds P σ' (n * n) (Raw n)) := by
    refine (loop_ok (C := And) (ψ := fun i x => ∃ j, j < n ∧ x (i * n + j) = 1) hr (List.range n) ?_ h8
      (by rw [t8.ready]; exact o3.2.2.2) (b3.step t8 hr) hh8).mono ?_
    · intro i hi w σ φ h hc hb hh
      exact placeRow_ok hP hB hr (fun j hj => lt (List.mem_range.1 hi) hj) h hc hb hh
    · rintro _ w' ⟨σ', h', s, hh'⟩
      refine ⟨σ', h', s, hh'.congr fun x _ => ?_⟩
      rw [foldl_and]
      unfold Raw
      simp only
  refine last.bind ?_
  rintro _ w9 ⟨σ9, h9, s9, hh9⟩
  have t9 := t8.trans s9 (Or.inl rfl)
  exact Ok.pure ⟨σ9, h9, t9.order.trans o3.1, t9.canon.trans o3.2.1, t9.clean.trans o3.2.2.1, hh9⟩

/-- What the program builds is the n-queens problem. -/
theorem raw_iff {n : Nat} {x : Asg} (hx : ∀ i, i < n * n → x i < 2) : Raw n x ↔ IsSolution n x := by
  unfold Raw
  constructor
  · rintro ⟨⟨⟨⟨⟨-, h1⟩, h2⟩, h3⟩, h4⟩, h5⟩
    have hq : ∀ i, ∃ j, i < n → j < n ∧ x (i * n + j) = 1 := by
      intro i
      by_cases hi : i < n
      · obtain ⟨j, hj, e⟩ := h5 i (List.mem_range.2 hi)
        exact ⟨j, fun _ => ⟨hj, e⟩⟩
      · exact ⟨0, fun h => absurd h hi⟩
    choose q hq using hq
    refine ⟨q, fun r hr => (hq r hr).1, ?_, ?_⟩
    · intro s hs r hrs
      have hr : r < n := by omega
      obtain ⟨q1, q2⟩ := hq r hr
      obtain ⟨p1, p2⟩ := hq s hs
      refine ⟨fun e => ?_, fun e => ?_, fun e => ?_⟩
      · rcases h2 (r, q r) (mem_fieldsByCol.2 ⟨hr, q1⟩) with h | h
        · refine h (s * n + q r) (mem_colOf.2 ⟨s, hs, by dsimp only; omega, rfl⟩) ?_
          rw [e]; exact p2
        · exact h q2
      · rcases h3 (r, q r) (mem_fields.2 ⟨hr, q1⟩) with h | h
        · refine h (s * n + (q r + s - r)) (mem_risingOf.2 ⟨s, hs, by dsimp only; omega, rfl⟩) ?_
          rw [show q r + s - r = q s by omega]; exact p2
        · exact h q2
      · rcases h4 (r, q r) (mem_fields.2 ⟨hr, q1⟩) with h | h
        · refine h (s * n + (q r + r - s)) (mem_fallingOf.2 ⟨s, hs, by dsimp only; omega, rfl⟩) ?_
          rw [show q r + r - s = q s by omega]; exact p2
        · exact h q2
    · intro r hr c hc
      obtain ⟨q1, q2⟩ := hq r hr
      split
      · rename_i e; rw [← e]; exact q2
      · rename_i e
        have hlt := hx (r * n + c) (field_lt hr hc)
        rcases h1 (r, q r) (mem_fields.2 ⟨hr, q1⟩) with h | h
        · have := h (r * n + c) (mem_rowOf.2 ⟨c, hc, e, rfl⟩)
          omega
        · exact absurd q2 h
  · rintro ⟨q, hq, hs, hb⟩
    have key : ∀ {r c}, r < n → c < n → (x (r * n + c) = 1 ↔ q r = c) := by
      intro r c hr hc
      rw [hb r hr c hc]
      split
      · rename_i e; simp [e]
      · rename_i e; simp [e]
    have apart : ∀ {r s}, r < n → s < n → r ≠ s → q r ≠ q s ∧ q r + s ≠ q s + r ∧ q r + r ≠ q s + s := by
      intro r s hr hs' hne
      rcases Nat.lt_or_gt_of_ne hne with h | h
      · exact hs s hs' r h
      · have := hs r hr s h
        omega
    refine ⟨⟨⟨⟨⟨trivial, ?_⟩, ?_⟩, ?_⟩, ?_⟩, ?_⟩
    · intro t ht
      obtain ⟨t1, t2⟩ := mem_fields.1 ht
      refine Classical.or_iff_not_imp_right.2 fun h => ?_
      have h := (key t1 t2).1 (not_not.1 h)
      intro o ho
      obtain ⟨k, hk, hne, rfl⟩ := mem_rowOf.1 ho
      rw [key t1 hk]
      omega
    · intro t ht
      obtain ⟨t1, t2⟩ := mem_fieldsByCol.1 ht
      refine Classical.or_iff_not_imp_right.2 fun h => ?_
      have h := (key t1 t2).1 (not_not.1 h)
      intro o ho
      obtain ⟨k, hk, hne, rfl⟩ := mem_colOf.1 ho
      rw [key hk t2]
      have := apart t1 hk hne
      omega
    · intro t ht
      obtain ⟨t1, t2⟩ := mem_fields.1 ht
      refine Classical.or_iff_not_imp_right.2 fun h => ?_
      have h := (key t1 t2).1 (not_not.1 h)
      intro o ho
      obtain ⟨k, hk, hne, rfl⟩ := mem_risingOf.1 ho
      rw [key hk (by omega)]
      have := apart t1 hk (Ne.symm hne.2.2)
      omega
    · intro t ht
      obtain ⟨t1, t2⟩ := mem_fields.1 ht
      refine Classical.or_iff_not_imp_right.2 fun h => ?_
      have h := (key t1 t2).1 (not_not.1 h)
      intro o ho
      obtain ⟨k, hk, hne, rfl⟩ := mem_fallingOf.1 ho
      rw [key hk (by omega)]
      have := apart t1 hk (Ne.symm hne.2.2)
      omega
    · intro i hi
      have hi := List.mem_range.1 hi
      exact ⟨q i, hq i hi, (key hi (hq i hi)).2 rfl⟩

/-- The board of a placement. -/
def boardOf (n : Nat) (q : Nat → Nat) : Asg := fun m => if m < n * n ∧ q (m / n) = m % n then 1 else 0

theorem boardOf_field {n : Nat} {q : Nat → Nat} {r c : Nat} (hr : r < n) (hc : c < n) :
    boardOf n q (r * n + c) = if q r = c then 1 else 0 := by
  have h1 : (r * n + c) / n = r := by
    rw [Nat.mul_comm, Nat.mul_add_div (by omega), Nat.div_eq_of_lt hc]; omega
  have h2 : (r * n + c) % n = c := by
    rw [Nat.mul_comm, Nat.mul_add_mod, Nat.mod_eq_of_lt hc]
  unfold boardOf
  rw [h1, h2]
  simp [field_lt hr hc]

/-- The solutions and their boards. -/
theorem solutions_perm (n : Nat) (f : Asg → Int) {dom : Nat → Nat} (hdom : ∀ i, i < n * n → dom i = 2)
    (hf : ∀ x, InDomain (n * n) dom x → (f x = 1 ↔ IsSolution n x)) :
    countValue (n * n) dom f 1 = solutions n := by
  unfold countValue solutions allAsg
  rw [← List.length_map (f := boardOf n) (as := List.filter _ (assignments (fun _ => n) (List.range n)))]
  refine List.Perm.length_eq ?_
  refine (List.perm_ext_iff_of_nodup ((nodup_assignments List.nodup_range).filter _) ?_).2 ?_
  · refine List.Nodup.map_on ?_ ((nodup_assignments List.nodup_range).filter _)
    intro q hq q' hq' e
    obtain ⟨m1, -⟩ := List.mem_filter.1 hq
    obtain ⟨m2, -⟩ := List.mem_filter.1 hq'
    obtain ⟨a1, a2⟩ := (mem_assignments List.nodup_range).1 m1
    obtain ⟨b1, b2⟩ := (mem_assignments List.nodup_range).1 m2
    funext r
    by_cases hr : r < n
    · have hlt := a1 r (List.mem_range.2 hr)
      have h1 := boardOf_field (q := q) hr hlt
      rw [e, boardOf_field hr hlt] at h1
      simp only [if_true] at h1
      split at h1
      · rename_i e'; exact e'.symm
      · cases h1
    · rw [a2 r (by simpa using hr), b2 r (by simpa using hr)]
  · intro x
    simp only [List.mem_filter, List.mem_map, decide_eq_true_eq]
    rw [mem_assignments List.nodup_range]
    simp only [List.mem_range]
    constructor
    · rintro ⟨⟨h1, h2⟩, h3⟩
      obtain ⟨q, hq, hs, hb⟩ := (hf x (fun i hi => h1 i hi)).1 h3
      refine ⟨fun r => if r < n then q r else 0, ⟨?_, ?_⟩, ?_⟩
      · rw [mem_assignments List.nodup_range]
        simp only [List.mem_range]
        refine ⟨fun i hi => by rw [if_pos hi]; exact hq i hi, fun i hi => by rw [if_neg hi]⟩
      · intro s hs' r hr
        dsimp only
        rw [if_pos hs', if_pos (by omega : r < n)]
        exact hs s hs' r hr
      · funext m
        by_cases hm : m < n * n
        · have hn : 0 < n := by
            rcases Nat.eq_zero_or_pos n with e | e
            · subst e; simp at hm
            · exact e
          have hr : m / n < n := Nat.div_lt_of_lt_mul hm
          have hc : m % n < n := Nat.mod_lt _ hn
          have e : m = m / n * n + m % n := by
            rw [Nat.mul_comm]; exact (Nat.div_add_mod m n).symm
          rw [e, boardOf_field hr hc, hb _ hr _ hc, if_pos hr]
        · rw [h2 m hm]
          unfold boardOf
          simp [hm]
    · rintro ⟨q, ⟨hq, hs⟩, rfl⟩
      rw [mem_assignments List.nodup_range] at hq
      simp only [List.mem_range] at hq
      have hd : ∀ i, i < n * n → boardOf n q i < dom i := by
        intro i hi
        rw [hdom i hi]
        unfold boardOf
        split <;> omega
      refine ⟨⟨hd, fun i hi => by simp [boardOf, hi]⟩, (hf _ hd).2 ⟨q, hq.1, hs, ?_⟩⟩
      intro r hr c hc
      exact boardOf_field hr hc

/-- Nothing is a solution if row 0 is empty. -/
theorem not_solution_of_row {n r : Nat} {x : Asg} (hr : r < n) (h : ∀ c, c < n → x (r * n + c) = 0) :
    ¬ IsSolution n x := by
  rintro ⟨q, hq, -, hb⟩
  have := hb r hr (q r) (hq r hr)
  rw [h _ (hq r hr), if_pos rfl] at this
  cases this

/-- From nine queens on more than 64 variables are skipped. -/
theorem wide {n : Nat} (hn : 9 ≤ n) {dom : Nat → Nat} (hdom : ∀ i, i < n * n → dom i = 2) {f : Asg → Int}
    (hf : ∀ x, InDomain (n * n) dom x → (f x = 0 ∨ f x = 1) ∧ (f x = 1 ↔ IsSolution n x)) :
    Skips (n * n) dom (List.range (n * n)) f (fun _ => 0) n (n * n) := by
  have hle : n ≤ n * n := Nat.le_mul_of_pos_left n (by omega)
  have zero : ∀ x, InDomain (n * n) dom x → f (fixFirst (List.range (n * n)) n (fun _ => 0) x) = 0 := by
    intro x hx
    have hfix : ∀ i, i < n → fixFirst (List.range (n * n)) n (fun _ => 0) x i = 0 := by
      intro i hi
      unfold fixFirst
      rw [if_pos]
      rw [List.take_range, List.mem_range]
      omega
    have hd : InDomain (n * n) dom (fixFirst (List.range (n * n)) n (fun _ => 0) x) := by
      intro i hi
      unfold fixFirst
      split
      · rw [hdom i hi]; exact Nat.two_pos
      · exact hx i hi
    obtain ⟨h1, h2⟩ := hf _ hd
    rcases h1 with h | h
    · exact h
    · refine absurd (h2.1 h) (not_solution_of_row (r := 0) (by omega) ?_)
      intro c hc
      rw [Nat.zero_mul, Nat.zero_add]
      exact hfix c hc
  intro k _ ⟨x, v, hx, hv, hne⟩
  refine hne ?_
  dsimp only
  rw [zero x hx, zero]
  intro i hi
  simp only [upd_apply]
  split
  · rename_i e; subst e; exact hv
  · exact hx i hi

/-- With eight queens at most 62 variables are skipped. -/
theorem narrow {dom : Nat → Nat} (hdom : ∀ i, i < 64 → dom i = 2) {f : Asg → Int}
    (hf : ∀ x, InDomain 64 dom x → (f x = 0 ∨ f x = 1) ∧ (f x = 1 ↔ IsSolution 8 x)) {y : Asg}
    (hy : InDomain 64 dom y) {i j : Nat} (hij : i ≤ j) (hj : j ≤ 64)
    (hs : Skips 64 dom (List.range 64) f y i j) : j - i < 63 := by
  by_contra hlt
  have hi : i ≤ 1 := by omega
  have hj63 : 63 ≤ j := by omega
  obtain ⟨q, hq, hsol, h0⟩ : ∃ q : Nat → Nat, (∀ r, r < 8 → q r < 8) ∧ Solution 8 q ∧
      boardOf 8 q 0 = y 0 := by
    have := hy 0 (by omega)
    rw [hdom 0 (by omega)] at this
    have : y 0 = 0 ∨ y 0 = 1 := by omega
    rcases this with e | e
    · exact ⟨fun r => [1, 3, 5, 7, 2, 0, 6, 4].getD r 0, by decide, by decide, by rw [e]; decide⟩
    · exact ⟨fun r => [0, 4, 7, 5, 2, 6, 1, 3].getD r 0, by decide, by decide, by rw [e]; decide⟩
  have hq1 := hq 1 (by omega)
  have hb : InDomain 64 dom (boardOf 8 q) := by
    intro m hm
    rw [hdom m hm]
    unfold boardOf
    split <;> omega
  have hb' : InDomain 64 dom (upd (boardOf 8 q) (8 + q 1) 0) := by
    intro m hm
    simp only [upd_apply]
    split
    · rw [hdom m hm]; decide
    · exact hb m hm
  have fix : ∀ x : Asg, x 0 = y 0 → fixFirst (List.range 64) i y x = x := by
    intro x hx
    funext m
    unfold fixFirst
    split
    · rename_i h
      rw [List.take_range, List.mem_range] at h
      have : m = 0 := by omega
      subst this
      exact hx.symm
    · rfl
  refine hs (8 + q 1) ?_ ⟨boardOf 8 q, 0, hb, by rw [hdom _ (by omega)]; decide, ?_⟩
  · rw [List.take_range, List.mem_drop_iff_getElem]
    refine ⟨8 + q 1 - i, by simp; omega, by simp; omega⟩
  · dsimp only
    rw [fix _ h0, fix _ (by rw [upd_other _ _ (by omega)]; exact h0)]
    rw [(hf _ hb).2.2 ⟨q, hq, hsol, fun r hr c hc => boardOf_field hr hc⟩]
    intro e
    refine not_solution_of_row (r := 1) (n := 8) (by omega) ?_ ((hf _ hb').2.1 e)
    intro c hc
    simp only [upd_apply]
    split
    · rfl
    · have := boardOf_field (n := 8) (q := q) (r := 1) (by omega) hc
      rw [this, if_neg]
      omega

/-- There are not too many solutions to count. -/
theorem solutions_le (n : Nat) : solutions n ≤ n ^ n := by
  unfold solutions
  refine (List.length_filter_le _ _).trans ?_
  rw [length_assignments]
  simp [domProd]

end Queens
end Teddy
