import Verif.Experiments
import Verif.Proofs.UnitTests

/-!
# Proofs about the experiments
-/

namespace Teddy
namespace Experiments

open SM Spec Tsl Tests

/-- The derivative. -/
def derivative (type3 : Bool) (f : Asg → Int) (i : Nat) (x : Asg) : Int :=
  if type3 then (if f (upd x i 0) < 1 ∧ 1 ≤ f (upd x i 1) then 1 else 0)
  else (if f (upd x i 0) < f (upd x i 1) then 1 else 0)

section
variable {P : Setup} {w : World} {σ : SState}

/-- `T` holds what `σ` holds. -/
def Keeps (σ τ : SState) : Prop := ∀ j f, σ.Has j f → τ.Has j f

theorem dropNew_ok (hP : P.OK) {T : List (Option (Asg → Int))} (h : Reachable P w (withSlots σ T))
    (hT : Keeps σ (withSlots σ T)) {as : List Nat} (hl : ∀ a ∈ as, σ.slots.length ≤ a ∧ a < T.length) {r : Nat}
    {g : Asg → Int} (hr : (withSlots σ T).Has r g) (hn : r ∉ as) :
    Ok (dropSlots P.c as) w (fun _ w' => ∃ T', Reachable P w' (withSlots σ T') ∧ (withSlots σ T').Has r g ∧
      Keeps σ (withSlots σ T') ∧ T'.length = T.length ∧
      ∀ j g, (withSlots σ T').Has j g → j ∉ as ∧ (withSlots σ T).Has j g) := by
  refine (dropSlots_ok hP h fun a ha => (hl a ha).2).mono ?_
  rintro _ w' ⟨T', h1, h2, h3, h4⟩
  refine ⟨T', h1, (h3 r hn).trans hr, fun j f hj => ?_, h2, fun j g hj => ?_⟩
  rotate_left
  · have hm : j ∉ as := fun hm => by
      have e := (h4 j hm).symm.trans hj
      cases e
    exact ⟨hm, (h3 j hm).symm.trans hj⟩
  refine (h3 j fun hm => ?_).trans (hT j f hj)
  have := (hl j hm).1
  have := hj.lt
  omega

/-- What both ways of making a derivative need. -/
structure Ready (P : Setup) (σ : SState) : Prop where
  auto : σ.auto = false
  cache : σ.cacheOK = true
  one : TermOK P.c 1

theorem Ready.slots (h : Ready P σ) (T : List (Option (Asg → Int))) : Ready P (withSlots σ T) := ⟨h.1, h.2, h.3⟩

theorem direct_ok (hP : P.OK) (h : Reachable P w σ) (hR : Ready P σ) (type3 : Bool) {d i : Nat} {f : Asg → Int}
    (hd : σ.Has d f) (hi : i < P.c.n → 2 ≤ P.c.dom i) :
    Ok (direct type3 P.c d i) w (fun r w' => r = σ.slots.length ∧ ∃ g, (∀ x, g x = derivative type3 f i x) ∧
      Reachable P w' (withSlots σ (σ.slots ++ [some g]))) := by
  have hk : Adm P σ (.dpld ⟨i, 0, 1⟩ (if type3 then Dpld.type3Increase 1 else Dpld.type2Increase) d) :=
    ⟨⟨f, hd⟩, hR.one, fun h => by have := hi h; dsimp only; omega⟩
  refine (newSlot_ok hP h hk rfl (fun _ => rfl) fun _ => hR.auto).mono ?_
  rintro r w' ⟨rfl, h'⟩
  refine ⟨rfl, _, fun x => ?_, h'⟩
  simp only [hd.fn]
  cases type3 <;> simp [derivative, b2i, Dpld.type3Increase, Dpld.type2Increase]

theorem and_bits (p q : Prop) [Decidable p] [Decidable q] :
    Op.AND.val (b2i (decide p)) (b2i (decide q)) = if p ∧ q then 1 else 0 := by
  by_cases hp : p <;> by_cases hq : q <;> simp [hp, hq] <;> decide

theorem bits_decide {c : Cfg} (p : Int → Bool) (f : Asg → Int) : Bits (Range c fun x => b2i (p (f x))) := by
  rintro a ⟨x, -, rfl⟩
  cases h : p (f x) <;> simp [b2i, h]

theorem upd_dom {x : Asg} (hx : Valid P.c x) {i v : Nat} (hv : i < P.c.n → v < P.c.dom i) :
    Valid P.c (upd x i v) := by
  intro j hj
  simp only [upd_apply]
  split
  · subst_vars; exact hv hj
  · exact hx j hj

theorem keep {T : List (Option (Asg → Int))} (U : List (Option (Asg → Int))) {j : Nat} {g : Asg → Int}
    (hj : (withSlots σ T).Has j g) : (withSlots σ (T ++ U)).Has j g := by
  have hl : j < T.length := hj.lt
  show (T ++ U)[j]? = _
  rw [List.getElem?_append_left hl]; exact hj

theorem here (σ : SState) (T : List (Option (Asg → Int))) (g : Asg → Int) : (withSlots σ (T ++ [some g])).Has T.length g := by
  simp [SState.Has, withSlots]

/-- One more diagram. -/
theorem more_ok (hP : P.OK) (hR : Ready P σ) {T : List (Option (Asg → Int))} (h : Reachable P w (withSlots σ T)) {k : Call}
    (hk : Adm P (withSlots σ T) k) {f f' : Asg → Int} (hm : made P.c (withSlots σ T) k = some f)
    (hn : ∀ o, next P.c (withSlots σ T) k o = withSlots (withSlots σ T) (T ++ [some f])) (hf : f = f') :
    Ok (newSlot P.c k) w (fun r w' => r = T.length ∧ Reachable P w' (withSlots σ (T ++ [some f']))) := by
  subst hf
  exact newSlot_ok hP h hk hm hn fun _ => hR.auto

theorem naive3_ok (hP : P.OK) (h : Reachable P w σ) (hR : Ready P σ) {d i : Nat} {f : Asg → Int}
    (hd : σ.Has d f) (hi : i < P.c.n → 2 ≤ P.c.dom i) (hΓ : P.Γ Op.AND.id = Op.AND) :
    Ok (naive3 P.c d i) w (fun r w' => ∃ T g, Reachable P w' (withSlots σ T) ∧ (withSlots σ T).Has r g ∧
      Keeps σ (withSlots σ T) ∧ σ.slots.length ≤ r ∧ (∀ x, InDomain P.c.n P.c.dom x → g x = derivative true f i x) ∧
      ∀ j u, (withSlots σ T).Has j u → j = r ∨ σ.Has j u) := by
  have hop : opType P.c Op.AND = Op.AND := opType_other P.c (by decide)
  have t0 : TermOK P.c 0 := ⟨by decide, fun ha m hm => by have := hR.one.2 ha m hm; omega⟩
  have tb : ∀ b, TermOK P.c (b2i b) := fun b => by cases b; exact t0; exact hR.one
  obtain ⟨S, hS⟩ : ∃ S, S = σ.slots := ⟨_, rfl⟩
  have h : Reachable P w (withSlots σ S) := by rw [hS]; exact h
  have d0 : (withSlots σ S).Has d f := by rw [hS]; exact hd
  unfold naive3
  refine (more_ok hP hR h (k := .cofactor d i 0) (f' := fun x => f (upd x i 0))
    ⟨⟨f, d0⟩, fun h => by have := hi h; omega⟩ rfl (fun _ => rfl) (by rw [d0.fn])).bind ?_
  rintro a w1 ⟨rfl, h1⟩
  have d1 := keep [some fun x => f (upd x i 0)] d0
  refine (more_ok hP hR h1 (k := .cofactor d i 1) (f' := fun x => f (upd x i 1))
    ⟨⟨f, d1⟩, fun h => by have := hi h; omega⟩ rfl (fun _ => rfl) (by rw [d1.fn])).bind ?_
  rintro b w2 ⟨rfl, h2⟩
  have a2 := keep [some fun x => f (upd x i 1)] (here σ S fun x => f (upd x i 0))
  refine (more_ok hP hR h2 (k := .transform _ S.length) (f' := fun x => b2i (decide (f (upd x i 0) < 1)))
    ⟨_, a2, fun v _ => tb _⟩ rfl (fun _ => rfl) (by rw [a2.fn])).bind ?_
  rintro l w3 ⟨rfl, h3⟩
  have b3 := keep [some fun x => b2i (decide (f (upd x i 0) < 1))] (here σ (S ++ [some fun x => f (upd x i 0)]) fun x => f (upd x i 1))
  refine (more_ok hP hR h3 (k := .transform _ (S ++ [some fun x => f (upd x i 0)]).length) (f' := fun x => b2i (decide (f (upd x i 1) ≥ 1)))
    ⟨_, b3, fun v _ => tb _⟩ rfl (fun _ => rfl) (by rw [b3.fn])).bind ?_
  rintro r w4 ⟨rfl, h4⟩
  have l4 := keep [some fun x => b2i (decide (f (upd x i 1) ≥ 1))] (here σ ((S ++ [some fun x => f (upd x i 0)]) ++
    [some fun x => f (upd x i 1)]) fun x => b2i (decide (f (upd x i 0) < 1)))
  have r4 := here σ (((S ++ [some fun x => f (upd x i 0)]) ++ [some fun x => f (upd x i 1)]) ++
    [some fun x => b2i (decide (f (upd x i 0) < 1))]) fun x => b2i (decide (f (upd x i 1) ≥ 1))
  refine (more_ok hP hR h4 (k := .apply Op.AND _ _) (f' := derivative true f i)
    ⟨hR.cache, by rw [hop]; exact hΓ, _, _, l4, r4, by
      rw [hop]
      exact opOK_AND ((bits_decide (fun v => decide (v < 1)) fun x => f (upd x i 0)).vals hR.one)
        ((bits_decide (fun v => decide (v ≥ 1)) fun x => f (upd x i 1)).vals hR.one)⟩ rfl (fun _ => rfl) (by
      rw [l4.fn, r4.fn, hop]
      funext x
      rw [and_bits]
      simp [derivative])).bind ?_
  rintro r w5 ⟨rfl, h5⟩
  have r5 := here σ ((((S ++ [some fun x => f (upd x i 0)]) ++ [some fun x => f (upd x i 1)]) ++
    [some fun x => b2i (decide (f (upd x i 0) < 1))]) ++ [some fun x => b2i (decide (f (upd x i 1) ≥ 1))]) (derivative true f i)
  refine (dropNew_ok hP h5 (fun j g hj => ?_) ?_ r5 ?_).bind ?_
  · rw [List.append_assoc, List.append_assoc, List.append_assoc, List.append_assoc]
    exact keep _ (by rw [hS]; exact hj)
  · intro a ha
    simp only [List.mem_cons, List.not_mem_nil, or_false, List.length_append, List.length_cons, List.length_nil] at ha ⊢
    rw [← hS]
    omega
  · simp only [List.mem_cons, List.not_mem_nil, or_false, List.length_append, List.length_cons, List.length_nil]
    omega
  · rintro _ w6 ⟨T, h6, r6, k6, -, only⟩
    refine Ok.pure ⟨T, _, h6, r6, k6, ?_, fun _ _ => rfl, fun j u hj => ?_⟩
    · rw [← hS]
      simp only [List.length_append]
      omega
    · obtain ⟨o1, o2⟩ := only j u hj
      have hl := o2.lt
      simp only [List.mem_cons, List.not_mem_nil, or_false, List.length_append, List.length_cons, List.length_nil, withSlots,
        not_or] at o1 hl ⊢
      by_cases hs : j < S.length
      · right
        rw [List.append_assoc, List.append_assoc, List.append_assoc, List.append_assoc] at o2
        have := (List.getElem?_append_left hs).symm.trans o2
        rwa [hS] at this
      · omega

theorem naive2_ok (hP : P.OK) (h : Reachable P w σ) (hR : Ready P σ) {d i : Nat} {f : Asg → Int}
    (hd : σ.Has d f) (hi : i < P.c.n → 2 ≤ P.c.dom i) (hΓ : P.Γ Op.LESS.id = Op.LESS)
    (hv : ∀ x, InDomain P.c.n P.c.dom x → TermOK P.c (f x) ∧ f x < Nondetermined) :
    Ok (naive2 P.c d i) w (fun r w' => ∃ T g, Reachable P w' (withSlots σ T) ∧ (withSlots σ T).Has r g ∧
      Keeps σ (withSlots σ T) ∧ σ.slots.length ≤ r ∧ (∀ x, InDomain P.c.n P.c.dom x → g x = derivative false f i x) ∧
      ∀ j u, (withSlots σ T).Has j u → j = r ∨ σ.Has j u) := by
  have hop : opType P.c Op.LESS = Op.LESS := opType_other P.c (by decide)
  have vals : ∀ v, (i < P.c.n → v < P.c.dom i) → Vals P.c (Range P.c fun x => f (upd x i v)) := by
    rintro v hv' _ ⟨x, hx, rfl⟩
    exact hv _ (upd_dom hx hv')
  have h0 : i < P.c.n → 0 < P.c.dom i := fun h => by have := hi h; omega
  have h1' : i < P.c.n → 1 < P.c.dom i := fun h => by have := hi h; omega
  obtain ⟨S, hS⟩ : ∃ S, S = σ.slots := ⟨_, rfl⟩
  have h : Reachable P w (withSlots σ S) := by rw [hS]; exact h
  have d0 : (withSlots σ S).Has d f := by rw [hS]; exact hd
  unfold naive2
  refine (more_ok hP hR h (k := .cofactor d i 0) (f' := fun x => f (upd x i 0))
    ⟨⟨f, d0⟩, h0⟩ rfl (fun _ => rfl) (by rw [d0.fn])).bind ?_
  rintro a w1 ⟨rfl, h1⟩
  have d1 := keep [some fun x => f (upd x i 0)] d0
  refine (more_ok hP hR h1 (k := .cofactor d i 1) (f' := fun x => f (upd x i 1))
    ⟨⟨f, d1⟩, h1'⟩ rfl (fun _ => rfl) (by rw [d1.fn])).bind ?_
  rintro b w2 ⟨rfl, h2⟩
  have a2 := keep [some fun x => f (upd x i 1)] (here σ S fun x => f (upd x i 0))
  have b2 := here σ (S ++ [some fun x => f (upd x i 0)]) fun x => f (upd x i 1)
  refine (more_ok hP hR h2 (k := .apply Op.LESS _ _) (f' := fun x => Op.LESS.val (f (upd x i 0)) (f (upd x i 1)))
    ⟨hR.cache, by rw [hop]; exact hΓ, _, _, a2, b2, by
      rw [hop]
      exact opOK_LESS hR.one (vals 0 h0) (vals 1 h1')⟩ rfl (fun _ => rfl) (by
      rw [a2.fn, b2.fn, hop])).bind ?_
  rintro r w3 ⟨rfl, h3⟩
  have r3 := here σ ((S ++ [some fun x => f (upd x i 0)]) ++ [some fun x => f (upd x i 1)])
    fun x => Op.LESS.val (f (upd x i 0)) (f (upd x i 1))
  refine (dropNew_ok hP h3 (fun j g hj => ?_) ?_ r3 ?_).bind ?_
  · rw [List.append_assoc, List.append_assoc]
    exact keep _ (by rw [hS]; exact hj)
  · intro a ha
    simp only [List.mem_cons, List.not_mem_nil, or_false, List.length_append, List.length_cons, List.length_nil] at ha ⊢
    rw [← hS]
    omega
  · simp only [List.mem_cons, List.not_mem_nil, or_false, List.length_append, List.length_cons, List.length_nil]
    omega
  · rintro _ w4 ⟨T, h4, r4, k4, -, only⟩
    refine Ok.pure ⟨T, _, h4, r4, k4, ?_, fun x hx => ?_, fun j u hj => ?_⟩
    · rw [← hS]
      simp only [List.length_append]
      omega
    · have e0 := (hv _ (upd_dom hx h0)).2
      have e1 := (hv _ (upd_dom hx h1')).2
      rw [nd_val] at e0 e1
      simp only [derivative, BinOp.val, Op.LESS, max32, nd_val, b2i]
      split_ifs <;> simp_all
    · obtain ⟨o1, o2⟩ := only j u hj
      have hl := o2.lt
      simp only [List.mem_cons, List.not_mem_nil, or_false, List.length_append, List.length_cons, List.length_nil, withSlots,
        not_or] at o1 hl ⊢
      by_cases hs : j < S.length
      · right
        rw [List.append_assoc, List.append_assoc] at o2
        have := (List.getElem?_append_left hs).symm.trans o2
        rwa [hS] at this
      · omega

/-- What the way of making a derivative from cofactors needs in addition. -/
def NaiveOK (P : Setup) (type3 : Bool) (f : Asg → Int) : Prop :=
  if type3 then P.Γ Op.AND.id = Op.AND
  else P.Γ Op.LESS.id = Op.LESS ∧ ∀ x, InDomain P.c.n P.c.dom x → TermOK P.c (f x) ∧ f x < Nondetermined

theorem naive_ok (hP : P.OK) (h : Reachable P w σ) (hR : Ready P σ) (type3 : Bool) {d i : Nat} {f : Asg → Int}
    (hd : σ.Has d f) (hi : i < P.c.n → 2 ≤ P.c.dom i) (hn : NaiveOK P type3 f) :
    Ok (naive type3 P.c d i) w (fun r w' => ∃ T g, Reachable P w' (withSlots σ T) ∧ (withSlots σ T).Has r g ∧
      Keeps σ (withSlots σ T) ∧ σ.slots.length ≤ r ∧ (∀ x, InDomain P.c.n P.c.dom x → g x = derivative type3 f i x) ∧
      ∀ j u, (withSlots σ T).Has j u → j = r ∨ σ.Has j u) := by
  cases type3 with
  | true => exact naive3_ok hP h hR hd hi hn
  | false => exact naive2_ok hP h hR hd hi hn.1 hn.2

/-- A loop over indices. -/
theorem derivatives_ok (hP : P.OK) {make : Nat → SM World Nat} {indices : List Nat} {d : Nat} {f : Asg → Int}
    (hm : ∀ i ∈ indices, ∀ w σ, Reachable P w σ → Ready P σ → σ.Has d f → Ok (make i) w (fun r w' =>
      ∃ T, Reachable P w' (withSlots σ T) ∧ r < T.length ∧ σ.slots.length ≤ r ∧ Keeps σ (withSlots σ T))) {count : Nat}
    (hc : count ≤ indices.length) (h : Reachable P w σ) (hR : Ready P σ) (hd : σ.Has d f) :
    Ok (derivatives P.c make indices count) w (fun _ w' => ∃ T, Reachable P w' (withSlots σ T) ∧ Keeps σ (withSlots σ T)) := by
  unfold derivatives
  have key : ∀ (l : List Nat), (∀ i ∈ l, i < indices.length) → ∀ {w : World} {σ : SState}, Reachable P w σ → Ready P σ →
      σ.Has d f → Ok (forL (fun i => do
        match indices[i]? with
        | none => throw .outOfRange
        | some index =>
            let r ← make index
            dropSlots P.c [r]) l) w (fun _ w' => ∃ T, Reachable P w' (withSlots σ T) ∧ Keeps σ (withSlots σ T)) := by
    intro l
    induction l with
    | nil => intro _ w σ h _ _; exact Ok.pure ⟨σ.slots, h, fun _ _ h => h⟩
    | cons i l ih =>
        intro hl w σ h hR hd
        have hi := hl i (by simp)
        rw [forL]
        simp only [List.getElem?_eq_getElem hi]
        refine Ok.bind (Q := fun _ w' => ∃ T, Reachable P w' (withSlots σ T) ∧ Keeps σ (withSlots σ T)) ?_ ?_
        · refine (hm _ (List.getElem_mem hi) w σ h hR hd).bind ?_
          rintro r w1 ⟨T, h1, hr, hr', k1⟩
          refine (dropNew_ok hP h1 k1 (as := [r]) (by simp; omega) (k1 d f hd) ?_).mono ?_
          · have := hd.lt
            simp; omega
          · rintro _ w2 ⟨T', h2, -, k2, -⟩
            exact ⟨T', h2, k2⟩
        · rintro _ w1 ⟨T, h1, k1⟩
          refine (ih (fun i h => hl i (by simp [h])) h1 (hR.slots T) (k1 d f hd)).mono ?_
          rintro _ w2 ⟨T', h2, k2⟩
          exact ⟨T', h2, fun j g hj => k2 j g (k1 j g hj)⟩
  exact key _ (fun i hi => by have := List.mem_range.1 hi; omega) h hR hd

theorem replication_ok (hP : P.OK) (type3 : Bool) {indices : List Nat} {d : Nat} {f : Asg → Int} {count : Nat}
    (hc : count ≤ indices.length) (hi : ∀ i ∈ indices, i < P.c.n → 2 ≤ P.c.dom i) (hn : NaiveOK P type3 f)
    (h : Reachable P w σ) (hR : Ready P σ) (hd : σ.Has d f) :
    Ok (replication type3 P.c d indices count) w (fun _ w' => ∃ T, Reachable P w' (withSlots σ T) ∧
      Keeps σ (withSlots σ T)) := by
  unfold replication
  refine (derivatives_ok hP (make := naive type3 P.c d) (d := d) (f := f) ?_ hc h hR hd).bind ?_
  · intro i hm w σ h hR hd
    refine (naive_ok hP h hR type3 hd (hi i hm) hn).mono ?_
    rintro r w' ⟨T, g, h1, h2, h3, h4, -⟩
    exact ⟨T, h1, h2.lt, h4, h3⟩
  rintro _ w1 ⟨T, h1, k1⟩
  obtain ⟨o, w2, e2, -, -⟩ := sim (reachable_rel hP h1) (k := .clearCache) trivial
  have h2 := Reachable.step (k := .clearCache) h1 trivial e2
  have e : next P.c (withSlots σ T) .clearCache o = withSlots σ T := by
    have := hR.cache
    simp only [next, withSlots]
    rw [← this]
  rw [e] at h2
  refine Ok.bindEq e2 ((derivatives_ok hP (make := direct type3 P.c d) (d := d) (f := f) ?_ hc h2 (hR.slots T) (k1 d f hd)).mono ?_)
  · intro i hm w σ h hR hd
    refine (direct_ok hP h hR type3 hd (hi i hm)).mono ?_
    rintro r w' ⟨rfl, g, -, h1⟩
    exact ⟨_, h1, by simp, Nat.le_refl _, fun j f hj => has_some g hj⟩
  · rintro _ w3 ⟨T', h3, k3⟩
    exact ⟨T', h3, fun j g hj => k3 j g (k1 j g hj)⟩

theorem replications_ok (hP : P.OK) (type3 : Bool) {indices : List Nat} {d : Nat} {f : Asg → Int} {count : Nat}
    (hc : count ≤ indices.length) (hi : ∀ i ∈ indices, i < P.c.n → 2 ≤ P.c.dom i) (hn : NaiveOK P type3 f) :
    ∀ (l : List Nat) {w : World} {σ : SState}, Reachable P w σ → Ready P σ → σ.Has d f →
    Ok (forL (fun _ => replication type3 P.c d indices count) l) w (fun _ w' => ∃ T, Reachable P w' (withSlots σ T) ∧
      Keeps σ (withSlots σ T))
  | [], w, σ, h, _, _ => Ok.pure ⟨σ.slots, h, fun _ _ h => h⟩
  | _ :: l, w, σ, h, hR, hd => by
      rw [forL]
      refine (replication_ok hP type3 hc hi hn h hR hd).bind ?_
      rintro _ w1 ⟨T, h1, k1⟩
      refine (replications_ok hP type3 hc hi hn l h1 (hR.slots T) (k1 d f hd)).mono ?_
      rintro _ w2 ⟨T', h2, k2⟩
      exact ⟨T', h2, fun j g hj => k2 j g (k1 j g hj)⟩

theorem measure_ok (hP : P.OK) (hfit : DomsFit P.c) (h : Reachable P w σ) (hR : Ready P σ) (hcanon : σ.canon = true)
    (hclean : σ.clean = true) (hmin : P.Γ Op.MIN.id = Op.MIN) (hmax : P.Γ (opType P.c Op.MAX).id = opType P.c Op.MAX)
    (hand : P.Γ Op.AND.id = Op.AND) (hless : P.Γ Op.LESS.id = Op.LESS) (type3 : Bool) {terms : List (List Nat)}
    (ht : ExprOK P.c.n terms) {indices : List Nat} {count : Nat} (hc : count ≤ indices.length)
    (hi : ∀ i ∈ indices, i < P.c.n → 2 ≤ P.c.dom i) (repl : Nat) :
    Ok (measure type3 P.c terms indices count repl) w (fun k _ =>
      CountFuns P.c.n P.c.dom (Subfunction P.c.n P.c.dom σ.order (minMaxVal terms)) k) := by
  unfold measure
  refine (makeDiagram_ok hP hfit h hR.auto hR.cache false hmin hmax ht.1 ht.2).bind ?_
  rintro d w1 ⟨T, g, h1, hg, -, hd, -, -⟩
  have hd : (withSlots σ T).Has d g := hd
  obtain ⟨o, e, k, rfl, -, hk⟩ := asks (k := .nodeCountOf d) hP h1 ⟨hclean, g, hd⟩ rfl
  refine Ok.bindEq (askNat_ok e) ?_
  have hn : NaiveOK P type3 g := by
    unfold NaiveOK
    split
    · exact hand
    · refine ⟨hless, fun x hx => ?_⟩
      rw [hg x hx]
      exact vals_var hP hfit _ (varVal_minMax ht hx)
  refine (replications_ok hP type3 hc hi hn (List.range repl) h1 (hR.slots T) hd).bind ?_
  rintro _ w2 -
  refine Ok.pure ?_
  have := hk hcanon
  rw [hd.fn] at this
  exact Spec.SameOn.countSubs hg this

end
end Experiments
end Teddy
