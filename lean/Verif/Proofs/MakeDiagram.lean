import Verif.MakeDiagram
import Verif.Proofs.Expressions
import Verif.Proofs.Observe

/-!
# Proofs about `make_diagram`
-/

namespace Teddy
namespace Tsl

open SM Spec

/-- Only the handles differ. -/
def withSlots (σ : SState) (T : List (Option (Asg → Int))) : SState := { σ with slots := T }

section
variable {P : Setup} {w : World} {σ : SState}

theorem newSlot_ok {k : Call} (hP : P.OK) (h : Reachable P w σ) (hk : Adm P σ k) {f : Asg → Int}
    (hm : made P.c σ k = some f) (hn : ∀ o, next P.c σ k o = withSlots σ (σ.slots ++ [some f]))
    (ha : k.defers = true → σ.auto = false := by no_defer) :
    Ok (newSlot P.c k) w (fun j w' => j = σ.slots.length ∧
      Reachable P w' (withSlots σ (σ.slots ++ [some f]))) := by
  have R := reachable_rel hP h
  obtain ⟨o, w', e, ho, _⟩ := sim R hk ha
  have ho : o = .slot σ.slots.length := by
    cases k <;> first | exact ho | cases hm
  subst ho
  have hr := Reachable.step h hk e ha
  rw [hn] at hr
  refine ⟨_, w', ?_, rfl, hr⟩
  unfold newSlot
  rw [bind_ok e]
  rfl

theorem variables_ok (hP : P.OK) : ∀ {is : List Nat} {w : World} {σ : SState}, Reachable P w σ →
    (∀ i ∈ is, i < P.c.n) →
    Ok (variablesD P.c is) w (fun js w' => js = List.range' σ.slots.length is.length ∧
      Reachable P w' (withSlots σ (σ.slots ++ is.map fun i => some fun x => (x i : Int))))
  | [], w, σ, h, _ => ⟨[], w, rfl, rfl, by simpa [withSlots] using h⟩
  | i :: is, w, σ, h, hi => by
      have h1 := newSlot_ok (k := .variableD i) hP h (hi i (by simp)) rfl (fun _ => rfl)
      unfold variablesD mapL
      refine h1.bind ?_
      rintro j w1 ⟨rfl, hr⟩
      refine (variables_ok hP (is := is) hr (fun i h => hi i (by simp [h]))).bind ?_
      rintro js w2 ⟨rfl, hr2⟩
      refine Ok.pure ⟨?_, ?_⟩
      · simp [withSlots, List.range'_succ]
      · simpa [withSlots] using hr2

theorem dropSlots_ok (hP : P.OK) : ∀ {as : List Nat} {w : World} {σ : SState}, Reachable P w σ →
    (∀ a ∈ as, a < σ.slots.length) →
    Ok (dropSlots P.c as) w (fun _ w' => ∃ T, Reachable P w' (withSlots σ T) ∧
      T.length = σ.slots.length ∧ (∀ j, j ∉ as → T[j]? = σ.slots[j]?) ∧ ∀ j ∈ as, T[j]? = some none)
  | [], w, σ, h, _ => ⟨(), w, rfl, σ.slots, h, rfl, fun _ _ => rfl, by simp⟩
  | a :: as, w, σ, h, ha => by
      have R := reachable_rel hP h
      have hk : Adm P σ (.drop a) := ha a (by simp)
      obtain ⟨o, w1, e, _, _⟩ := sim R hk
      have hr := Reachable.step h hk e
      obtain ⟨u, w2, e2, T, h1, h2, h3, h4⟩ := dropSlots_ok hP (as := as) hr
        (fun b hb => by simpa [next] using ha b (by simp [hb]))
      refine ⟨(), w2, ?_, T, h1, by simpa [next] using h2, fun j hj => ?_, fun j hj => ?_⟩
      · unfold dropSlots forL
        rw [bind_ok (a := ()) (s' := w1)]
        · exact e2
        · rw [bind_ok e]; rfl
      · rw [h3 j (fun h => hj (by simp [h]))]
        simp only [next]
        rw [List.getElem?_set_ne]
        rintro rfl
        exact hj (by simp)
      · by_cases hm : j ∈ as
        · exact h4 j hm
        · rw [h3 j hm]
          obtain rfl : j = a := by simpa [hm] using hj
          simp only [next]
          rw [List.getElem?_set_self (ha j (by simp))]

/-! ### The operations -/

/-- Values of variables. -/
def VarVal (c : Cfg) (v : Int) : Prop := ∃ i k : Nat, i < c.n ∧ k < c.dom i ∧ v = k

/-- No domain is so large that its values clash with the special ones. -/
def DomsFit (c : Cfg) : Prop := ∀ i, i < c.n → (c.dom i : Int) ≤ Nondetermined

theorem vals_var (hP : P.OK) (hd : DomsFit P.c) : Vals P.c (VarVal P.c) := by
  rintro v ⟨i, k, hi, hk, rfl⟩
  have := hd i hi
  refine ⟨⟨by omega, fun _ m hm => ?_⟩, by omega⟩
  have := hP.cfg.2 m hm i hi
  omega

theorem val_MIN {a b : Int} (ha : a < Nondetermined) (hb : b < Nondetermined) : Op.MIN.val a b = min a b := by
  simp only [BinOp.val, Op.MIN, min32, max32, nd_val] at *
  split_ifs <;> omega

theorem val_MAX (a b : Int) : Op.MAX.val a b = max a b := by
  simp only [BinOp.val, Op.MAX, max32]
  split_ifs <;> omega

theorem val_MAXB {M a b : Int} (ha : a < M) (hb : b < M) : (Op.MAXB M).val a b = max a b := by
  simp only [BinOp.val, Op.MAXB, max32]
  split_ifs <;> omega

theorem opType_MIN (c : Cfg) : opType c Op.MIN = Op.MIN := by
  unfold opType
  cases c.fixedDom with
  | none => rfl
  | some m => simp [Op.MIN, Op.MAX]

theorem opType_MAX (hP : P.OK) {a b : Int} (ha : VarVal P.c a) (hb : VarVal P.c b) :
    (opType P.c Op.MAX).val a b = max a b := by
  unfold opType
  cases h : P.c.fixedDom with
  | none => exact val_MAX a b
  | some m =>
      obtain ⟨i, k, hi, hk, rfl⟩ := ha
      obtain ⟨i', k', hi', hk', rfl⟩ := hb
      have := hP.cfg.2 m h i hi
      have := hP.cfg.2 m h i' hi'
      simp only [if_true]
      exact val_MAXB (by omega) (by omega)

theorem opOK_opTypeMAX (hP : P.OK) (hd : DomsFit P.c) :
    OpOK P.c (opType P.c Op.MAX) (VarVal P.c) (VarVal P.c) := by
  unfold opType
  cases h : P.c.fixedDom with
  | none => exact opOK_MAX (vals_var hP hd) (vals_var hP hd)
  | some m =>
      simp only [if_true]
      by_cases h0 : ∃ i, i < P.c.n
      · obtain ⟨i, hi⟩ := h0
        have key : ∀ a, VarVal P.c a → a < (m : Int) := by
          rintro _ ⟨i, k, hi, hk, rfl⟩
          have := hP.cfg.2 m h i hi
          omega
        refine opOK_MAXB (vals_var hP hd) (vals_var hP hd) key key ?_
        rw [← hP.cfg.2 m h i hi]
        exact hd i hi
      · exact absurd ⟨0, Nat.lt_of_lt_of_le Nat.two_pos hP.vars⟩ h0

theorem varVal_min {c : Cfg} {a b : Int} (ha : VarVal c a) (hb : VarVal c b) : VarVal c (min a b) := by
  rcases min_choice a b with h | h <;> rw [h] <;> assumption

theorem varVal_max {c : Cfg} {a b : Int} (ha : VarVal c a) (hb : VarVal c b) : VarVal c (max a b) := by
  rcases max_choice a b with h | h <;> rw [h] <;> assumption

theorem foldSlot_ok (hP : P.OK) (h : Reachable P w σ) (hauto : σ.auto = false) (hcache : σ.cacheOK = true) (tree : Bool) {op : BinOp}
    (hΓ : P.Γ (opType P.c op).id = opType P.c op) {as : List Nat} {f : Asg → Int} {fs : List (Asg → Int)}
    (ha : σ.HasAll as (f :: fs)) {A : Int → Prop} (hop : OpOK P.c (opType P.c op) A A)
    {m : Int → Int → Int} (hm : ∀ a b, A a → A b → (opType P.c op).val a b = m a b)
    (hcl : ∀ a b, A a → A b → A (m a b)) (has : ∀ a b d, m (m a b) d = m a (m b d))
    (hA : ∀ g ∈ f :: fs, ∀ x, InDomain P.c.n P.c.dom x → A (g x)) :
    Ok (newSlot P.c (foldCall tree op as)) w (fun j w' => j = σ.slots.length ∧ ∃ g,
      (∀ x, InDomain P.c.n P.c.dom x → g x = (fs.map fun g => g x).foldl m (f x)) ∧
      Reachable P w' (withSlots σ (σ.slots ++ [some g]))) := by
  have hcl' : ∀ a b, A a → A b → A ((opType P.c op).val a b) := by
    intro a b ha hb; rw [hm a b ha hb]; exact hcl a b ha hb
  have hfold : ∀ (l : List Int) (a : Int), A a → (∀ b ∈ l, A b) → l.foldl (opType P.c op).val a = l.foldl m a := by
    intro l
    induction l with
    | nil => intro _ _ _; rfl
    | cons b l ih =>
        intro a ha hl
        simp only [List.foldl_cons]
        rw [hm a b ha (hl b (by simp))]
        exact ih _ (hcl a b ha (hl b (by simp))) fun b hb => hl b (by simp [hb])
  have hfold' : ∀ x, InDomain P.c.n P.c.dom x → (fs.map fun g => g x).foldl (opType P.c op).val (f x) =
      (fs.map fun g => g x).foldl m (f x) := by
    intro x hx
    refine hfold _ _ (hA f (by simp) x hx) ?_
    intro b hb
    obtain ⟨g, hg, rfl⟩ := List.mem_map.1 hb
    exact hA g (by simp [hg]) x hx
  cases tree with
  | false =>
      have := newSlot_ok (k := .leftFold op as) hP h
        ⟨hcache, hΓ, f, fs, ha, FoldOK.of_closed hop hcl' hA⟩ rfl (fun _ => rfl)
      refine this.mono ?_
      rintro j w' ⟨rfl, hr⟩
      refine ⟨rfl, _, ?_, hr⟩
      intro x hx
      rw [ha.fn]
      exact hfold' x hx
  | true =>
      have hne : as ≠ [] := by
        rintro rfl
        cases ha
      have := newSlot_ok (k := .treeFold op as) hP h
        ⟨hcache, hΓ, hne, _, ha, TreeOK.of_closed hop hcl' _ hA⟩ rfl (fun _ => rfl)
      refine this.mono ?_
      rintro j w' ⟨rfl, hr⟩
      refine ⟨rfl, _, ?_, hr⟩
      intro x hx
      rw [ha.fn, treeFun_eq hcl' ?_ (fun g hg => hA g hg x hx)]
      · exact hfold' x hx
      · intro a b d ha hb hd
        rw [hm a b ha hb, hm b d hb hd, hm _ d (hcl a b ha hb) hd, hm a _ ha (hcl b d hb hd), has]

/-- Consecutive handles that hold the functions `gs`. -/
theorem hasAll_append (σ : SState) (A B : List (Option (Asg → Int))) : ∀ (gs : List (Asg → Int)),
    SState.HasAll (withSlots σ (A ++ gs.map some ++ B)) (List.range' A.length gs.length) gs := by
  intro gs
  induction gs generalizing A with
  | nil => exact .nil
  | cons g gs ih =>
      rw [List.length_cons, List.range'_succ]
      refine .cons ?_ ?_
      · simp [SState.Has, withSlots]
      · have := ih (A ++ [some g])
        simpa [withSlots, SState.HasAll] using this

theorem varVal_x {c : Cfg} {x : Asg} (hx : InDomain c.n c.dom x) {i : Nat} (hi : i < c.n) : VarVal c (x i) :=
  ⟨i, x i, hi, hx i hi, rfl⟩

theorem varVal_term {c : Cfg} {x : Asg} (hx : InDomain c.n c.dom x) {t : List Nat} (ht : t ≠ [])
    (hi : ∀ i ∈ t, i < c.n) : VarVal c (termVal t x) := by
  unfold termVal
  cases h : (t.map fun i => (x i : Int)).min? with
  | none => simp [List.min?_eq_none_iff, ht] at h
  | some v =>
      obtain ⟨i, hi', rfl⟩ := List.mem_map.1 (List.min?_mem h)
      exact varVal_x hx (hi i hi')

theorem makeTerm_ok (hP : P.OK) (hd : DomsFit P.c) (h : Reachable P w σ) (hauto : σ.auto = false)
    (hcache : σ.cacheOK = true)
    (tree : Bool) (hΓ : P.Γ Op.MIN.id = Op.MIN) {t : List Nat} (ht : t ≠ []) (hi : ∀ i ∈ t, i < P.c.n) :
    Ok (makeTerm P.c tree t) w (fun k w' => ∃ T g, Reachable P w' (withSlots σ T) ∧
      (∀ x, InDomain P.c.n P.c.dom x → g x = termVal t x) ∧
      σ.slots.length ≤ k ∧ k < T.length ∧ T[k]? = some (some g) ∧
      (∀ j, j < σ.slots.length → T[j]? = σ.slots[j]?) ∧
      ∀ j, σ.slots.length ≤ j → j ≠ k → ∀ f, T[j]? ≠ some (some f)) := by
  cases t with
  | nil => exact absurd rfl ht
  | cons i is =>
      unfold makeTerm
      refine (variables_ok hP h hi).bind ?_
      rintro js w1 ⟨rfl, h1⟩
      have ha := hasAll_append σ σ.slots [] ((i :: is).map fun i x => (x i : Int))
      simp only [List.map_map, List.append_nil, List.length_map] at ha
      have hA : ∀ g ∈ (i :: is).map (fun i (x : Asg) => (x i : Int)), ∀ x, InDomain P.c.n P.c.dom x →
          VarVal P.c (g x) := by
        intro g hg x hx
        obtain ⟨j, hj, rfl⟩ := List.mem_map.1 hg
        exact varVal_x hx (hi j hj)
      have hv := vals_var hP hd
      have := foldSlot_ok (op := Op.MIN) (m := min) (A := VarVal P.c) hP h1 hauto hcache tree
        (by rw [opType_MIN]; exact hΓ) ha (by rw [opType_MIN]; exact opOK_MIN hv hv)
        (by intro a b ha hb; rw [opType_MIN]; exact val_MIN (hv a ha).2 (hv b hb).2)
        (fun a b => varVal_min) min_assoc hA
      refine this.bind ?_
      rintro k w2 ⟨rfl, g, hg, h2⟩
      refine (dropSlots_ok hP h2 ?_).bind ?_
      · intro a ha
        simp only [List.mem_range'_1] at ha
        simp only [withSlots, List.length_append, List.length_map, List.length_cons] at ha ⊢
        omega
      rintro _ w3 ⟨T, h3, h4, h5, h6⟩
      refine Ok.pure ⟨T, g, h3, ?_, ?_, ?_, ?_, ?_, ?_⟩
      · intro x hx
        rw [hg x hx]
        simp only [termVal, List.map_cons, List.min?_cons', Option.getD_some, List.map_map]
        rfl
      · simp [withSlots]
      · rw [h4]; simp [withSlots]
      · rw [h5 _ (by simp [withSlots])]
        simp [withSlots]
      · intro j hj
        rw [h5 j (by simp; omega)]
        simp only [withSlots]
        rw [List.append_assoc, List.getElem?_append_left hj]
      · intro j hj hne f hf
        have hlt : j < T.length := lt_of_getElem?_some hf
        rw [h4] at hlt
        simp only [withSlots, List.length_append, List.length_map, List.length_cons, List.length_nil] at hlt hne
        rw [h6 j (by simp only [List.mem_range'_1, List.length_cons]; omega)] at hf
        cases hf

theorem terms_ok (hP : P.OK) (hd : DomsFit P.c) (tree : Bool) (hΓ : P.Γ Op.MIN.id = Op.MIN) :
    ∀ {terms : List (List Nat)} {w : World} {σ : SState}, Reachable P w σ → σ.auto = false → σ.cacheOK = true →
    (∀ t ∈ terms, t ≠ [] ∧ ∀ i ∈ t, i < P.c.n) →
    Ok (mapL (makeTerm P.c tree) terms) w (fun ks w' => ∃ T gs, Reachable P w' (withSlots σ T) ∧
      (withSlots σ T).HasAll ks gs ∧
      List.Forall₂ (fun t g => ∀ x, InDomain P.c.n P.c.dom x → g x = termVal t x) terms gs ∧
      σ.slots.length ≤ T.length ∧ (∀ k ∈ ks, σ.slots.length ≤ k) ∧
      (∀ j, j < σ.slots.length → T[j]? = σ.slots[j]?) ∧
      ∀ j, σ.slots.length ≤ j → j ∉ ks → ∀ f, T[j]? ≠ some (some f))
  | [], w, σ, h, _, _, _ => ⟨[], w, rfl, σ.slots, [], h, .nil, .nil, Nat.le_refl _, by simp, fun _ _ => rfl, by
      intro j hj _ f hf
      have := lt_of_getElem?_some hf
      omega⟩
  | t :: terms, w, σ, h, hauto, hc, ht => by
      have ht0 := ht t (by simp)
      unfold mapL
      refine (makeTerm_ok hP hd h hauto hc tree hΓ ht0.1 ht0.2).bind ?_
      rintro k w1 ⟨T, g, h1, hg, hk1, hk2, hk3, hT, hN⟩
      refine (terms_ok hP hd tree hΓ (terms := terms) h1 hauto hc (fun t h => ht t (by simp [h]))).bind ?_
      rintro ks w2 ⟨T', gs, h2, hgs, hgt, hl, hks, hT', hN'⟩
      have hle : σ.slots.length ≤ T.length := by omega
      refine Ok.pure ⟨T', g :: gs, h2, .cons ?_ hgs, .cons hg hgt, ?_, ?_, ?_, ?_⟩
      · show T'[k]? = _
        rw [hT' k hk2]; exact hk3
      · exact Nat.le_trans hle hl
      · intro k' hk'
        rcases List.mem_cons.1 hk' with rfl | hk'
        · exact hk1
        · exact Nat.le_trans hle (hks k' hk')
      · intro j hj
        rw [hT' j (Nat.lt_of_lt_of_le hj hle)]
        exact hT j hj
      · intro j hj hne f hf
        by_cases hlt : j < T.length
        · rw [hT' j hlt] at hf
          exact hN j hj (fun h => hne (by simp [h])) f hf
        · exact hN' j (by simpa [withSlots] using hlt) (fun h => hne (by simp [h])) f hf

theorem makeDiagram_ok (hP : P.OK) (hd : DomsFit P.c) (h : Reachable P w σ) (hauto : σ.auto = false)
    (hcache : σ.cacheOK = true)
    (tree : Bool) (hmin : P.Γ Op.MIN.id = Op.MIN) (hmax : P.Γ (opType P.c Op.MAX).id = opType P.c Op.MAX)
    {terms : List (List Nat)} (h0 : terms ≠ []) (ht : ∀ t ∈ terms, t ≠ [] ∧ ∀ i ∈ t, i < P.c.n) :
    Ok (makeDiagram P.c tree terms) w (fun k w' => ∃ T g, Reachable P w' (withSlots σ T) ∧
      (∀ x, InDomain P.c.n P.c.dom x → g x = minMaxVal terms x) ∧
      σ.slots.length ≤ k ∧ T[k]? = some (some g) ∧ (∀ j, j < σ.slots.length → T[j]? = σ.slots[j]?) ∧
      ∀ j, σ.slots.length ≤ j → j ≠ k → ∀ f, T[j]? ≠ some (some f)) := by
  unfold makeDiagram
  refine (terms_ok hP hd tree hmin h hauto hcache ht).bind ?_
  rintro ks w1 ⟨T, gs, h1, hgs, hgt, hl, hks, hT, hN⟩
  cases terms with
  | nil => exact absurd rfl h0
  | cons t terms =>
  cases hgt with
  | @cons _ g _ gs' hg hgt =>
      have hA : ∀ g' ∈ g :: gs', ∀ x, InDomain P.c.n P.c.dom x → VarVal P.c (g' x) := by
        have key : ∀ {ts : List (List Nat)} {gs : List (Asg → Int)},
            List.Forall₂ (fun t g => ∀ x, InDomain P.c.n P.c.dom x → g x = termVal t x) ts gs →
            (∀ t ∈ ts, t ≠ [] ∧ ∀ i ∈ t, i < P.c.n) →
            ∀ g' ∈ gs, ∀ x, InDomain P.c.n P.c.dom x → VarVal P.c (g' x) := by
          intro ts gs hgs
          induction hgs with
          | nil => intro _ g hg; simp at hg
          | cons e1 _ ih =>
              intro hh g hg x hx
              rcases List.mem_cons.1 hg with rfl | hg
              · rw [e1 x hx]
                exact varVal_term hx (hh _ (by simp)).1 (hh _ (by simp)).2
              · exact ih (fun t h => hh t (by simp [h])) g hg x hx
        exact key (.cons hg hgt) ht
      have := foldSlot_ok (op := Op.MAX) (m := max) (A := VarVal P.c) hP h1 hauto hcache tree hmax hgs
        (opOK_opTypeMAX hP hd) (fun a b => opType_MAX hP) (fun a b => varVal_max) max_assoc hA
      refine this.bind ?_
      rintro k w2 ⟨rfl, g2, hg2, h2⟩
      have hlt : ∀ a ∈ ks, a < T.length := by
        have key : ∀ {ks : List Nat} {gs : List (Asg → Int)}, (withSlots σ T).HasAll ks gs →
            ∀ a ∈ ks, a < T.length := by
          intro ks gs hgs
          induction hgs with
          | nil => intro a ha; simp at ha
          | cons e1 _ ih =>
              intro a ha
              rcases List.mem_cons.1 ha with rfl | ha
              · exact e1.lt
              · exact ih a ha
        exact key hgs
      refine (dropSlots_ok hP h2 ?_).bind ?_
      · intro a ha
        simp only [withSlots, List.length_append]
        have := hlt a ha
        omega
      rintro _ w3 ⟨T3, h3, h4, h5, h6⟩
      refine Ok.pure ⟨T3, g2, h3, ?_, ?_, ?_, ?_, ?_⟩
      · intro x hx
        rw [hg2 x hx, hg x hx]
        have e : gs'.map (fun g => g x) = terms.map fun t => termVal t x := by
          clear h0 ht hgs hA this hg2
          induction hgt with
          | nil => rfl
          | cons e1 _ ih => simp [e1 x hx, ih]
        rw [e]
        simp only [minMaxVal, List.map_cons, List.max?_cons', Option.getD_some]
      · simpa [withSlots] using hl
      · show T3[T.length]? = _
        rw [h5 _ (fun h => Nat.lt_irrefl _ (hlt _ h))]
        simp [withSlots]
      · intro j hj
        rw [h5 j (fun h => absurd (hks j h) (by omega))]
        simp only [withSlots]
        rw [List.getElem?_append_left (Nat.lt_of_lt_of_le hj hl)]
        exact hT j hj
      · intro j hj hne f hf
        by_cases hm : j ∈ ks
        · rw [h6 j hm] at hf
          cases hf
        · have hlt : j < T3.length := lt_of_getElem?_some hf
          simp only [withSlots] at h4 h5 hne
          rw [h4] at hlt
          simp only [List.length_append, List.length_cons, List.length_nil] at hlt
          rw [h5 j hm, List.getElem?_append_left (by omega)] at hf
          exact hN j hj hm f hf

/-! ### Expression trees -/

theorem termOK_node (hP : P.OK) (hd : DomsFit P.c) {e : ExprNode} (hv : ∀ i ∈ e.vars, i < P.c.n)
    (hc : ∀ v ∈ e.consts, TermOK P.c v ∧ v ≠ Nondetermined) {x : Asg} (hx : Valid P.c x) :
    TermOK P.c (nodeVal x e) ∧ nodeVal x e ≠ Nondetermined := by
  rcases nodeVal_mem x e with ⟨i, hi, h⟩ | h
  · rw [h]
    have := vals_var hP hd _ (varVal_x hx (hv i hi))
    exact ⟨this.1, this.2.ne⟩
  · exact hc _ h

theorem toExpr_ok (hP : P.OK) (hd : DomsFit P.c) : ∀ {e : ExprNode}, (∀ i ∈ e.vars, i < P.c.n) →
    (∀ v ∈ e.consts, TermOK P.c v ∧ v ≠ Nondetermined) → e.toExpr.OK P.c
  | .variableN i, hv, _ => ⟨hv i (by simp [ExprNode.vars]), hd i (hv i (by simp [ExprNode.vars]))⟩
  | .constantN v, _, hc => hc v (by simp [ExprNode.consts])
  | .operation b l r, hv, hc => by
      have hvl : ∀ i ∈ l.vars, i < P.c.n := fun i hi => hv i (by simp [ExprNode.vars, hi])
      have hvr : ∀ i ∈ r.vars, i < P.c.n := fun i hi => hv i (by simp [ExprNode.vars, hi])
      have hcl : ∀ v ∈ l.consts, TermOK P.c v ∧ v ≠ Nondetermined :=
        fun v h => hc v (by simp [ExprNode.consts, h])
      have hcr : ∀ v ∈ r.consts, TermOK P.c v ∧ v ≠ Nondetermined :=
        fun v h => hc v (by simp [ExprNode.consts, h])
      refine ⟨toExpr_ok hP hd hvl hcl, toExpr_ok hP hd hvr hcr, fun x y hx hy => ?_⟩
      rw [toExpr_val, toExpr_val]
      have h1 := termOK_node hP hd hvl hcl hx
      have h2 := termOK_node hP hd hvr hcr hy
      have : opValue b (nodeVal x l) (nodeVal y r) = nodeVal x l ∨
          opValue b (nodeVal x l) (nodeVal y r) = nodeVal y r := by
        unfold opValue
        split_ifs <;> simp
      rcases this with h | h <;> rw [h] <;> assumption

end
end Tsl
end Teddy
