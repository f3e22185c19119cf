import Verif.PlaSpec
import Verif.Proofs.PlaLemmas

namespace Teddy
namespace Pla
open Spec

/-! ### Cutting lists -/

theorem span_eq {α : Type} {p : α → Bool} {l a b : List α} (h : l = a ++ b) (ha : ∀ x ∈ a, p x = true)
    (hb : ∀ x, b.head? = some x → p x = false) : l.takeWhile p = a ∧ l.dropWhile p = b := by
  subst h
  induction a with
  | nil =>
    cases b with
    | nil => exact ⟨rfl, rfl⟩
    | cons x b =>
      have := hb x rfl
      simp [this]
  | cons x a ih =>
    have hx := ha x (by simp)
    obtain ⟨h1, h2⟩ := ih fun y hy => ha y (by simp [hy])
    simp [hx, h1, h2]

theorem span_cut {α : Type} (p : α → Bool) (l : List α) : ∃ a b, l = a ++ b ∧
    (∀ x ∈ a, p x = true) ∧ (∀ x, b.head? = some x → p x = false) ∧ l.takeWhile p = a ∧
    l.dropWhile p = b := by
  refine ⟨_, _, (List.takeWhile_append_dropWhile (p := p)).symm, fun x hx => ?_, fun x hx => ?_, rfl, rfl⟩
  · exact List.all_eq_true.1 List.all_takeWhile x hx
  · have := List.head?_dropWhile_not p l
    rw [hx] at this
    simpa using this

theorem dropWhile_nil {α : Type} {p : α → Bool} {l : List α} :
    l.dropWhile p = [] ↔ ∀ x ∈ l, p x = true := by
  obtain ⟨a, b, e, ha, hb, _, hd⟩ := span_cut p l
  rw [hd]
  constructor
  · rintro rfl x hx
    exact ha x (by simpa [e] using hx)
  · intro h
    cases b with
    | nil => rfl
    | cons x b =>
      have h1 := hb x rfl
      rw [h x (by rw [e]; simp)] at h1
      cases h1

theorem starts_iff {ch : Char} {l : List Char} (hc : isSpace ch = false) :
    Starts ch l ↔ ∃ r, l.dropWhile isSpace = ch :: r := by
  constructor
  · rintro ⟨a, r, ha, _, rfl⟩
    exact ⟨r, (span_eq rfl ha (by rintro x hx; cases hx; exact hc)).2⟩
  · rintro ⟨r, hr⟩
    obtain ⟨a, b, e, ha, _, _, hb⟩ := span_cut isSpace l
    exact ⟨a, r, ha, hc, by rw [e, ← hb, hr]⟩

theorem blank_iff {l : List Char} : Blank l ↔ l.dropWhile isSpace = [] := by
  rw [dropWhile_nil]
  exact Iff.rfl

theorem not_blank_of_starts {ch : Char} {l : List Char} (h : Starts ch l) : ¬ Blank l := by
  obtain ⟨a, r, _, hc, rfl⟩ := h
  intro hb
  have := hb ch (by simp)
  rw [hc] at this
  cases this

theorem starts_inj {ch ch' : Char} {l : List Char} (h : Starts ch l) (h' : Starts ch' l) : ch = ch' := by
  obtain ⟨r, e⟩ := (starts_iff (by obtain ⟨_, _, _, hc, _⟩ := h; exact hc)).1 h
  obtain ⟨r', e'⟩ := (starts_iff (by obtain ⟨_, _, _, hc, _⟩ := h'; exact hc)).1 h'
  rw [e] at e'
  cases e'
  rfl

/-! ### Options -/

theorem noSpace_not {k : List Char} : NoSpace k ↔ ∀ ch ∈ k, (!isSpace ch) = true := by
  unfold NoSpace
  simp

theorem trim_eq {v c : List Char} (hv : Trimmed v) (hc : Blank c) :
    ((v ++ c).reverse.dropWhile isSpace).reverse = v := by
  have := (span_eq (p := isSpace) (l := (v ++ c).reverse) (a := c.reverse) (b := v.reverse) (by simp)
    (by intro x hx; exact hc x (by simpa using hx))
    (by intro x hx; rw [List.head?_reverse] at hx; exact hv.2 x hx)).2
  rw [this, List.reverse_reverse]

theorem declares_iff {l k v : List Char} (hs : Starts '.' l) :
    Declares l k v ↔ splitOption (l.dropWhile isSpace) = (k, v) := by
  constructor
  · rintro ⟨a, b, c, rfl, ha, hb, hc, hk, hk0, hv, hvb⟩
    have h1 : (a ++ (k ++ (b ++ (v ++ c)))).dropWhile isSpace = k ++ (b ++ (v ++ c)) := by
      refine (span_eq rfl ha ?_).2
      intro x hx
      cases k with
      | nil => exact absurd rfl hk0
      | cons y k => cases hx; exact hk _ (by simp)
    have h2 := span_eq (p := fun ch => !isSpace ch) (l := k ++ (b ++ (v ++ c))) rfl
      (noSpace_not.1 hk) (by
        intro x hx
        cases b with
        | cons y b => cases hx; simpa using hb _ (by simp)
        | nil =>
          cases v with
          | cons y v => exact absurd rfl (hvb (by simp))
          | nil =>
            cases c with
            | nil => cases hx
            | cons y c => cases hx; simpa using hc _ (by simp))
    have h3 : ((b ++ (v ++ c)).dropWhile isSpace).reverse.dropWhile isSpace = v.reverse := by
      cases hv0 : v with
      | nil =>
        have : (b ++ ([] ++ c)).dropWhile isSpace = [] := by
          rw [dropWhile_nil]
          intro x hx
          simp only [List.nil_append, List.mem_append] at hx
          exact hx.elim (hb x) (hc x)
        rw [this]; rfl
      | cons y v' =>
        rw [← hv0]
        have : (b ++ (v ++ c)).dropWhile isSpace = v ++ c := by
          refine (span_eq rfl hb ?_).2
          intro x hx
          subst hv0
          cases hx
          exact hv.1 _ rfl
        rw [this]
        rw [← List.reverse_inj, List.reverse_reverse]
        exact trim_eq hv hc
    unfold splitOption
    simp only [h1, h2.1, h2.2, h3, List.reverse_reverse]
  · intro e
    obtain ⟨a, b, e1, ha, hb, _, hd⟩ := span_cut isSpace l
    rw [hd] at e
    obtain ⟨k', r, e2, hk, hr, ht, hd2⟩ := span_cut (fun ch => !isSpace ch) b
    obtain ⟨b', w, e3, hb', hw, _, hd3⟩ := span_cut isSpace r
    obtain ⟨c', w', e4, hc', hw', _, hd4⟩ := span_cut isSpace w.reverse
    unfold splitOption at e
    simp only [ht, hd2, hd3, hd4, Prod.mk.injEq] at e
    obtain ⟨rfl, rfl⟩ := e
    have ew : w = w'.reverse ++ c'.reverse := by
      rw [← List.reverse_append, ← e4, List.reverse_reverse]
    refine ⟨a, b', c'.reverse, by rw [e1, e2, e3, ew], ha, hb', ?_, noSpace_not.2 hk, ?_, ⟨?_, ?_⟩, ?_⟩
    · intro x hx; exact hc' x (by simpa using hx)
    · rintro rfl
      obtain ⟨r', hr'⟩ := (starts_iff (by decide)).1 hs
      rw [hd] at hr'
      subst hr'
      simp only [List.nil_append] at e2
      subst e2
      have := hr '.' rfl
      revert this; decide
    · intro x hx
      apply hw x
      rw [ew]
      cases hw0 : w'.reverse with
      | nil => rw [hw0] at hx; cases hx
      | cons y z => rw [hw0] at hx; exact hx
    · intro x hx
      rw [List.getLast?_reverse] at hx
      exact hw' x hx
    · rintro hne rfl
      cases hr0 : r with
      | nil =>
        rw [hr0] at e3
        simp only [List.nil_append] at e3
        rw [← e3] at ew
        simp at ew
        exact hne (by simp [ew.1])
      | cons y z =>
        have h1 := hr y (by rw [hr0]; rfl)
        have h2 := hw y (by rw [← hr0.symm.trans e3 |> fun h => (by simpa using h : y :: z = w)]; rfl)
        simp [h2] at h1

/-- Key and value of an option line. -/
def optionOf (l : List Char) : Option (List Char × List Char) :=
  match l.dropWhile isSpace with
  | ch :: r => if ch = '.' then some (splitOption (ch :: r)) else none
  | [] => none

/-- The first value of `key` among the lines. -/
def firstOption (key : List Char) : List (List Char) → Option (List Char)
  | [] => none
  | l :: ls => match optionOf l with
    | some kv => if kv.1 = key then some kv.2 else firstOption key ls
    | none => firstOption key ls

theorem optionOf_some {l : List Char} {kv : List Char × List Char} (h : optionOf l = some kv) :
    Starts '.' l ∧ splitOption (l.dropWhile isSpace) = kv := by
  unfold optionOf at h
  split at h
  · rename_i ch r hr
    split at h
    · rename_i e
      subst e
      exact ⟨(starts_iff (by decide)).2 ⟨r, hr⟩, by rw [hr]; exact Option.some.inj h⟩
    · cases h
  · cases h

theorem optionOf_none {l : List Char} (h : optionOf l = none) : ¬ Starts '.' l := by
  intro hs
  obtain ⟨r, hr⟩ := (starts_iff (by decide)).1 hs
  unfold optionOf at h
  simp [hr] at h

theorem firstOption_iff {key v : List Char} {hdr : List (List Char)} :
    firstOption key hdr = some v ↔ Option' hdr key v := by
  induction hdr with
  | nil =>
    constructor
    · intro h; cases h
    · rintro ⟨pre, l, post, e, _⟩; simp at e
  | cons l ls ih =>
    have hcons : (∀ v, ¬ (Starts '.' l ∧ Declares l key v)) → (Option' (l :: ls) key v ↔ Option' ls key v) := by
      intro hl
      constructor
      · rintro ⟨pre, l', post, e, h1, h2, h3⟩
        cases pre with
        | nil => cases e; exact absurd ⟨h1, h2⟩ (hl _)
        | cons p pre =>
          cases e
          exact ⟨pre, l', post, rfl, h1, h2, fun l'' h'' => h3 l'' (by simp [h''])⟩
      · rintro ⟨pre, l', post, rfl, h1, h2, h3⟩
        refine ⟨l :: pre, l', post, rfl, h1, h2, ?_⟩
        intro l'' h'' v
        rcases List.mem_cons.1 h'' with rfl | h''
        · exact hl v
        · exact h3 l'' h'' v
    unfold firstOption
    split
    · rename_i kv hkv
      obtain ⟨hs, hkv⟩ := optionOf_some hkv
      split
      · rename_i hk
        constructor
        · intro e
          cases e
          exact ⟨[], l, ls, rfl, hs, (declares_iff hs).2 (by rw [hkv, ← hk]), by simp⟩
        · rintro ⟨pre, l', post, e, h1, h2, h3⟩
          cases pre with
          | nil =>
            cases e
            have := (declares_iff hs).1 h2
            rw [hkv] at this
            rw [this]
          | cons p pre =>
            cases e
            exact absurd ⟨hs, (declares_iff hs).2 (by rw [hkv, ← hk])⟩ (h3 l (by simp) _)
      · rename_i hk
        rw [ih, hcons]
        rintro v ⟨_, h2⟩
        have := (declares_iff hs).1 h2
        rw [hkv] at this
        exact hk (by rw [this])
    · rename_i hr
      rw [ih, hcons]
      rintro v ⟨hs, _⟩
      exact optionOf_none hr hs

theorem findOption_emplace (o : Options) (kv : List Char × List Char) (k : List Char) :
    findOption (emplace o kv) k = match findOption o k with
      | some v => some v
      | none => if kv.1 = k then some kv.2 else none := by
  unfold emplace
  split
  · rename_i h
    rw [List.any_eq_true] at h
    obtain ⟨e, he, hk⟩ := h
    cases hf : findOption o k with
    | some v => rfl
    | none =>
      by_cases hkv : kv.1 = k
      · exfalso
        unfold findOption at hf
        split at hf
        · cases hf
        · rename_i hn
          rw [List.find?_eq_none] at hn
          exact hn e he (by simpa [hkv] using hk)
      · simp [hkv]
  · unfold findOption
    rw [List.find?_append]
    cases hf : o.find? (fun e => e.1 = k) with
    | some e => rfl
    | none =>
      by_cases hkv : kv.1 = k
      · simp [List.find?, hkv]
      · simp [List.find?, hkv]

/-- The line is a header line (empty, comment or option). -/
theorem header_iff {l : List Char} : Header l ↔ l.dropWhile isSpace = [] ∨
    ∃ r, l.dropWhile isSpace = '#' :: r ∨ l.dropWhile isSpace = '.' :: r := by
  unfold Header
  rw [blank_iff, starts_iff (by decide), starts_iff (by decide), exists_or]

theorem readOptions_eq (text : List Char) : ∀ (ls : List (List Char)) (line : List Char) (o : Options),
    ∃ hdr tail, ls = hdr ++ tail ∧ (∀ l ∈ hdr, Header l) ∧
      (∀ k, findOption (readOptions text ls line o).1 k = (match findOption o k with
        | some v => some v
        | none => firstOption k hdr)) ∧
      ((∃ l rest, tail = l :: rest ∧ ¬ Header l ∧ (readOptions text ls line o).2 = (l, rest)) ∨
        (tail = [] ∧ (readOptions text ls line o).2 =
          (lineAtEnd text ((hdr.getLast?).getD line), []))) := by
  intro ls
  induction ls with
  | nil =>
    intro line o
    refine ⟨[], [], rfl, by simp, fun k => ?_, .inr ⟨rfl, rfl⟩⟩
    simp only [readOptions, firstOption]
    split <;> simp_all
  | cons l ls ih =>
    intro line o
    have step : ∀ o', readOptions text (l :: ls) line o = readOptions text ls l o' → Header l →
        (∀ k, findOption o' k = match findOption o k with
          | some v => some v
          | none => firstOption k [l]) →
        ∃ hdr tail, l :: ls = hdr ++ tail ∧ (∀ l ∈ hdr, Header l) ∧
        (∀ k, findOption (readOptions text (l :: ls) line o).1 k = (match findOption o k with
          | some v => some v
          | none => firstOption k hdr)) ∧
        ((∃ l' rest, tail = l' :: rest ∧ ¬ Header l' ∧
            (readOptions text (l :: ls) line o).2 = (l', rest)) ∨
          (tail = [] ∧ (readOptions text (l :: ls) line o).2 =
            (lineAtEnd text ((hdr.getLast?).getD line), []))) := by
      intro o' e hl ho'
      obtain ⟨hdr, tail, h1, h2, h3, h4⟩ := ih l o'
      refine ⟨l :: hdr, tail, by rw [h1]; rfl, ?_, ?_, ?_⟩
      · intro l' hl'
        rcases List.mem_cons.1 hl' with rfl | hl'
        · exact hl
        · exact h2 l' hl'
      · intro k
        rw [e, h3 k, ho' k]
        cases findOption o k with
        | some v => rfl
        | none =>
          simp only [firstOption]
          cases optionOf l with
          | none => rfl
          | some kv =>
            simp only
            by_cases hk : kv.1 = k
            · simp [hk]
            · simp [hk]
      · rw [e]
        refine h4.imp id ?_
        rintro ⟨h5, h6⟩
        refine ⟨h5, h6.trans ?_⟩
        cases hdr with
        | nil => rfl
        | cons x hdr =>
          rw [List.getLast?_cons_cons, List.getLast?_eq_some_getLast (List.cons_ne_nil x hdr)]
          rfl
    cases hd : l.dropWhile isSpace with
    | nil =>
      refine step o (by simp [readOptions, hd]) (header_iff.2 (.inl hd)) ?_
      intro k
      simp only [firstOption, optionOf, hd]
      split <;> simp_all
    | cons ch r =>
      by_cases h1 : ch = '#'
      · subst h1
        refine step o (by simp [readOptions, hd]) (header_iff.2 (.inr ⟨r, .inl hd⟩)) ?_
        intro k
        simp only [firstOption, optionOf, hd]
        split <;> simp_all
      · by_cases h2 : ch = '.'
        · subst h2
          refine step (emplace o (splitOption ('.' :: r))) (by simp [readOptions, hd])
            (header_iff.2 (.inr ⟨r, .inr hd⟩)) ?_
          intro k
          rw [findOption_emplace]
          simp only [firstOption, optionOf, hd, if_true]
        · refine ⟨[], l :: ls, rfl, by simp, fun k => ?_, .inl ⟨l, ls, rfl, ?_, ?_⟩⟩
          · simp only [firstOption, readOptions, hd, if_neg h1, if_neg h2]
            split <;> simp_all
          · rw [header_iff, hd]
            rintro (h | ⟨r', h | h⟩)
            · cases h
            · cases h; exact h1 rfl
            · cases h; exact h2 rfl
          · simp only [readOptions, hd, if_neg h1, if_neg h2]

/-! ### Numbers -/

theorem digit_iff (ch : Char) : ('0' ≤ ch ∧ ch ≤ '9') ↔ ∃ d, d < 10 ∧ ch = Nat.digitChar d := by
  constructor
  · rintro ⟨h1, h2⟩
    have h1' : 48 ≤ ch.toNat := h1
    have h2' : ch.toNat ≤ 57 := h2
    refine ⟨ch.toNat - 48, by omega, ?_⟩
    have e : Char.ofNat ch.toNat = ch := Char.ofNat_toNat ch
    have hk : ∃ k, k < 10 ∧ ch.toNat = 48 + k := ⟨ch.toNat - 48, by omega, by omega⟩
    obtain ⟨k, hk, hc⟩ := hk
    rw [hc] at e ⊢
    rw [← e, Nat.add_sub_cancel_left]
    clear e hc h1 h2 h1' h2'
    revert k
    decide
  · rintro ⟨d, hd, rfl⟩
    revert d
    decide

theorem digitChar_val {d : Nat} (hd : d < 10) : (Nat.digitChar d).toNat - 48 = d := by
  revert d
  decide

/-- One step of `digits`. -/
def digitStep (a : Option Nat) (ch : Char) : Option Nat :=
  match a with
  | some k => if '0' ≤ ch ∧ ch ≤ '9' then some (10 * k + (ch.toNat - 48)) else none
  | none => none

theorem foldl_none : ∀ l : List Char, l.foldl digitStep none = none
  | [] => rfl
  | _ :: l => foldl_none l

theorem foldl_digits (l : List Char) (a k : Nat) : l.foldl digitStep (some a) = some k ↔
    ∃ ds : List Nat, (∀ d ∈ ds, d < 10) ∧ l = ds.map Nat.digitChar ∧
      k = ds.foldl (fun a d => 10 * a + d) a := by
  induction l generalizing a with
  | nil =>
    constructor
    · intro h; cases h; exact ⟨[], by simp, rfl, rfl⟩
    · rintro ⟨ds, _, h, rfl⟩
      have : ds = [] := by simpa using h.symm
      subst this; rfl
  | cons ch l ih =>
    rw [List.foldl_cons]
    by_cases h : '0' ≤ ch ∧ ch ≤ '9'
    · have e : digitStep (some a) ch = some (10 * a + (ch.toNat - 48)) := by
        simp only [digitStep, if_pos h]
      rw [e, ih]
      obtain ⟨d, hd, rfl⟩ := (digit_iff ch).1 h
      rw [digitChar_val hd]
      constructor
      · rintro ⟨ds, h1, rfl, rfl⟩
        exact ⟨d :: ds, by simpa using ⟨hd, h1⟩, rfl, rfl⟩
      · rintro ⟨ds, h1, h2, rfl⟩
        cases ds with
        | nil => cases h2
        | cons d' ds =>
          simp only [List.map_cons, List.cons.injEq] at h2
          have hd' := h1 d' (by simp)
          have : d' = d := by rw [← digitChar_val hd, ← digitChar_val hd', h2.1]
          subst this
          exact ⟨ds, fun x hx => h1 x (by simp [hx]), h2.2, rfl⟩
    · have e : digitStep (some a) ch = none := by simp only [digitStep, if_neg h]
      rw [e, foldl_none]
      constructor
      · intro h; cases h
      · rintro ⟨ds, h1, h2, _⟩
        cases ds with
        | nil => cases h2
        | cons d ds =>
          simp only [List.map_cons, List.cons.injEq] at h2
          exact absurd ((digit_iff ch).2 ⟨d, h1 d (by simp), h2.1⟩) h

theorem ofDigits_foldl (ds : List Nat) : Nat.ofDigits 10 ds.reverse = ds.foldl (fun a d => 10 * a + d) 0 := by
  rw [Nat.ofDigits_eq_foldr, List.foldr_reverse]
  congr 1
  funext a d
  simp; omega

theorem digits_iff (l : List Char) (k : Nat) : digits l = some k ↔
    ∃ ds : List Nat, ds ≠ [] ∧ (∀ d ∈ ds, d < 10) ∧ l = ds.map Nat.digitChar ∧
      k = Nat.ofDigits 10 ds.reverse := by
  cases l with
  | nil =>
    constructor
    · intro h; cases h
    · rintro ⟨ds, h0, _, h, _⟩
      exact absurd (by simpa using h.symm) h0
  | cons ch l =>
    have e : digits (ch :: l) = (ch :: l).foldl digitStep (some 0) := rfl
    rw [e, foldl_digits]
    constructor
    · rintro ⟨ds, h1, h2, h3⟩
      exact ⟨ds, (by rintro rfl; cases h2), h1, h2, by rw [ofDigits_foldl, h3]⟩
    · rintro ⟨ds, _, h1, h2, h3⟩
      exact ⟨ds, h1, h2, by rw [← ofDigits_foldl, h3]⟩

theorem parseInt_iff {bound v : Int} {l : List Char} :
    parseInt bound l = some v ↔ Numeral l v ∧ -bound ≤ v ∧ v < bound := by
  have key : signedDigits l = some v ↔ Numeral l v := by
    unfold signedDigits
    split
    · rename_i r
      constructor
      · intro h
        split at h
        · rename_i k hk
          cases h
          obtain ⟨ds, h0, h1, rfl, rfl⟩ := (digits_iff r k).1 hk
          exact ⟨ds, h0, h1, .inr ⟨rfl, rfl⟩⟩
        · cases h
      · rintro ⟨ds, h0, h1, ⟨h2, _⟩ | ⟨h2, rfl⟩⟩
        · exfalso
          cases ds with
          | nil => cases h2
          | cons d ds =>
            simp only [List.map_cons, List.cons.injEq] at h2
            have h3 := h1 d (by simp)
            have h2 := h2.1
            exact (show ∀ d, d < 10 → ¬ '-' = Nat.digitChar d by decide) d h3 h2
        · simp only [List.cons.injEq, true_and] at h2
          rw [(digits_iff r _).2 ⟨ds, h0, h1, h2, rfl⟩]
    · rename_i hn
      constructor
      · intro h
        split at h
        · rename_i k hk
          cases h
          obtain ⟨ds, h0, h1, h2, rfl⟩ := (digits_iff l k).1 hk
          exact ⟨ds, h0, h1, .inl ⟨h2, rfl⟩⟩
        · cases h
      · rintro ⟨ds, h0, h1, ⟨h2, rfl⟩ | ⟨h2, rfl⟩⟩
        · rw [(digits_iff l _).2 ⟨ds, h0, h1, h2, rfl⟩]
        · exact absurd h2 (hn _)
  rw [← key]
  unfold parseInt
  split
  · rename_i w hw
    rw [hw]
    split
    · rename_i h
      constructor
      · intro e; cases e; exact ⟨rfl, h⟩
      · rintro ⟨e, _⟩; exact e
    · rename_i h
      constructor
      · intro e; cases e
      · rintro ⟨e, h'⟩; cases e; exact absurd h' h
  · rename_i hn
    rw [hn]
    constructor
    · intro e; cases e
    · rintro ⟨e, _⟩; cases e

/-! ### Data lines -/

theorem charValue_iff {ch : Char} {v : Int} : charValue ch = some v ↔ Symbol ch v := by
  constructor
  · intro h
    unfold charValue at h
    split at h
    · rename_i e; subst e; cases h; exact .zero
    · split at h
      · rename_i e; subst e; cases h; exact .one
      · split at h
        · rename_i e
          cases h
          rcases e with rfl | rfl
          · exact .tilde
          · exact .dash
        · cases h
  · rintro (_ | _ | _ | _) <;> rfl

theorem charValue_storable {A : Bool} {ch : Char} {v : Int} (h : charValue ch = some v) : Storable A v := by
  cases charValue_iff.1 h <;> refine ⟨by decide, by decide, fun _ => by decide⟩

theorem fillCube_ok {A : Bool} {n : Nat} : ∀ (w : List Char) (i : Nat) (c : Cube), c.WF n →
    i + w.length = n →
    (fillCube A w i c = .ok none ∧ ∃ ch ∈ w, charValue ch = none) ∨
    ∃ c', fillCube A w i c = .ok (some c') ∧ c'.WF n ∧ (∀ j, j < i → c'.at j = c.at j) ∧
      ∀ (j : Nat) ch, w[j]? = some ch → ∃ v, Symbol ch v ∧ c'.at (i + j) = low2 v := by
  intro w
  induction w with
  | nil =>
    intro i c hc _
    exact .inr ⟨c, rfl, hc, fun _ _ => rfl, fun j ch h => by simp at h⟩
  | cons ch w ih =>
    intro i c hc hn
    simp only [List.length_cons] at hn
    cases hv : charValue ch with
    | none => exact .inl ⟨by simp [fillCube, hv], ch, by simp, hv⟩
    | some v =>
      obtain ⟨c1, e1, h1, h2⟩ := set_ok (A := A) hc (i := i) (by omega) (charValue_storable hv)
      have e : fillCube A (ch :: w) i c = fillCube A w ((i + 1 : Nat) : Int) c1 := by
        simp only [fillCube, hv, e1]
        rfl
      rw [e]
      rcases ih (i + 1) c1 h1 (by omega) with ⟨h3, ch', h4, h5⟩ | ⟨c', h3, h4, h5, h6⟩
      · exact .inl ⟨h3, ch', by simp [h4], h5⟩
      · refine .inr ⟨c', h3, h4, ?_, ?_⟩
        · intro j hj
          rw [h5 j (by omega), h2 j (by omega), if_neg (by omega)]
        · intro j ch' hj
          cases j with
          | zero =>
            simp only [List.getElem?_cons_zero, Option.some.injEq] at hj
            subst hj
            refine ⟨v, charValue_iff.1 hv, ?_⟩
            rw [Nat.add_zero, h5 i (by omega), h2 i (by omega), if_pos rfl]
          | succ j =>
            simp only [List.getElem?_cons_succ] at hj
            obtain ⟨v', hv', e'⟩ := h6 j ch' hj
            exact ⟨v', hv', by rw [show i + (j + 1) = i + 1 + j by omega]; exact e'⟩

/-- Filling a new cube from a word. -/
theorem fillNew_ok {A : Bool} (w : List Char) : ∃ c, Cube.mk' (w.length : Int) = .ok c ∧
    ((fillCube A w 0 c = .ok none ∧ ∃ ch ∈ w, charValue ch = none) ∨
      ∃ c', fillCube A w 0 c = .ok (some c') ∧ CubeOf A w c') := by
  obtain ⟨c, e, hc, _⟩ := mk_ok w.length
  refine ⟨c, e, (fillCube_ok (A := A) w 0 c hc (by simp)).imp id ?_⟩
  rintro ⟨c', e', hc', _, h⟩
  refine ⟨c', e', hc'.1, ?_⟩
  intro i ch hi
  obtain ⟨v, hv, hat⟩ := h i ch hi
  have hlt : i < w.length := by
    by_contra hlt
    rw [List.getElem?_eq_none (by omega)] at hi
    cases hi
  refine ⟨v, hv, ?_⟩
  rw [get_ok hc' hlt, show c'.at i = low2 v by simpa using hat]
  congr 1
  cases hv <;> rfl

/-- The first two words of a line, as the code cuts them. -/
theorem row_iff {l w1 w2 : List Char} (hb : ¬ Blank l) :
    Row l w1 w2 ↔ (l.dropWhile isSpace).dropWhile (fun ch => !isSpace ch) ≠ [] ∧
      (l.dropWhile isSpace).takeWhile (fun ch => !isSpace ch) = w1 ∧
      (((l.dropWhile isSpace).dropWhile (fun ch => !isSpace ch)).dropWhile isSpace).takeWhile
        (fun ch => !isSpace ch) = w2 := by
  constructor
  · rintro ⟨a, b, c, rfl, ha, h1, h10, hbl, hb0, h2, hc, h2c⟩
    have e1 : (a ++ (w1 ++ (b ++ (w2 ++ c)))).dropWhile isSpace = w1 ++ (b ++ (w2 ++ c)) := by
      refine (span_eq rfl ha ?_).2
      intro x hx
      cases w1 with
      | nil => exact absurd rfl h10
      | cons y w1 => cases hx; exact h1 _ (by simp)
    obtain ⟨e2, e3⟩ := span_eq (p := fun ch => !isSpace ch) (l := w1 ++ (b ++ (w2 ++ c))) rfl
      (noSpace_not.1 h1) (by
        intro x hx
        cases b with
        | nil => exact absurd rfl hb0
        | cons y b => cases hx; simpa using hbl _ (by simp))
    have e4 : (b ++ (w2 ++ c)).dropWhile isSpace = w2 ++ c := by
      refine (span_eq rfl hbl ?_).2
      intro x hx
      cases w2 with
      | nil => rw [h2c rfl] at hx; cases hx
      | cons y w2 => cases hx; exact h2 _ (by simp)
    have e5 : (w2 ++ c).takeWhile (fun ch => !isSpace ch) = w2 := by
      refine (span_eq rfl (noSpace_not.1 h2) ?_).1
      intro x hx
      simpa using hc x hx
    rw [e1, e2, e3, e4, e5]
    exact ⟨by simp [hb0], rfl, rfl⟩
  · obtain ⟨a, l1, e1, ha, hl1, _, hd1⟩ := span_cut isSpace l
    obtain ⟨v1, l2, e2, hv1, hl2, ht2, hd2⟩ := span_cut (fun ch => !isSpace ch) l1
    obtain ⟨b, l3, e3, hbl, hl3, _, hd3⟩ := span_cut isSpace l2
    obtain ⟨v2, c, e4, hv2, hc, ht4, _⟩ := span_cut (fun ch => !isSpace ch) l3
    rw [hd1, hd2, hd3, ht2, ht4]
    rintro ⟨h0, rfl, rfl⟩
    have hbne : b ≠ [] := by
      rintro rfl
      cases hl : l2 with
      | nil => exact h0 hl
      | cons y z =>
        have h1 := hl2 y (by rw [hl]; rfl)
        have h2 := hl3 y (by
          rw [List.nil_append] at e3
          rw [← e3, hl]; rfl)
        simp [h2] at h1
    refine ⟨a, b, c, by rw [e1, e2, e3, e4], ha, noSpace_not.2 hv1, ?_, hbl, hbne, noSpace_not.2 hv2, ?_, ?_⟩
    · rintro rfl
      cases hl : l1 with
      | nil => exact hb (blank_iff.2 (hd1.trans hl))
      | cons y z =>
        have h1 := hl1 y (by rw [hl]; rfl)
        have h2 := hl2 y (by
          rw [List.nil_append] at e2
          rw [← e2, hl]; rfl)
        simp [h1] at h2
    · intro x hx
      simpa using hc x hx
    · rintro rfl
      cases hcc : c with
      | nil => rfl
      | cons y z =>
        have h1 := hc y (by rw [hcc]; rfl)
        have h2 := hl3 y (by
          rw [List.nil_append] at e4
          rw [e4, hcc]; rfl)
        simp [h2] at h1

/-- What the body of the loop does with a line. -/
theorem readLine_ok (A : Bool) (I O : Int) (l : List Char) :
    (Blank l ∧ readLine A I O l = .ok .skip) ∨ (Starts '.' l ∧ readLine A I O l = .ok .stop) ∨
    (¬ Blank l ∧ ¬ Starts '.' l ∧ ¬ Readable I O l ∧ readLine A I O l = .ok .reject) ∨
    (¬ Blank l ∧ ¬ Starts '.' l ∧ Readable I O l ∧ ∃ pl, readLine A I O l = .ok (.row pl) ∧
      LineOf A I O l pl) := by
  cases hd : l.dropWhile isSpace with
  | nil => exact .inl ⟨blank_iff.2 hd, by simp [readLine, hd]⟩
  | cons ch r =>
    by_cases hdot : ch = '.'
    · subst hdot
      exact .inr (.inl ⟨(starts_iff (by decide)).2 ⟨r, hd⟩, by simp [readLine, hd]⟩)
    · have hnb : ¬ Blank l := fun h => by rw [blank_iff, hd] at h; cases h
      have hns : ¬ Starts '.' l := fun h => by
        obtain ⟨r', h⟩ := (starts_iff (by decide)).1 h
        rw [hd] at h
        cases h
        exact hdot rfl
      refine .inr (.inr ?_)
      have hrow := fun w1 w2 => row_iff (l := l) (w1 := w1) (w2 := w2) hnb
      rw [hd] at hrow
      by_cases he : (ch :: r).dropWhile (fun ch => !isSpace ch) = []
      · refine .inl ⟨hnb, hns, ?_, by simp only [readLine, hd, if_neg hdot, he]; rfl⟩
        rintro ⟨w1, w2, hr, _⟩
        exact ((hrow w1 w2).1 hr).1 he
      · have hR := (hrow _ _).2 ⟨he, rfl, rfl⟩
        have huniq : ∀ w1 w2, Row l w1 w2 → (ch :: r).takeWhile (fun ch => !isSpace ch) = w1 ∧
            (((ch :: r).dropWhile (fun ch => !isSpace ch)).dropWhile isSpace).takeWhile
              (fun ch => !isSpace ch) = w2 := fun w1 w2 h => ((hrow w1 w2).1 h).2
        generalize hw1 : (ch :: r).takeWhile (fun ch => !isSpace ch) = w1 at hR huniq
        generalize hw2 : (((ch :: r).dropWhile (fun ch => !isSpace ch)).dropWhile isSpace).takeWhile
          (fun ch => !isSpace ch) = w2 at hR huniq
        have hie : ((ch :: r).dropWhile (fun ch => !isSpace ch)).isEmpty = false := by
          cases h : (ch :: r).dropWhile (fun ch => !isSpace ch) with
          | nil => exact absurd h he
          | cons _ _ => rfl
        by_cases hlen : (w1.length : Int) ≠ I ∨ (w2.length : Int) ≠ O
        · refine .inl ⟨hnb, hns, ?_, ?_⟩
          · rintro ⟨v1, v2, hr, h1, h2, _⟩
            obtain ⟨rfl, rfl⟩ := huniq v1 v2 hr
            exact hlen.elim (fun h => h h1) (fun h => h h2)
          · simp only [readLine, hd, if_neg hdot, hie, hw1, hw2, if_pos hlen]
            rfl
        · have hI : (w1.length : Int) = I := by by_contra h; exact hlen (.inl h)
          have hO : (w2.length : Int) = O := by by_contra h; exact hlen (.inr h)
          obtain ⟨c1, m1, f1⟩ := fillNew_ok (A := A) w1
          obtain ⟨c2, m2, f2⟩ := fillNew_ok (A := A) w2
          rw [hI] at m1
          rw [hO] at m2
          have hsym : ∀ w : List Char, (∃ ch ∈ w, charValue ch = none) → ¬ ∀ ch ∈ w, ∃ v, Symbol ch v := by
            rintro w ⟨ch, h1, h2⟩ h3
            obtain ⟨v, hv⟩ := h3 ch h1
            rw [charValue_iff.2 hv] at h2
            cases h2
          have hsome : ∀ (w : List Char) c, CubeOf A w c → ∀ ch ∈ w, ∃ v, Symbol ch v := by
            intro w c hc ch hch
            obtain ⟨j, hj⟩ := List.mem_iff_getElem?.1 hch
            obtain ⟨v, hv, _⟩ := hc.2 j ch hj
            exact ⟨v, hv⟩
          rcases f1 with ⟨f1, hn1⟩ | ⟨d1, f1, hc1⟩
          · refine .inl ⟨hnb, hns, ?_, ?_⟩
            · rintro ⟨v1, v2, hr, _, _, h1, _⟩
              obtain ⟨rfl, rfl⟩ := huniq v1 v2 hr
              exact hsym _ hn1 h1
            · simp only [readLine, hd, if_neg hdot, hie, hw1, hw2, if_neg hlen, m1, f1]
              rfl
          · rcases f2 with ⟨f2, hn2⟩ | ⟨d2, f2, hc2⟩
            · refine .inl ⟨hnb, hns, ?_, ?_⟩
              · rintro ⟨v1, v2, hr, _, _, _, h2⟩
                obtain ⟨rfl, rfl⟩ := huniq v1 v2 hr
                exact hsym _ hn2 h2
              · simp only [readLine, hd, if_neg hdot, hie, hw1, hw2, if_neg hlen, m1, f1, m2, f2]
                rfl
            · refine .inr ⟨hnb, hns, ⟨w1, w2, hR, hI, hO, hsome _ _ hc1, hsome _ _ hc2⟩, ⟨d1, d2⟩, ?_,
                w1, w2, hR, hI, hO, hc1, hc2⟩
              simp only [readLine, hd, if_neg hdot, hie, hw1, hw2, if_neg hlen, m1, f1, m2, f2]
              rfl

/-- The lines before the first one that starts with a dot. -/
theorem cut_dot (L : List (List Char)) : ∃ body tail, L = body ++ tail ∧ (∀ l ∈ body, ¬ Starts '.' l) ∧
    ∀ l, tail.head? = some l → Starts '.' l := by
  classical
  obtain ⟨a, b, e, ha, hb, _⟩ := span_cut (fun l => decide (¬ Starts '.' l)) L
  exact ⟨a, b, e, fun l hl => of_decide_eq_true (ha l hl), fun l hl => by
    simpa using hb l hl⟩

theorem readData_ok (A : Bool) (I O : Int) : ∀ (rest : List (List Char)) (line : List Char)
    (acc : List Line), ∃ body tail, line :: rest = body ++ tail ∧ (∀ l ∈ body, ¬ Starts '.' l) ∧
      (∀ l, tail.head? = some l → Starts '.' l) ∧
      ((readData A I O rest line acc = .ok none ∧ ∃ l ∈ body, ¬ Blank l ∧ ¬ Readable I O l) ∨
        ((∀ l ∈ body, ¬ Blank l → Readable I O l) ∧
          ∃ new, readData A I O rest line acc = .ok (some (acc ++ new)) ∧
          List.Forall₂ (LineOf A I O) (body.filter fun l => ¬ Blank l) new)) := by
  intro rest
  induction rest with
  | nil =>
    intro line acc
    rcases readLine_ok A I O line with ⟨hb, e⟩ | ⟨hs, e⟩ | ⟨hb, hs, hr, e⟩ | ⟨hb, hs, hr, pl, e, hpl⟩
    · refine ⟨[line], [], rfl, ?_, by simp, .inr ⟨?_, [], ?_, ?_⟩⟩
      · intro l hl
        rw [List.mem_singleton] at hl
        subst hl
        exact fun h => not_blank_of_starts h hb
      · intro l hl hnb
        rw [List.mem_singleton] at hl
        subst hl
        exact absurd hb hnb
      · simp [readData, e]
      · simp [hb]
    · refine ⟨[], [line], rfl, by simp, by simpa using hs, .inr ⟨by simp, [], ?_, .nil⟩⟩
      simp [readData, e]
    · refine ⟨[line], [], rfl, by simpa using hs, by simp, .inl ⟨?_, line, by simp, hb, hr⟩⟩
      simp [readData, e]
    · refine ⟨[line], [], rfl, by simpa using hs, by simp, .inr ⟨by simpa using fun _ => hr, [pl], ?_, ?_⟩⟩
      · simp [readData, e]
      · simpa [hb] using hpl
  | cons l' rest ih =>
    intro line acc
    rcases readLine_ok A I O line with ⟨hb, e⟩ | ⟨hs, e⟩ | ⟨hb, hs, hr, e⟩ | ⟨hb, hs, hr, pl, e, hpl⟩
    · obtain ⟨body, tail, h1, h2, h3, h4⟩ := ih l' acc
      have e' : readData A I O (l' :: rest) line acc = readData A I O rest l' acc := by
        simp [readData, e]
      refine ⟨line :: body, tail, by rw [h1]; rfl, ?_, h3, ?_⟩
      · intro l hl
        rcases List.mem_cons.1 hl with rfl | hl
        · exact fun h => not_blank_of_starts h hb
        · exact h2 l hl
      · rw [e']
        rcases h4 with ⟨h5, l, hl, h6⟩ | ⟨h5, new, h6, h7⟩
        · exact .inl ⟨h5, l, by simp [hl], h6⟩
        · refine .inr ⟨?_, new, h6, ?_⟩
          · intro l hl hnb
            rcases List.mem_cons.1 hl with rfl | hl
            · exact absurd hb hnb
            · exact h5 l hl hnb
          · rw [List.filter_cons_of_neg (by simpa using hb)]
            exact h7
    · refine ⟨[], line :: l' :: rest, rfl, by simp, by simpa using hs, .inr ⟨by simp, [], ?_, .nil⟩⟩
      simp [readData, e]
    · obtain ⟨body, tail, h1, h2, h3⟩ := cut_dot (l' :: rest)
      refine ⟨line :: body, tail, by rw [h1]; rfl, ?_, h3, .inl ⟨?_, line, by simp, hb, hr⟩⟩
      · intro l hl
        rcases List.mem_cons.1 hl with rfl | hl
        · exact hs
        · exact h2 l hl
      · simp [readData, e]
    · obtain ⟨body, tail, h1, h2, h3, h4⟩ := ih l' (acc ++ [pl])
      have e' : readData A I O (l' :: rest) line acc = readData A I O rest l' (acc ++ [pl]) := by
        simp [readData, e]
      refine ⟨line :: body, tail, by rw [h1]; rfl, ?_, h3, ?_⟩
      · intro l hl
        rcases List.mem_cons.1 hl with rfl | hl
        · exact hs
        · exact h2 l hl
      · rw [e']
        rcases h4 with ⟨h5, l, hl, h6⟩ | ⟨h5, new, h6, h7⟩
        · exact .inl ⟨h5, l, by simp [hl], h6⟩
        · refine .inr ⟨?_, pl :: new, by rw [h6]; simp, ?_⟩
          · intro l hl hnb
            rcases List.mem_cons.1 hl with rfl | hl
            · exact hr
            · exact h5 l hl hnb
          · rw [List.filter_cons_of_pos (by simpa using hb)]
            exact .cons hpl h7

/-- The sections of the lines of a text are unique. -/
theorem sections_unique {ls h1 b1 r1 h2 b2 r2 : List (List Char)} (s1 : Sections ls h1 b1 r1)
    (s2 : Sections ls h2 b2 r2) : h1 = h2 ∧ b1 = b2 ∧ r1 = r2 := by
  classical
  have key : ∀ {h b r}, Sections ls h b r → ls.takeWhile (fun l => decide (Header l)) = h ∧
      (ls.dropWhile (fun l => decide (Header l))).takeWhile (fun l => decide (¬ Starts '.' l)) = b ∧
      (ls.dropWhile (fun l => decide (Header l))).dropWhile (fun l => decide (¬ Starts '.' l)) = r := by
    intro h b r s
    have e1 := span_eq (p := fun l => decide (Header l)) s.eq (fun x hx => by simpa using s.header x hx)
      (by
        intro x hx
        cases b with
        | nil => rw [s.none rfl] at hx; cases hx
        | cons y b => cases hx; simpa using s.first _ rfl)
    have e2 := span_eq (p := fun l => decide (¬ Starts '.' l)) (l := b ++ r) rfl
      (fun x hx => by simpa using s.data x hx) (fun x hx => by simpa using s.last x hx)
    rw [e1.1, e1.2]
    exact ⟨rfl, e2⟩
  obtain ⟨a1, a2, a3⟩ := key s1
  obtain ⟨c1, c2, c3⟩ := key s2
  exact ⟨a1.symm.trans c1, a2.symm.trans c2, a3.symm.trans c3⟩

theorem option_unique {hdr : List (List Char)} {k v v' : List Char} (h : Option' hdr k v)
    (h' : Option' hdr k v') : v = v' := by
  rw [← firstOption_iff] at h h'
  rw [h] at h'
  exact Option.some.inj h'

theorem numeral_unique {l : List Char} {v v' : Int} (h : Numeral l v) (h' : Numeral l v') : v = v' := by
  have e : ∀ b : Int, (-b ≤ v ∧ v < b) → (-b ≤ v' ∧ v' < b) → v = v' := by
    intro b h1 h2
    have e1 := parseInt_iff.2 ⟨h, h1⟩
    rw [parseInt_iff.2 ⟨h', h2⟩] at e1
    exact (Option.some.inj e1).symm
  exact e (v.natAbs + v'.natAbs + 1) (by omega) (by omega)

theorem header_none {l : List Char} (h : Header l) : Blank l ∨ Starts '.' l ∨ ∃ r, l.dropWhile isSpace = '#' :: r := by
  rcases h with h | h | h
  · exact .inl h
  · exact .inr (.inr ((starts_iff (by decide)).1 h))
  · exact .inr (.inl h)

/-- A comment is not readable as data. -/
theorem comment_not_readable {I O : Int} {l : List Char} (h : Starts '#' l) : ¬ Readable I O l := by
  rintro ⟨w1, w2, hr, _, _, h1, _⟩
  have := (row_iff (not_blank_of_starts h)).1 hr
  obtain ⟨r, e⟩ := (starts_iff (by decide)).1 h
  rw [e] at this
  have h2 := this.2.1
  rw [List.takeWhile_cons, if_pos (by decide)] at h2
  obtain ⟨v, hv⟩ := h1 '#' (by rw [← h2]; simp)
  cases hv

theorem toWordsLoop_ok : ∀ (f : Nat) (l : List Char), l.length < f → Words l (toWordsLoop f l) := by
  intro f
  induction f with
  | zero => intro l h; exact absurd h (Nat.not_lt_zero _)
  | succ f ih =>
    intro l hl
    unfold toWordsLoop
    split
    · rename_i h
      exact .nil (blank_iff.2 h)
    · rename_i ch r h
      obtain ⟨a, b, e, ha, hb, _, hd⟩ := span_cut isSpace l
      obtain ⟨w, rest, e2, hw, hrest, ht2, hd2⟩ := span_cut (fun ch => !isSpace ch) (ch :: r)
      have hch : isSpace ch = false := hb ch (by rw [← hd, h]; rfl)
      rw [ht2, hd2]
      have hbe : b = w ++ rest := by rw [← hd, h, e2]
      have hne : w ≠ [] := by
        rintro rfl
        rw [List.nil_append] at e2
        have := hrest ch (by rw [← e2]; rfl)
        simp [hch] at this
      rw [hbe] at e
      refine e ▸ .cons ha (noSpace_not.2 hw) hne (fun x hx => by simpa using hrest x hx) (ih rest ?_)
      have := List.length_pos_iff.2 hne
      rw [e] at hl
      simp only [List.length_append] at hl
      omega

theorem toWords_ok (l : List Char) : Words l (toWords l) := toWordsLoop_ok _ _ (Nat.lt_succ_self _)

theorem labels_ok {hdr : List (List Char)} {key : String} :
    Labels hdr key (toWords ((firstOption key.toList hdr).getD [])) := by
  cases h : firstOption key.toList hdr with
  | some val => exact .inl ⟨val, firstOption_iff.1 h, toWords_ok val⟩
  | none =>
    refine .inr ⟨?_, ?_⟩
    · rintro ⟨val, hv⟩
      rw [firstOption_iff.2 hv] at h
      cases h
    · rfl

/-- Lines that end with a newline, and one without. -/
theorem textLines_append {ls : List (List Char)} (h : ∀ l ∈ ls, '\n' ∉ l) (last : List Char)
    (hl : '\n' ∉ last) :
    textLines ((ls.map (· ++ ['\n'])).flatten ++ last) = ls ++ if last = [] then [] else [last] := by
  have h1 : ∀ (l r : List Char), '\n' ∉ l → textLines (l ++ '\n' :: r) = l :: textLines r := by
    intro l r hl
    induction l with
    | nil => simp [textLines]
    | cons ch l ih =>
      simp only [List.mem_cons, not_or] at hl
      rw [List.cons_append, textLines, if_neg (fun e => hl.1 e.symm), ih hl.2]
  have h2 : ∀ l : List Char, '\n' ∉ l → textLines l = if l = [] then [] else [l] := by
    intro l hl
    induction l with
    | nil => rfl
    | cons ch l ih =>
      simp only [List.mem_cons, not_or] at hl
      rw [textLines, if_neg (fun e => hl.1 e.symm), ih hl.2]
      by_cases e : l = []
      · simp [e]
      · simp [e]
  induction ls with
  | nil => simpa using h2 last hl
  | cons l ls ih =>
    simp only [List.map_cons, List.flatten_cons, List.append_assoc, List.cons_append, List.nil_append]
    rw [h1 l _ (h l (by simp)), ih fun l' hl' => h l' (by simp [hl'])]

/-- What `load_file` makes of the lines of a text. -/
theorem loadFile_ok (A : Bool) (text : List Char) : ∃ hdr body rest,
    Sections (textLines text) hdr body rest ∧
    ((loadFile A (some text) = .ok none ∧
        ((¬ ∃ I O N, Number hdr ".i" I ∧ -2 ^ 31 ≤ I ∧ I < 2 ^ 31 ∧ Number hdr ".o" O ∧ -2 ^ 31 ≤ O ∧
            O < 2 ^ 31 ∧ Number hdr ".p" N ∧ -2 ^ 63 ≤ N ∧ N < 2 ^ 63) ∨
          ∃ I O N, Number hdr ".i" I ∧ Number hdr ".o" O ∧ Number hdr ".p" N ∧
            (body = [] ∨ ∃ l ∈ body, ¬ Blank l ∧ ¬ Readable I O l))) ∨
      ∃ I O N, Number hdr ".i" I ∧ -2 ^ 31 ≤ I ∧ I < 2 ^ 31 ∧ Number hdr ".o" O ∧ -2 ^ 31 ≤ O ∧
        O < 2 ^ 31 ∧ Number hdr ".p" N ∧ -2 ^ 63 ≤ N ∧ N < 2 ^ 63 ∧
        ((toInt32 N < 0 ∧ loadFile A (some text) = .error .lengthError) ∨
          (0 ≤ toInt32 N ∧ ∃ file, loadFile A (some text) = .ok (some file) ∧
            List.Forall₂ (LineOf A I O) (body.filter fun l => ¬ Blank l) file.lines ∧
            Labels hdr ".ilb" file.inputLabels ∧ Labels hdr ".ob" file.outputLabels))) := by
  obtain ⟨hdr, tail, h1, h2, h3, h4⟩ := readOptions_eq text (textLines text) [] []
  have h3' : ∀ k, findOption (readOptions text (textLines text) [] []).1 k = firstOption k hdr := h3
  generalize hro : readOptions text (textLines text) [] [] = ro at h3' h4
  obtain ⟨o, line, rest0⟩ := ro
  simp only at h3' h4
  -- the data
  obtain ⟨body, rest, hsec, hdata⟩ : ∃ body rest, Sections (textLines text) hdr body rest ∧
      ∀ I O, (readData A I O rest0 line [] = .ok none ∧
          (body = [] ∨ ∃ l ∈ body, ¬ Blank l ∧ ¬ Readable I O l)) ∨
        ∃ new, readData A I O rest0 line [] = .ok (some new) ∧
          List.Forall₂ (LineOf A I O) (body.filter fun l => ¬ Blank l) new := by
    rcases h4 with ⟨l, rest, rfl, hl, e⟩ | ⟨rfl, e⟩
    · obtain ⟨e, e'⟩ := Prod.mk.inj e
      rw [e, e']
      obtain ⟨body, tail, e1, h5, h6, _⟩ := readData_ok A 0 0 rest l []
      have hne : body ≠ [] := by
        rintro rfl
        rw [List.nil_append] at e1
        exact hl (.inr (.inr (h6 l (by rw [← e1]; rfl))))
      have hsec : Sections (textLines text) hdr body tail :=
        ⟨by rw [h1, e1], h2, by
          intro l' hl'
          cases body with
          | nil => exact absurd rfl hne
          | cons x body =>
            cases hl'
            rw [List.cons_append, List.cons.injEq] at e1
            rw [← e1.1]; exact hl, h5, h6, fun h => absurd h hne⟩
      refine ⟨body, tail, hsec, ?_⟩
      intro I O
      obtain ⟨body', tail', e1', h5', h6', h7⟩ := readData_ok A I O rest l []
      have hne' : body' ≠ [] := by
        rintro rfl
        rw [List.nil_append] at e1'
        exact hl (.inr (.inr (h6' l (by rw [← e1']; rfl))))
      have hsec' : Sections (textLines text) hdr body' tail' :=
        ⟨by rw [h1, e1'], h2, by
          intro l' hl'
          cases body' with
          | nil => exact absurd rfl hne'
          | cons x body' =>
            cases hl'
            rw [List.cons_append, List.cons.injEq] at e1'
            rw [← e1'.1]; exact hl, h5', h6', fun h => absurd h hne'⟩
      obtain ⟨_, rfl, rfl⟩ := sections_unique hsec hsec'
      rcases h7 with ⟨h7, h8⟩ | ⟨_, new, h7, h8⟩
      · exact .inl ⟨h7, .inr h8⟩
      · exact .inr ⟨new, by simpa using h7, h8⟩
    · obtain ⟨rfl, rfl⟩ := Prod.mk.inj e
      refine ⟨[], [], ⟨by simpa using h1, h2, by simp, by simp, by simp, fun _ => rfl⟩, ?_⟩
      have hline : Header (lineAtEnd text (hdr.getLast?.getD [])) := by
        unfold lineAtEnd
        split
        · exact .inl (by intro x hx; cases hx)
        · cases hg : hdr.getLast? with
          | none => exact .inl (by intro x hx; cases hx)
          | some x => exact h2 x (List.mem_of_getLast? hg)
      generalize lineAtEnd text (hdr.getLast?.getD []) = line at hline
      intro I O
      rcases readLine_ok A I O line with ⟨hb, e⟩ | ⟨hs, e⟩ | ⟨hb, hs, hr, e⟩ | ⟨hb, hs, hr, pl, e, hpl⟩
      · refine .inr ⟨[], ?_, .nil⟩
        simp [readData, e]
      · refine .inr ⟨[], ?_, .nil⟩
        simp [readData, e]
      · refine .inl ⟨?_, .inl rfl⟩
        simp [readData, e]
      · rcases hline with h | h | h
        · exact absurd h hb
        · exact absurd hr (comment_not_readable h)
        · exact absurd h hs
  refine ⟨hdr, body, rest, hsec, ?_⟩
  have hnum : ∀ (k : String) (b : Int) (v : Int), (Number hdr k v ∧ -b ≤ v ∧ v < b) ↔
      ∃ val, firstOption k.toList hdr = some val ∧ parseInt b val = some v := by
    intro k b v
    constructor
    · rintro ⟨⟨val, h1, h2⟩, h3⟩
      exact ⟨val, firstOption_iff.2 h1, parseInt_iff.2 ⟨h2, h3⟩⟩
    · rintro ⟨val, h1, h2⟩
      obtain ⟨h3, h4⟩ := parseInt_iff.1 h2
      exact ⟨⟨val, firstOption_iff.1 h1, h3⟩, h4⟩
  by_cases hall : ∃ I O N, Number hdr ".i" I ∧ -2 ^ 31 ≤ I ∧ I < 2 ^ 31 ∧ Number hdr ".o" O ∧ -2 ^ 31 ≤ O ∧
            O < 2 ^ 31 ∧ Number hdr ".p" N ∧ -2 ^ 63 ≤ N ∧ N < 2 ^ 63
  · obtain ⟨I, O, N, hI, hI1, hI2, hO, hO1, hO2, hN, hN1, hN2⟩ := hall
    obtain ⟨vi, fi, pi⟩ := (hnum ".i" (2 ^ 31) I).1 ⟨hI, hI1, hI2⟩
    obtain ⟨vo, fo, po⟩ := (hnum ".o" (2 ^ 31) O).1 ⟨hO, hO1, hO2⟩
    obtain ⟨vp, fp, pp⟩ := (hnum ".p" (2 ^ 63) N).1 ⟨hN, hN1, hN2⟩
    by_cases hneg : toInt32 N < 0
    · refine .inr ⟨I, O, N, hI, hI1, hI2, hO, hO1, hO2, hN, hN1, hN2, .inl ⟨hneg, ?_⟩⟩
      simp only [loadFile, hro, h3', fi, fo, fp, pi, po, pp, if_pos hneg]
    · rcases hdata I O with ⟨e, h5⟩ | ⟨new, e, h5⟩
      · refine .inl ⟨?_, .inr ⟨I, O, N, hI, hO, hN, h5⟩⟩
        simp only [loadFile, hro, h3', fi, fo, fp, pi, po, pp, if_neg hneg, e]
      · refine .inr ⟨I, O, N, hI, hI1, hI2, hO, hO1, hO2, hN, hN1, hN2, .inr ⟨by omega,
          ⟨new, toWords ((firstOption ".ilb".toList hdr).getD []),
            toWords ((firstOption ".ob".toList hdr).getD [])⟩, ?_, h5, labels_ok, labels_ok⟩⟩
        simp only [loadFile, hro, h3', fi, fo, fp, pi, po, pp, if_neg hneg, e]
  · refine .inl ⟨?_, .inl hall⟩
    simp only [loadFile, hro, h3']
    split
    · rename_i vi vo vp fi fo fp
      split
      · rename_i I O N pi po pp
        refine absurd ?_ hall
        have a := (hnum ".i" (2 ^ 31) I).2 ⟨vi, fi, pi⟩
        have b := (hnum ".o" (2 ^ 31) O).2 ⟨vo, fo, po⟩
        have c := (hnum ".p" (2 ^ 63) N).2 ⟨vp, fp, pp⟩
        exact ⟨I, O, N, a.1, a.2.1, a.2.2, b.1, b.2.1, b.2.2, c.1, c.2.1, c.2.2⟩
      · rfl
    · rfl

end Pla
end Teddy
