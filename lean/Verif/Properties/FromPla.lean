import Verif.Proofs.PlaLoad
import Verif.Demo

/-!
# Properties of diagrams made from PLA files

C26.
-/

namespace Teddy

open Spec Pla Pla.Spec

/-- Output `j` of the PLA with the given data lines is 1 at `x`: some line with output 1 agrees with `x`
where it has a 0 or a 1. -/
def Covers (body : List (List Char)) (j : Nat) (x : Asg) : Prop :=
  ∃ l ∈ body, ∃ w1 w2, Row l w1 w2 ∧ w2[j]? = some '1' ∧
    ∀ i, (w1[i]? = some '1' → x i = 1) ∧ (w1[i]? = some '0' → x i = 0)

/-- `from_pla` succeeds and returns diagrams of `fs`; what `evaluate` says about the other handles
does not change. -/
def MakesAll (P : Setup) (w : World) (k : Call) (fs : List (Asg → Int)) : Prop :=
  ∃ w', exec P.c k w = .ok (.nats (List.range' w.slots.length fs.length), w') ∧
    (∀ j f, fs[j]? = some f → Denotes P w' (w.slots.length + j) f) ∧
    ∀ j h, Denotes P w j h → Denotes P w' j h

private theorem row_unique {l w1 w2 v1 v2 : List Char} (h : Row l w1 w2) (h' : Row l v1 v2) :
    v1 = w1 ∧ v2 = w2 := by
  have hb : ¬ Blank l := by
    obtain ⟨a, b, c, rfl, _, hn, hne, _⟩ := h
    intro hb
    obtain ⟨ch, r, rfl⟩ := List.exists_cons_of_ne_nil hne
    have h1 := hb ch (by simp)
    rw [hn ch (by simp)] at h1
    cases h1
  obtain ⟨_, rfl, rfl⟩ := (row_iff hb).1 h
  obtain ⟨_, h1, h2⟩ := (row_iff hb).1 h'
  exact ⟨h1.symm, h2.symm⟩

private theorem row_not_blank {l w1 w2 : List Char} (h : Row l w1 w2) : ¬ Blank l := by
  obtain ⟨a, b, c, rfl, _, hn, hne, _⟩ := h
  intro hb
  obtain ⟨ch, r, rfl⟩ := List.exists_cons_of_ne_nil hne
  have h1 := hb ch (by simp)
  rw [hn ch (by simp)] at h1
  cases h1

private theorem cubeOf_vals {A : Bool} {ws : List Char} {c : Cube} (h : CubeOf A ws c) :
    c.size.toNat = ws.length ∧ c.Reads A ∧
    ∀ i, ((c.vals A).getD i 3 = 1 ↔ ws[i]? = some '1') ∧ ((c.vals A).getD i 3 = 0 ↔ ws[i]? = some '0') := by
  obtain ⟨h1, h2⟩ := h
  have hsz : c.size.toNat = ws.length := by omega
  refine ⟨hsz, fun i hi => ?_, fun i => ?_⟩
  · obtain ⟨v, _, hv⟩ := h2 i ws[i] (List.getElem?_eq_getElem (by omega))
    exact ⟨v, hv⟩
  · by_cases hi : i < ws.length
    · obtain ⟨v, hs, hv⟩ := h2 i ws[i] (List.getElem?_eq_getElem hi)
      rw [vals_get (by omega) hv, List.getElem?_eq_getElem hi]
      generalize ws[i] = ch at hs
      cases hs <;> decide
    · have hlen : (c.vals A).length = ws.length := by rw [vals_length, hsz]
      rw [List.getD_eq_getElem?_getD, List.getElem?_eq_none (by omega), List.getElem?_eq_none (by omega)]
      decide

private theorem forall₂_mem {α β : Type} {R : α → β → Prop} {l : List α} {m : List β}
    (h : List.Forall₂ R l m) : (∀ a ∈ l, ∃ b ∈ m, R a b) ∧ ∀ b ∈ m, ∃ a ∈ l, R a b := by
  induction h with
  | nil => exact ⟨fun _ h => (by cases h), fun _ h => (by cases h)⟩
  | cons h1 _ ih =>
    refine ⟨fun a ha => ?_, fun b hb => ?_⟩
    · rcases List.mem_cons.1 ha with rfl | ha
      · exact ⟨_, List.mem_cons_self .., h1⟩
      · obtain ⟨b, hb, hr⟩ := ih.1 a ha
        exact ⟨b, List.mem_cons_of_mem _ hb, hr⟩
    · rcases List.mem_cons.1 hb with rfl | hb
      · exact ⟨_, List.mem_cons_self .., h1⟩
      · obtain ⟨a, ha, hr⟩ := ih.2 b hb
        exact ⟨a, List.mem_cons_of_mem _ ha, hr⟩

private theorem lineOf_iff {A : Bool} {I O : Int} {body : List (List Char)} {file : File}
    (h : List.Forall₂ (LineOf A I O) (body.filter fun l => ¬ Blank l) file.lines) (j : Nat) (x : Asg) :
    (∃ l ∈ file.lines, (l.fVals.vals A).getD j 3 = 1 ∧ Matches (l.cube.vals A) x) ↔ Covers body j x := by
  have hM : ∀ {w1 : List Char} {c : Cube}, CubeOf A w1 c →
      (Matches (c.vals A) x ↔ ∀ i, (w1[i]? = some '1' → x i = 1) ∧ (w1[i]? = some '0' → x i = 0)) := by
    intro w1 c hc
    obtain ⟨e, _, hv⟩ := cubeOf_vals hc
    unfold Matches
    rw [vals_length, e]
    constructor
    · intro hm i
      by_cases hi : i < w1.length
      · rw [← (hv i).1, ← (hv i).2]; exact hm i hi
      · rw [List.getElem?_eq_none (by omega)]; simp
    · intro hm i _
      rw [(hv i).1, (hv i).2]
      exact hm i
  constructor
  · rintro ⟨pl, hpl, h1, hm⟩
    obtain ⟨l, hl, w1, w2, hrow, _, _, c1, c2⟩ := (forall₂_mem h).2 pl hpl
    exact ⟨l, (List.mem_filter.1 hl).1, w1, w2, hrow, (((cubeOf_vals c2).2.2 j).1).1 h1, (hM c1).1 hm⟩
  · rintro ⟨l, hl, w1, w2, hrow, h1, hm⟩
    obtain ⟨pl, hpl, v1, v2, hrow', _, _, c1, c2⟩ := (forall₂_mem h).1 l
      (List.mem_filter.2 ⟨hl, by simpa using row_not_blank hrow⟩)
    obtain ⟨rfl, rfl⟩ := row_unique hrow hrow'
    exact ⟨pl, hpl, (((cubeOf_vals c2).2.2 j).1).2 h1, (hM c1).2 hm⟩

namespace Properties

variable {P : Setup} {w : World} {σ : SState}

/-- After any history without stale cache entries, `from_pla` on a file whose lines have the same number
of outputs and at most as many inputs as the manager has variables makes for each output the disjunction,
over the lines with output 1, of the conjunctions of their literals, with either way of folding.

Missing for the full property: files without lines and lines with output 1 and only don't cares
(`C26_violated`, `C26_violated_lines`). -/
theorem C26_cover_partial (hP : P.OK) (h : Reachable P w σ) (hauto : σ.auto = false) (hc : σ.cacheOK = true)
    (h2 : P.c.fixedDom = some 2) (hand : P.Γ Op.AND.id = Op.AND) (hor : P.Γ Op.OR.id = Op.OR)
    {file : File} (hf : PlaOK P.c.asserts P.c.n file) (tree : Bool) :
    MakesAll P w (.fromPla file tree) (plaFuns P.c.asserts file) := by
  have R := reachable_rel hP h
  obtain ⟨o, w', e, rfl, R'⟩ := fromPla_sim (tree := tree) R ⟨hc, hand, hor, h2, hf⟩ hauto
  refine ⟨w', by rw [R.len]; exact e, fun j f hj => R'.denotes ?_, fun j f hj => ?_⟩
  · unfold SState.Has
    dsimp only
    rw [R.len, List.getElem?_append_right (by omega), List.getElem?_map,
      show σ.slots.length + j - σ.slots.length = j by omega, hj]
    rfl
  · obtain ⟨f', hf', hs⟩ := R.of_denotes hj
    refine (R'.denotes (f := f') ?_).congr hs
    unfold SState.Has
    dsimp only
    rw [List.getElem?_append_left hf'.lt]
    exact hf'

/-- From the text to the diagrams: if `load_file` accepts a text with at most as many inputs as the
manager has variables, at least one line, and a 0 or 1 in the inputs of every line with an output 1, then
`from_pla` makes for each declared output a diagram that is 1 where the text covers the assignment and 0
elsewhere. -/
theorem C26_text_partial (hP : P.OK) (h : Reachable P w σ) (hauto : σ.auto = false) (hc : σ.cacheOK = true)
    (h2 : P.c.fixedDom = some 2) (hand : P.Γ Op.AND.id = Op.AND) (hor : P.Γ Op.OR.id = Op.OR)
    {text : List Char} {file : File} (hload : loadFile P.c.asserts (some text) = .ok (some file))
    {hdr body rest : List (List Char)} {I O : Int} (hs : Sections (textLines text) hdr body rest)
    (hI : Number hdr ".i" I) (hO : Number hdr ".o" O) (hn : I ≤ P.c.n) (hne : body ≠ [])
    (hlit : ∀ l ∈ body, ∀ w1 w2, Row l w1 w2 → '1' ∈ w2 → '0' ∈ w1 ∨ '1' ∈ w1) (tree : Bool) :
    ∃ fs : List (Asg → Int), fs.length = O ∧ MakesAll P w (.fromPla file tree) fs ∧
      ∀ j f, fs[j]? = some f → ∀ x, (Covers body j x → f x = 1) ∧ (¬ Covers body j x → f x = 0) := by
  have uniq : ∀ {key : String} {v v' : Int}, Number hdr key v → Number hdr key v' → v = v' := by
    rintro key v v' ⟨x, hx, nx⟩ ⟨y, hy, ny⟩
    cases option_unique hx hy
    exact numeral_unique nx ny
  obtain ⟨hdr', body', rest', hs', hcase⟩ := loadFile_ok P.c.asserts text
  obtain ⟨rfl, rfl, rfl⟩ := sections_unique hs' hs
  rcases hcase with ⟨e, _⟩ | ⟨I', O', N, hI', _, _, hO', _, _, hN, _, _, ⟨_, e⟩ | ⟨_, f, e, hl, _, _⟩⟩
  · rw [e] at hload; cases hload
  · rw [e] at hload; cases hload
  rw [e] at hload
  cases hload
  cases uniq hI hI'
  cases uniq hO hO'
  have hmem := forall₂_mem hl
  have hlines : file.lines ≠ [] := by
    obtain ⟨b, bs, rfl⟩ := List.exists_cons_of_ne_nil hne
    have hb : ¬ Blank b := fun hb => hs.first b rfl (.inl hb)
    obtain ⟨pl, hpl, _⟩ := hmem.1 b (List.mem_filter.2 ⟨List.mem_cons_self .., by simpa using hb⟩)
    exact List.ne_nil_of_mem hpl
  have hout : ∀ pl ∈ file.lines, pl.fVals.size = O := by
    intro pl hpl
    obtain ⟨l, _, w1, w2, _, _, e2, _, c2⟩ := hmem.2 pl hpl
    rw [c2.1, e2]
  have hok : PlaOK P.c.asserts P.c.n file := by
    refine ⟨hlines, fun l hl l' hl' => (hout l hl).trans (hout l' hl').symm, ?_, ?_, ?_⟩
    · intro pl hpl
      obtain ⟨l, _, w1, w2, _, e1, _, c1, _⟩ := hmem.2 pl hpl
      rw [c1.1, e1]; exact hn
    · intro pl hpl
      obtain ⟨l, _, w1, w2, _, _, _, c1, c2⟩ := hmem.2 pl hpl
      exact ⟨(cubeOf_vals c1).2.1, (cubeOf_vals c2).2.1⟩
    · intro pl hpl h1
      obtain ⟨l, hl, w1, w2, hrow, _, _, c1, c2⟩ := hmem.2 pl hpl
      obtain ⟨j, hj⟩ := List.getElem?_of_mem h1
      have hj1 := (((cubeOf_vals c2).2.2 j).1).1 (by rw [List.getD_eq_getElem?_getD, hj]; rfl)
      have key : ∀ i : Nat, w1[i]? = some '0' ∨ w1[i]? = some '1' →
          ∃ v ∈ pl.cube.vals P.c.asserts, v = 0 ∨ v = 1 := by
        intro i hi
        have hlt : i < (pl.cube.vals P.c.asserts).length := by
          rw [vals_length, (cubeOf_vals c1).1]
          rcases hi with hi | hi <;> exact (List.getElem?_eq_some_iff.1 hi).1
        refine ⟨(pl.cube.vals P.c.asserts)[i], List.getElem_mem _, ?_⟩
        have hv := (cubeOf_vals c1).2.2 i
        rw [List.getD_eq_getElem?_getD, List.getElem?_eq_getElem hlt] at hv
        rcases hi with hi | hi
        · exact .inl (hv.2.2 hi)
        · exact .inr (hv.1.2 hi)
      rcases hlit l (List.mem_filter.1 hl).1 w1 w2 hrow (List.mem_of_getElem? hj1) with hz | hz
      · obtain ⟨i, hi⟩ := List.getElem?_of_mem hz
        exact key i (.inl hi)
      · obtain ⟨i, hi⟩ := List.getElem?_of_mem hz
        exact key i (.inr hi)
  refine ⟨plaFuns P.c.asserts file, ?_, C26_cover_partial hP h hauto hc h2 hand hor hok tree, ?_⟩
  · obtain ⟨pl, pls, e⟩ := List.exists_cons_of_ne_nil hlines
    have e1 := hout pl (by rw [e]; exact List.mem_cons_self ..)
    have e2 : 0 ≤ pl.fVals.size := by
      obtain ⟨l, _, w1, w2, _, _, e2, _, c2⟩ := hmem.2 pl (by rw [e]; exact List.mem_cons_self ..)
      rw [c2.1]; omega
    unfold plaFuns
    rw [e]
    simp only [List.length_map, List.length_range]
    omega
  · intro j f hj x
    have : f = plaFun P.c.asserts file j := by
      unfold plaFuns at hj
      split at hj
      · cases hj
      · rw [List.getElem?_map, Option.map_eq_some_iff] at hj
        obtain ⟨j', hj', rfl⟩ := hj
        rw [List.getElem?_range (by
          have := (List.getElem?_eq_some_iff.1 hj').1
          simpa using this)] at hj'
        cases hj'
        rfl
    subst this
    unfold plaFun
    refine ⟨fun hx => if_pos ((lineOf_iff hl j x).2 hx), fun hx => if_neg fun hx' => hx ((lineOf_iff hl j x).1 hx')⟩

/-- The file of the text
```
.i 3
.o 2
.p 3
1-0 11
01- 10
--- 0-
```
-/
def demoFile : File :=
  ⟨[⟨⟨3, [⟨1, 3, 0, 0⟩]⟩, ⟨2, [⟨1, 1, 0, 0⟩]⟩⟩, ⟨⟨3, [⟨0, 1, 3, 0⟩]⟩, ⟨2, [⟨1, 0, 0, 0⟩]⟩⟩,
    ⟨⟨3, [⟨3, 3, 3, 0⟩]⟩, ⟨2, [⟨0, 3, 0, 0⟩]⟩⟩], [], []⟩

/-- It is what `load_file` returns. -/
example : loadFile true (some ".i 3\n.o 2\n.p 3\n1-0 11\n01- 10\n--- 0-\n".toList) = .ok (some demoFile) := by
  decide +kernel

theorem demoFile_ok : PlaOK true 3 demoFile where
  lines := by decide
  outputs := by decide
  inputs := by decide
  reads := by
    intro l hl
    simp only [demoFile, List.mem_cons, List.not_mem_nil, or_false] at hl
    have key : ∀ (n : Nat) (b : Byte), n < 4 → (⟨n, [b]⟩ : Cube).Reads true := by
      intro n b hn i hi
      exact ⟨_, get_ok (n := n) ⟨rfl, by simp; omega⟩ (by simpa using hi)⟩
    rcases hl with rfl | rfl | rfl <;> exact ⟨key 3 _ (by decide), key 2 _ (by decide)⟩
  literals := by decide

/-- The hypotheses of `C26_cover_partial` are met: output 0 of the example is x0 ¬x2 ∨ ¬x0 x1. -/
example : ∃ w σ, Reachable bdd3 w σ ∧ MakesAll bdd3 w (.fromPla demoFile true) (plaFuns true demoFile) ∧
    (plaFuns true demoFile).length = 2 ∧ ∀ x, plaFun true demoFile 0 x = 1 ↔
      (x 0 = 1 ∧ x 2 = 0) ∨ (x 0 = 0 ∧ x 1 = 1) := by
  obtain ⟨w, h⟩ := bdd3_world
  refine ⟨w, _, h, C26_cover_partial bdd3_ok h rfl rfl rfl rfl rfl demoFile_ok true, rfl, fun x => ?_⟩
  have hv : demoFile.lines.map (fun l => ((l.fVals.vals true).getD 0 3, l.cube.vals true)) =
    [(1, [1, 3, 0]), (1, [0, 1, 3]), (0, [3, 3, 3])] := by decide
  simp only [demoFile, List.map_cons, List.map_nil, List.cons.injEq, Prod.mk.injEq, and_true] at hv
  unfold plaFun
  simp only [demoFile, List.mem_cons, List.not_mem_nil, or_false, exists_eq_or_imp, exists_eq_left, hv,
    Matches]
  simp [Nat.forall_lt_succ_right]
  omega

/-- The hypotheses of `C26_text_partial` are met by the text of the example. -/
example : ∃ hdr body rest,
    Sections (textLines (".i 3\n.o 2\n.p 3\n1-0 11\n01- 10\n--- 0-\n").toList) hdr body rest ∧
    Number hdr ".i" 3 ∧ Number hdr ".o" 2 ∧ body ≠ [] ∧
    ∀ l ∈ body, ∀ w1 w2, Row l w1 w2 → '1' ∈ w2 → '0' ∈ w1 ∨ '1' ∈ w1 := by
  have st : ∀ ch r, isSpace ch = false → Starts ch (ch :: r) := fun ch r h => ⟨[], r, by simp [Blank], h, rfl⟩
  have row : ∀ l v1 v2 w1 w2 : List Char, Row l v1 v2 → ('1' ∈ v2 → '0' ∈ v1 ∨ '1' ∈ v1) → Row l w1 w2 →
      '1' ∈ w2 → '0' ∈ w1 ∨ '1' ∈ w1 := by
    intro l v1 v2 w1 w2 h h1 h'
    obtain ⟨rfl, rfl⟩ := row_unique h h'
    exact h1
  refine ⟨[".i 3".toList, ".o 2".toList, ".p 3".toList],
    ["1-0 11".toList, "01- 10".toList, "--- 0-".toList], [],
    ⟨by decide, fun l hl => .inr (.inr ?_), ?_, ?_, ?_, by decide⟩,
    ⟨['3'], firstOption_iff.1 (by decide), [3], by decide, by decide, .inl (by decide)⟩,
    ⟨['2'], firstOption_iff.1 (by decide), [2], by decide, by decide, .inl (by decide)⟩, by decide, ?_⟩
  · simp only [List.mem_cons, List.not_mem_nil, or_false] at hl
    rcases hl with rfl | rfl | rfl <;> exact st _ _ (by decide)
  · rintro l hl (h | h | h) <;> cases hl
    · exact absurd h (by decide)
    · exact absurd (starts_inj h (st '1' _ (by decide))) (by decide)
    · exact absurd (starts_inj h (st '1' _ (by decide))) (by decide)
  · intro l hl h
    simp only [List.mem_cons, List.not_mem_nil, or_false] at hl
    rcases hl with rfl | rfl | rfl <;> exact absurd (starts_inj h (st _ _ (by decide))) (by decide)
  · rintro l hl; cases hl
  · intro l hl w1 w2
    simp only [List.mem_cons, List.not_mem_nil, or_false] at hl
    rcases hl with rfl | rfl | rfl
    · exact row _ "1-0".toList "11".toList _ _ ((row_iff (by decide)).2 (by decide)) (by decide)
    · exact row _ "01-".toList "10".toList _ _ ((row_iff (by decide)).2 (by decide)) (by decide)
    · exact row _ "---".toList "0-".toList _ _ ((row_iff (by decide)).2 (by decide)) (by decide)

end Properties
end Teddy
