import Verif.Proofs.BitsLemmas
import Verif.Proofs.PlaLoad

/-!
# Properties of the packed representations and of PLA files

C27 (cubes), C28 (loading PLA files), C42 (the word of a node).
-/

namespace Teddy
namespace Properties
open Bits

/-! ### C42 the word of a node -/

/-- As long as the reference count stays between 0 and 2^29 - 1, any sequence of calls that set, clear
or toggle flags and count references has on the packed word the effect it has on four independent
fields, and no assertion fails.

Missing for the full property: counting up at 2^29 - 1, which spills into the leaf flag
(`C42_violated`). -/
theorem C42_fields_partial (asserts : Bool) (os : List NodeOp) (b : Word) (h : (view b).Counts os) :
    ∃ b', steps asserts os b = .ok b' ∧ view b' = os.foldl (fun f o => f.step o) (view b) :=
  steps_view asserts os b h

/-- In particular, counting never changes the flags. -/
theorem C42_counting_partial (asserts : Bool) (os : List NodeOp) (b : Word)
    (hos : ∀ o ∈ os, o = .incRefCount ∨ o = .decRefCount) (h : (view b).Counts os) :
    ∃ b', steps asserts os b = .ok b' ∧ Bits.isMarked b' = Bits.isMarked b ∧ isUsed b' = isUsed b ∧
      isTerminal b' = isTerminal b ∧ isInternal b' = isInternal b := by
  obtain ⟨b', e, hv⟩ := steps_view asserts os b h
  have key : ∀ (os : List NodeOp) (f : Fields), (∀ o ∈ os, o = .incRefCount ∨ o = .decRefCount) →
      (os.foldl (fun f o => f.step o) f).mark = f.mark ∧
      (os.foldl (fun f o => f.step o) f).used = f.used ∧
      (os.foldl (fun f o => f.step o) f).leaf = f.leaf := by
    intro os
    induction os with
    | nil => intro f _; exact ⟨rfl, rfl, rfl⟩
    | cons o os ih =>
      intro f ho
      obtain ⟨h1, h2, h3⟩ := ih (f.step o) fun o' h' => ho o' (List.mem_cons_of_mem _ h')
      rw [List.foldl_cons, h1, h2, h3]
      rcases ho o (List.mem_cons_self ..) with rfl | rfl <;> exact ⟨rfl, rfl, rfl⟩
  obtain ⟨h1, h2, h3⟩ := key os (view b) hos
  rw [← hv] at h1 h2 h3
  have e1 : Bits.isMarked b' = Bits.isMarked b := h1
  have e2 : isUsed b' = isUsed b := h2
  have e3 : (!isOrWasInternal b') = !isOrWasInternal b := h3
  have e4 : isTerminal b' = isTerminal b := by
    simp only [isOrWasInternal, Bool.not_not] at e3
    unfold isTerminal
    rw [e2, e3]
  exact ⟨b', e, e1, e2, e4, by unfold isInternal; rw [e2, e4]⟩

/-- A new terminal and a new internal node: used, not marked, no references. -/
theorem C42_new : view newTerminal = ⟨false, true, true, 0⟩ ∧ view newInternal = ⟨false, true, false, 0⟩ := by
  decide

/-- A node is terminal if it is used and has the leaf flag, internal if it is used and has not; nothing else matters. -/
theorem C42_kind (b : Word) : (isTerminal b = true ↔ (view b).used = true ∧ (view b).leaf = true) ∧
    (isInternal b = true ↔ (view b).used = true ∧ (view b).leaf = false) := by
  simp only [view, isInternal, isTerminal, isOrWasInternal]
  cases isUsed b <;> cases (b &&& LeafM != 0) <;> simp

/-- All combinations of flags and counts below 2^29 occur. -/
theorem C42_all (m u l : Bool) (k : Nat) (hk : k < 2 ^ 29) : ∃ b, view b = ⟨m, u, l, k⟩ := by
  refine ⟨BitVec.ofNat 32 (m.toNat * 2 ^ 31 + u.toNat * 2 ^ 30 + l.toNat * 2 ^ 29 + k), ?_⟩
  rw [view_eq, BitVec.toNat_ofNat]
  have hlt : m.toNat * 2 ^ 31 + u.toNat * 2 ^ 30 + l.toNat * 2 ^ 29 + k < 2 ^ 32 := by
    cases m <;> cases u <;> cases l <;> simp <;> omega
  rw [Nat.mod_eq_of_lt hlt]
  have hb : ∀ a j : Nat, a.testBit j = decide (a / 2 ^ j % 2 = 1) := fun a j => by
    rw [Nat.testBit_eq_decide_div_mod_eq]
  rw [hb, hb, hb]
  congr 1
  · cases m <;> cases u <;> cases l <;> simp <;> omega
  · cases m <;> cases u <;> cases l <;> simp <;> omega
  · cases m <;> cases u <;> cases l <;> simp <;> omega
  · cases m <;> cases u <;> cases l <;> simp <;> omega

/-- The hypotheses are met: mark, count three references, unmark, drop one. -/
example : ∃ b', steps true [.setMarked, .incRefCount, .incRefCount, .incRefCount, .toggleMarked,
    .decRefCount] newTerminal = .ok b' ∧ view b' = ⟨false, true, true, 2⟩ := by
  obtain ⟨b', e, h⟩ := C42_fields_partial true [.setMarked, .incRefCount, .incRefCount, .incRefCount,
    .toggleMarked, .decRefCount] newTerminal (by
      rw [C42_new.1]; simp [Fields.Counts, Fields.step])
  exact ⟨b', e, by rw [h, C42_new.1]; rfl⟩

/-- The hypotheses are met up to the largest count. -/
example : ∃ b', steps true (List.replicate (2 ^ 29 - 1) .incRefCount) newInternal = .ok b' ∧
    isInternal b' = true ∧ getRefCount b' = 2 ^ 29 - 1 := by
  refine ⟨_, steps_inc true _ _, ?_⟩
  decide

/-- **C42 is violated.** The 2^29-th reference makes an internal node a terminal one without
references, and the assertion meant to catch it passes: it compares the count with 2^29, which a 29-bit
count never reaches. -/
theorem C42_violated : ∃ b', steps true (List.replicate (2 ^ 29) .incRefCount) newInternal = .ok b' ∧
    isInternal newInternal = true ∧ isTerminal b' = true ∧ getRefCount b' = 0 := by
  refine ⟨_, steps_inc true _ _, ?_⟩
  decide

/-! ### C27 cubes -/

section
open Pla

/-- Calls of `set` one after another. -/
def setAll (asserts : Bool) : List (Nat × Int) → Cube → Except Err Cube
  | [], c => .ok c
  | (i, v) :: ws, c => match c.set asserts i v with
    | .ok c' => setAll asserts ws c'
    | .error e => .error e

/-- The value last written at `i`, or `v0`. -/
def lastAt (i : Nat) (v0 : Int) (ws : List (Nat × Int)) : Int :=
  ws.foldl (fun v w => if w.1 = i then w.2 else v) v0

private theorem setAll_ok {A : Bool} {n : Nat} : ∀ (ws : List (Nat × Int)) (c : Cube), c.WF n →
    (∀ w ∈ ws, w.1 < n ∧ 0 ≤ w.2 ∧ w.2 < 4 ∧ Storable A w.2) →
    ∃ c', setAll A ws c = .ok c' ∧ c'.WF n ∧
      ∀ i < n, ((c'.at i).val : Int) = lastAt i (c.at i).val ws := by
  intro ws
  induction ws with
  | nil => intro c h _; exact ⟨c, rfl, h, fun _ _ => rfl⟩
  | cons w ws ih =>
    intro c h hw
    obtain ⟨h1, h2, h3, h4⟩ := hw w (List.mem_cons_self ..)
    obtain ⟨c1, e1, w1, a1⟩ := set_ok (A := A) h h1 h4
    obtain ⟨c', e', w', a'⟩ := ih c1 w1 fun x hx => hw x (List.mem_cons_of_mem _ hx)
    refine ⟨c', by simp only [setAll, e1, e'], w', fun i hi => ?_⟩
    rw [a' i hi, a1 i hi]
    unfold lastAt
    rw [List.foldl_cons]
    congr 1
    by_cases hwi : w.1 = i
    · rw [if_pos hwi, if_pos hwi.symm, low2_val h2 h3]
    · rw [if_neg hwi, if_neg (fun e => hwi e.symm)]

/-- A cube of any size is an array: after any calls of `set` at positions of the cube with values 0, 1
or don't care (3), `get` answers at every position the value last set there, 0 if none was, and the size
is that given to the constructor. -/
theorem C27_array (asserts : Bool) (n : Nat) (ws : List (Nat × Int))
    (hw : ∀ w ∈ ws, w.1 < n ∧ (w.2 = 0 ∨ w.2 = 1 ∨ w.2 = 3)) :
    ∃ c c', Cube.mk' n = .ok c ∧ setAll asserts ws c = .ok c' ∧ c'.size = n ∧
      ∀ i < n, c'.get asserts i = .ok (lastAt i 0 ws) := by
  obtain ⟨c, e, hc, h0⟩ := mk_ok n
  obtain ⟨c', e', w', a'⟩ := setAll_ok (A := asserts) ws c hc fun w hw' => by
    obtain ⟨h1, h2⟩ := hw w hw'
    exact ⟨h1, by omega, by omega, by omega, by omega, fun _ => by omega⟩
  refine ⟨c, c', e, e', w'.1, fun i hi => ?_⟩
  rw [get_ok w' hi, a' i hi, h0 i]
  rfl

/-- Without assertions any 2-bit value can be stored. -/
theorem C27_array_any (n : Nat) (ws : List (Nat × Int))
    (hw : ∀ w ∈ ws, w.1 < n ∧ 0 ≤ w.2 ∧ w.2 < 4) :
    ∃ c c', Cube.mk' n = .ok c ∧ setAll false ws c = .ok c' ∧ c'.size = n ∧
      ∀ i < n, c'.get false i = .ok (lastAt i 0 ws) := by
  obtain ⟨c, e, hc, h0⟩ := mk_ok n
  obtain ⟨c', e', w', a'⟩ := setAll_ok (A := false) ws c hc fun w hw' => by
    obtain ⟨h1, h2, h3⟩ := hw w hw'
    exact ⟨h1, h2, h3, h2, h3, fun h => by cases h⟩
  refine ⟨c, c', e, e', w'.1, fun i hi => ?_⟩
  rw [get_ok w' hi, a' i hi, h0 i]
  rfl

/-- The hypotheses are met by writes to both sides of a byte border. -/
example : ∃ c c', Cube.mk' 9 = .ok c ∧
    setAll true [(3, 1), (4, 3), (8, 1), (3, 3), (4, 0), (5, 1)] c = .ok c' ∧
    c'.get true 3 = .ok 3 ∧ c'.get true 4 = .ok 0 ∧ c'.get true 7 = .ok 0 ∧ c'.get true 8 = .ok 1 := by
  obtain ⟨c, c', e, e', _, h⟩ := C27_array true 9 [(3, 1), (4, 3), (8, 1), (3, 3), (4, 0), (5, 1)] (by decide)
  exact ⟨c, c', e, e', h 3 (by decide), h 4 (by decide), h 7 (by decide), h 8 (by decide)⟩

/-! ### C28 loading PLA files -/

open Pla.Spec

/-- What `load_file` returns is what the text says: the numbers are declared in the header, the lines are
the lines of the data section in their order, each cube has the declared size and the values written, and
the labels are those declared.

Missing for the full property: a text may also make `load_file` throw (`C28_violated`). -/
theorem C28_load_partial {asserts : Bool} {text : List Char} {file : File}
    (h : loadFile asserts (some text) = .ok (some file)) :
    ∃ hdr body rest I O N, Sections (textLines text) hdr body rest ∧ Number hdr ".i" I ∧
      Number hdr ".o" O ∧ Number hdr ".p" N ∧
      List.Forall₂ (LineOf asserts I O) (body.filter fun l => ¬ Blank l) file.lines ∧
      Labels hdr ".ilb" file.inputLabels ∧ Labels hdr ".ob" file.outputLabels := by
  obtain ⟨hdr, body, rest, hs, ⟨e, _⟩ | ⟨I, O, N, hI, _, _, hO, _, _, hN, _, _, ⟨_, e⟩ | ⟨_, f, e, h1, h2, h3⟩⟩⟩ :=
    loadFile_ok asserts text
  · rw [e] at h; cases h
  · rw [e] at h; cases h
  · rw [e] at h; cases h
    exact ⟨hdr, body, rest, I, O, N, hs, hI, hO, hN, h1, h2, h3⟩

/-- A text is accepted if its header declares the three numbers within range, its data section is not
empty and each of its lines is blank or consists of two words of the declared lengths over `0 1 - ~`. -/
theorem C28_accepts (asserts : Bool) {text : List Char} {hdr body rest : List (List Char)} {I O N : Int}
    (hs : Sections (textLines text) hdr body rest) (hI : Number hdr ".i" I) (hO : Number hdr ".o" O)
    (hN : Number hdr ".p" N) (bI : I < 2 ^ 31) (bO : O < 2 ^ 31) (bN : 0 ≤ N ∧ N < 2 ^ 31)
    (hne : body ≠ []) (hr : ∀ l ∈ body, Blank l ∨ Readable I O l) :
    ∃ file, loadFile asserts (some text) = .ok (some file) ∧
      List.Forall₂ (LineOf asserts I O) (body.filter fun l => ¬ Blank l) file.lines ∧
      Labels hdr ".ilb" file.inputLabels ∧ Labels hdr ".ob" file.outputLabels := by
  have uniq : ∀ {key : String} {v v' : Int}, Number hdr key v → Number hdr key v' → v = v' := by
    rintro key v v' ⟨x, hx, nx⟩ ⟨y, hy, ny⟩
    cases option_unique hx hy
    exact numeral_unique nx ny
  obtain ⟨l0, hl0⟩ := List.exists_mem_of_ne_nil _ hne
  -- the counts are lengths of words
  obtain ⟨hdr', body', rest', hs', hcase⟩ := loadFile_ok asserts text
  obtain ⟨rfl, rfl, rfl⟩ := sections_unique hs' hs
  have hfirst : ∃ l ∈ body', Readable I O l := by
    obtain ⟨b, bs, rfl⟩ := List.exists_cons_of_ne_nil hne
    refine ⟨b, List.mem_cons_self .., ?_⟩
    rcases hr b (List.mem_cons_self ..) with h | h
    · exact absurd (Or.inl h) (hs.first b rfl)
    · exact h
  obtain ⟨l1, _, w1, w2, _, e1, e2, _⟩ := hfirst
  rcases hcase with ⟨_, h⟩ | ⟨I', O', N', hI', _, _, hO', _, _, hN', _, _, h⟩
  · exfalso
    rcases h with h | ⟨I', O', N', hI', hO', hN', h⟩
    · exact h ⟨I, O, N, hI, by omega, bI, hO, by omega, bO, hN, by omega, by omega⟩
    · cases uniq hI hI'
      cases uniq hO hO'
      rcases h with h | ⟨l, hl, hb, hnr⟩
      · exact hne h
      · rcases hr l hl with h | h
        · exact hb h
        · exact hnr h
  · cases uniq hI hI'
    cases uniq hO hO'
    cases uniq hN hN'
    have : toInt32 N = N := by unfold toInt32; omega
    rw [this] at h
    rcases h with ⟨h, _⟩ | ⟨_, file, h⟩
    · omega
    · exact ⟨file, h⟩

private theorem forall₂_left {α β : Type} {R : α → β → Prop} {l : List α} {m : List β}
    (h : List.Forall₂ R l m) : ∀ a ∈ l, ∃ b, R a b := by
  induction h with
  | nil => intro a ha; cases ha
  | cons hr _ ih =>
    intro a ha
    rcases List.mem_cons.1 ha with rfl | ha
    · exact ⟨_, hr⟩
    · exact ih a ha

/-- A text is rejected if a line of the data section cannot be read. -/
theorem C28_rejects (asserts : Bool) {text : List Char} {hdr body rest : List (List Char)} {I O N : Int}
    (hs : Sections (textLines text) hdr body rest) (hI : Number hdr ".i" I) (hO : Number hdr ".o" O)
    (hN : Number hdr ".p" N) (bN : 0 ≤ N ∧ N < 2 ^ 31)
    {l : List Char} (hl : l ∈ body) (hb : ¬ Blank l) (hr : ¬ Readable I O l) :
    loadFile asserts (some text) = .ok none := by
  have uniq : ∀ {key : String} {v v' : Int}, Number hdr key v → Number hdr key v' → v = v' := by
    rintro key v v' ⟨x, hx, nx⟩ ⟨y, hy, ny⟩
    cases option_unique hx hy
    exact numeral_unique nx ny
  obtain ⟨hdr', body', rest', hs', ⟨e, _⟩ | ⟨I', O', N', hI', _, _, hO', _, _, hN', _, _, h⟩⟩ := loadFile_ok asserts text
  · exact e
  · obtain ⟨rfl, rfl, rfl⟩ := sections_unique hs' hs
    cases uniq hI hI'
    cases uniq hO hO'
    cases uniq hN hN'
    have : toInt32 N = N := by unfold toInt32; omega
    rw [this] at h
    rcases h with ⟨h, _⟩ | ⟨_, file, _, h, _⟩
    · omega
    · exfalso
      have hmem : l ∈ body'.filter fun l => ¬ Blank l := by simpa using ⟨hl, hb⟩
      obtain ⟨pl, this⟩ := forall₂_left h l hmem
      obtain ⟨w1, w2, hrow, h1, h2, c1, c2⟩ := this
      refine hr ⟨w1, w2, hrow, h1, h2, fun ch hch => ?_, fun ch hch => ?_⟩
      · obtain ⟨j, hj⟩ := List.getElem?_of_mem hch
        exact (c1.2 j ch hj).imp fun _ h => h.1
      · obtain ⟨j, hj⟩ := List.getElem?_of_mem hch
        exact (c2.2 j ch hj).imp fun _ h => h.1

/-- `load_file` has no undefined behaviour and no failing assertion on any text, and the only exception is
that of reserving room for a number of lines that is negative as a 32-bit integer. -/
theorem C28_total_partial (asserts : Bool) (text : List Char) :
    (∃ r, loadFile asserts (some text) = .ok r) ∨
      (loadFile asserts (some text) = .error .lengthError ∧
        ∃ hdr body rest N, Sections (textLines text) hdr body rest ∧ Number hdr ".p" N ∧ toInt32 N < 0) := by
  obtain ⟨hdr, body, rest, hs, ⟨e, _⟩ | ⟨I, O, N, hI, _, _, hO, _, _, hN, _, _, ⟨h, e⟩ | ⟨_, f, e, h1, h2, h3⟩⟩⟩ :=
    loadFile_ok asserts text
  · exact .inl ⟨_, e⟩
  · exact .inr ⟨e, hdr, body, rest, N, hs, hN, h⟩
  · exact .inl ⟨_, e⟩

/-- A file that cannot be opened is rejected. -/
theorem C28_missing (asserts : Bool) : loadFile asserts none = .ok none := rfl

/-- The lines of a text, used above: a text is cut at its newlines. -/
theorem C28_lines {ls : List (List Char)} (h : ∀ l ∈ ls, '\n' ∉ l) (last : List Char) (hl : '\n' ∉ last) :
    textLines ((ls.map fun l => l ++ ['\n']).flatten ++ last) =
      ls ++ (if last = [] then [] else [last]) :=
  textLines_append h last hl

/-- White space, used above: space, tab, newline, vertical tab, form feed and carriage return. -/
theorem C28_blanks (ch : Char) :
    isSpace ch = true ↔ ch ∈ [' ', '\t', '\n', '\x0b', '\x0c', '\r'] := by
  have key : ∀ d : Char, ch = d ↔ ch.toNat = d.toNat := fun d =>
    ⟨fun h => by rw [h], fun h => Char.ext (UInt32.toNat_inj.1 h)⟩
  simp only [isSpace, Bool.or_eq_true, beq_iff_eq, Bool.and_eq_true, decide_eq_true_eq, List.mem_cons,
    List.not_mem_nil, or_false, key]
  show _ ∨ _ ↔ ch.toNat = 32 ∨ ch.toNat = 9 ∨ ch.toNat = 10 ∨ ch.toNat = 11 ∨ ch.toNat = 12 ∨ ch.toNat = 13
  have : ' '.toNat = 32 := rfl
  omega

/-- A text with carriage returns is read. -/
example : (match loadFile true (some (".i 1\r\n.o 1\r\n.p 1\r\n1 1\r\n.e\r\n").toList) with
    | .ok (some file) => file.lines.map (fun l => (l.cube.size, l.fVals.size))
    | _ => []) = [(1, 1)] := by decide +kernel

/-- The hypotheses of `C28_load_partial` are met: three inputs, two outputs, a comment, labels and two
lines. -/
example : ∃ file, loadFile true (some (".i 3\n.o  2 \n# rows\n.p 2\n.ilb a b c\n01- 10\n\n 1~1\t-1\n.e\n").toList)
      = .ok (some file) ∧
    file.lines.map (fun l => (l.cube.size, l.fVals.size)) = [(3, 2), (3, 2)] ∧
    file.lines.map (fun l => [l.cube.get true 0, l.cube.get true 1, l.cube.get true 2]) =
      [[.ok 0, .ok 1, .ok 3], [.ok 1, .ok 3, .ok 1]] ∧
    file.lines.map (fun l => [l.fVals.get true 0, l.fVals.get true 1]) =
      [[.ok 1, .ok 0], [.ok 3, .ok 1]] ∧
    file.inputLabels = [['a'], ['b'], ['c']] := by
  refine ⟨⟨[⟨⟨3, [⟨0, 1, 3, 0⟩]⟩, ⟨2, [⟨1, 0, 0, 0⟩]⟩⟩, ⟨⟨3, [⟨1, 3, 1, 0⟩]⟩, ⟨2, [⟨3, 1, 0, 0⟩]⟩⟩],
    [['a'], ['b'], ['c']], []⟩, ?_⟩
  decide +kernel

/-- The hypotheses of `C28_accepts` are met. -/
example : ∃ hdr body rest, Sections (textLines (".i 2\n.o 1\n.p 1\n1- 0\n.e\n").toList) hdr body rest ∧
    Number hdr ".i" 2 ∧ Number hdr ".o" 1 ∧ Number hdr ".p" 1 ∧ body ≠ [] ∧
    ∀ l ∈ body, Blank l ∨ Readable 2 1 l := by
  have st : ∀ ch r, isSpace ch = false → Starts ch (ch :: r) := fun ch r h => ⟨[], r, by simp [Blank], h, rfl⟩
  have ns : ∀ ch : Char, isSpace ch = false → ch ≠ '1' → ¬ Starts ch "1- 0".toList := fun ch hc h1 h =>
    h1 (starts_inj h (st '1' _ (by decide)))
  refine ⟨[".i 2".toList, ".o 1".toList, ".p 1".toList], ["1- 0".toList], [".e".toList],
    ⟨by decide, fun l hl => .inr (.inr ?_), ?_, ?_, ?_, by decide⟩,
    ⟨['2'], firstOption_iff.1 (by decide), [2], by decide, by decide, .inl (by decide)⟩,
    ⟨['1'], firstOption_iff.1 (by decide), [1], by decide, by decide, .inl (by decide)⟩,
    ⟨['1'], firstOption_iff.1 (by decide), [1], by decide, by decide, .inl (by decide)⟩, by decide, ?_⟩
  · simp only [List.mem_cons, List.not_mem_nil, or_false] at hl
    rcases hl with rfl | rfl | rfl <;> exact st _ _ (by decide)
  · rintro l hl (h | h | h) <;> cases hl
    · exact absurd h (by decide)
    · exact ns _ (by decide) (by decide) h
    · exact ns _ (by decide) (by decide) h
  · intro l hl
    cases List.mem_singleton.1 hl
    exact ns _ (by decide) (by decide)
  · rintro l hl; cases hl; exact st _ _ (by decide)
  · intro l hl
    cases List.mem_singleton.1 hl
    refine .inr ⟨['1', '-'], ['0'], (row_iff (by decide)).2 (by decide), rfl, rfl, ?_, ?_⟩
    · intro ch hch
      simp only [List.mem_cons, List.not_mem_nil, or_false] at hch
      rcases hch with rfl | rfl
      · exact ⟨_, .one⟩
      · exact ⟨_, .dash⟩
    · intro ch hch
      cases List.mem_singleton.1 hch
      exact ⟨_, .zero⟩

/-- A line that is too short: rejected. -/
example : loadFile true (some (".i 3\n.o 2\n.p 1\n01 10\n").toList) = .ok none := by decide +kernel

/-- **C28 is violated.** A text that declares `-1` lines makes `load_file` throw `std::length_error`
instead of rejecting it. -/
theorem C28_violated : loadFile true (some (".i 1\n.o 1\n.p -1\n1 1\n").toList) = .error .lengthError := by
  decide +kernel

end

end Properties
end Teddy
