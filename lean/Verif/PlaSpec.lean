import Verif.Pla
import Mathlib.Data.Nat.Digits.Defs

/-!
# What a PLA text says

Relations between a text and its meaning, used to state the properties of `load_file`.
-/

namespace Teddy
namespace Pla
namespace Spec

/-- Only white space. -/
def Blank (l : List Char) : Prop := ∀ ch ∈ l, isSpace ch = true

/-- No white space. -/
def NoSpace (l : List Char) : Prop := ∀ ch ∈ l, isSpace ch = false

/-- The first character that is not white space is `ch`. -/
def Starts (ch : Char) (l : List Char) : Prop :=
  ∃ a r, Blank a ∧ isSpace ch = false ∧ l = a ++ ch :: r

/-- Neither the first nor the last character is white space. -/
def Trimmed (v : List Char) : Prop :=
  (∀ ch, v.head? = some ch → isSpace ch = false) ∧ ∀ ch, v.getLast? = some ch → isSpace ch = false

/-- The line is `key value`, with white space around and between (the value may be missing). -/
def Declares (l key val : List Char) : Prop :=
  ∃ a b c, l = a ++ (key ++ (b ++ (val ++ c))) ∧ Blank a ∧ Blank b ∧ Blank c ∧ NoSpace key ∧
    key ≠ [] ∧ Trimmed val ∧ (val ≠ [] → b ≠ [])

/-- The first two words of the line are `w1` and `w2`; `w2` may be empty at the end of the line. -/
def Row (l w1 w2 : List Char) : Prop :=
  ∃ a b c, l = a ++ (w1 ++ (b ++ (w2 ++ c))) ∧ Blank a ∧ NoSpace w1 ∧ w1 ≠ [] ∧ Blank b ∧ b ≠ [] ∧
    NoSpace w2 ∧ (∀ ch, c.head? = some ch → isSpace ch = true) ∧ (w2 = [] → c = [])

/-- A header line: empty, a comment or an option. -/
def Header (l : List Char) : Prop := Blank l ∨ Starts '#' l ∨ Starts '.' l

/-- The lines are a header, the data, which begin with the first line that is no header line, and what
follows the data from a line with a dot on. -/
structure Sections (ls hdr body rest : List (List Char)) : Prop where
  eq : ls = hdr ++ (body ++ rest)
  header : ∀ l ∈ hdr, Header l
  first : ∀ l, body.head? = some l → ¬ Header l
  data : ∀ l ∈ body, ¬ Starts '.' l
  last : ∀ l, rest.head? = some l → Starts '.' l
  none : body = [] → rest = []

/-- The first option `key` of the header has value `val`. -/
def Option' (hdr : List (List Char)) (key val : List Char) : Prop :=
  ∃ pre l post, hdr = pre ++ l :: post ∧ Starts '.' l ∧ Declares l key val ∧
    ∀ l' ∈ pre, ∀ v, ¬ (Starts '.' l' ∧ Declares l' key v)

/-- The decimal numeral of `v`, with a minus sign if negative (`-0` is allowed). -/
def Numeral (l : List Char) (v : Int) : Prop :=
  ∃ ds : List Nat, ds ≠ [] ∧ (∀ d ∈ ds, d < 10) ∧
    ((l = ds.map Nat.digitChar ∧ v = (Nat.ofDigits 10 ds.reverse : Nat)) ∨
      (l = '-' :: ds.map Nat.digitChar ∧ v = -(Nat.ofDigits 10 ds.reverse : Nat)))

/-- The header declares the number `v` for `key`. -/
def Number (hdr : List (List Char)) (key : String) (v : Int) : Prop :=
  ∃ val, Option' hdr key.toList val ∧ Numeral val v

/-- The meaning of a symbol: 0, 1 or don't care. -/
inductive Symbol : Char → Int → Prop
  | zero : Symbol '0' 0
  | one : Symbol '1' 1
  | dash : Symbol '-' 3
  | tilde : Symbol '~' 3

/-- The cube has one position for each character and holds their values. -/
def CubeOf (asserts : Bool) (w : List Char) (c : Cube) : Prop :=
  c.size = w.length ∧ ∀ (i : Nat) (ch : Char), w[i]? = some ch →
    ∃ v, Symbol ch v ∧ c.get asserts i = .ok v

/-- The line of the file object is what the line of text says. -/
def LineOf (asserts : Bool) (varCount fCount : Int) (l : List Char) (pl : Line) : Prop :=
  ∃ w1 w2, Row l w1 w2 ∧ w1.length = varCount ∧ w2.length = fCount ∧
    CubeOf asserts w1 pl.cube ∧ CubeOf asserts w2 pl.fVals

/-- A line of text that can be read: two words of the declared lengths made of symbols. -/
def Readable (varCount fCount : Int) (l : List Char) : Prop :=
  ∃ w1 w2, Row l w1 w2 ∧ w1.length = varCount ∧ w2.length = fCount ∧
    (∀ ch ∈ w1, ∃ v, Symbol ch v) ∧ ∀ ch ∈ w2, ∃ v, Symbol ch v

/-- The words of a text, separated by white space. -/
inductive Words : List Char → List (List Char) → Prop
  | nil {l : List Char} : Blank l → Words l []
  | cons {a w rest : List Char} {ws : List (List Char)} : Blank a → NoSpace w → w ≠ [] →
      (∀ ch, rest.head? = some ch → isSpace ch = true) → Words rest ws → Words (a ++ (w ++ rest)) (w :: ws)

/-- The labels declared by option `key`; none without that option. -/
def Labels (hdr : List (List Char)) (key : String) (ws : List (List Char)) : Prop :=
  (∃ val, Option' hdr key.toList val ∧ Words val ws) ∨
    ((¬ ∃ val, Option' hdr key.toList val) ∧ ws = [])

instance (l : List Char) : Decidable (Blank l) := inferInstanceAs (Decidable (∀ _ ∈ _, _))

end Spec
end Pla
end Teddy
