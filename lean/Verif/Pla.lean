import Verif.Diagram

/-!
# PLA files

pla_file.hpp and `from_pla` (diagram_manager.hpp:1046-1121).
-/

namespace Teddy
namespace Pla

/-! ### `bool_cube` -/

/-- pla_file.hpp:36-42 `bool_cube::byte`: four 2-bit fields. -/
structure Byte where
  b0 : Fin 4
  b1 : Fin 4
  b2 : Fin 4
  b3 : Fin 4
deriving DecidableEq

/-- pla_file.hpp:22-47 `bool_cube` -/
structure Cube where
  size : Int
  values : List Byte
deriving DecidableEq

/-- pla_file.hpp:25 -/
def DontCare : Int := 3

/-- pla_file.hpp:149-153 constructor: `size / 4 + 1` zero bytes.  A negative number of bytes, converted
to `size_t`, exceeds the largest size of a vector. -/
def Cube.mk' (size : Int) : Except Err Cube :=
  if size.tdiv 4 + 1 < 0 then .error .lengthError
  else .ok ⟨size, List.replicate (size.tdiv 4 + 1).toNat ⟨0, 0, 0, 0⟩⟩

/-- The byte that holds position `i` (pla_file.hpp:162-165, 183-187); reading past the vector is
undefined, and fails the assertion if assertions are on. -/
def Cube.byteAt (asserts : Bool) (c : Cube) (i : Int) : Except Err Byte :=
  if 0 ≤ i.tdiv 4 ∧ i.tdiv 4 < c.values.length then
    match c.values[(i.tdiv 4).toNat]? with
    | some b => .ok b
    | none => .error .outOfRange
  else if asserts then .error .assertion else .error .outOfRange

/-- pla_file.hpp:160-179 `get` -/
def Cube.get (asserts : Bool) (c : Cube) (i : Int) : Except Err Int :=
  match c.byteAt asserts i with
  | .error e => .error e
  | .ok b => .ok (match i.tmod 4 with
    | 0 => b.b0.val
    | 1 => b.b1.val
    | 2 => b.b2.val
    | 3 => b.b3.val
    | _ => -1)

/-- `value & 0b11` -/
def low2 (v : Int) : Fin 4 := ⟨(v % 4).toNat, by omega⟩

/-- pla_file.hpp:181-204 `set` -/
def Cube.set (asserts : Bool) (c : Cube) (i v : Int) : Except Err Cube :=
  match c.byteAt asserts i with
  | .error e => .error e
  | .ok b =>
      if asserts && !(v == 0 || v == 1 || v == DontCare) then .error .assertion
      else
        let b' := match i.tmod 4 with
          | 0 => { b with b0 := low2 v }
          | 1 => { b with b1 := low2 v }
          | 2 => { b with b2 := low2 v }
          | 3 => { b with b3 := low2 v }
          | _ => b
        .ok { c with values := c.values.set (i.tdiv 4).toNat b' }

/-! ### `load_file` -/

/-- `::isspace` in the C locale. -/
def isSpace (ch : Char) : Bool := ch == ' ' || (9 ≤ ch.toNat && ch.toNat ≤ 13)

/-- pla_file.hpp:64-68 `pla_line` -/
structure Line where
  cube : Cube
  fVals : Cube
deriving DecidableEq

/-- pla_file.hpp:50-146 `pla_file` -/
structure File where
  lines : List Line
  inputLabels : List (List Char)
  outputLabels : List (List Char)
deriving DecidableEq

/-- The lines `std::getline` reads: the text is cut at newlines; what follows the last newline is a line
only if it is not empty. -/
def textLines : List Char → List (List Char)
  | [] => []
  | ch :: rest =>
      if ch = '\n' then [] :: textLines rest
      else match textLines rest with
        | [] => [[ch]]
        | l :: ls => (ch :: l) :: ls

/-- What `std::getline` leaves in its argument when there are no more lines: if the last line had no
newline the stream is already at its end and the argument keeps its value, otherwise it is erased. -/
def lineAtEnd (text line : List Char) : List Char :=
  if text.getLast? = none ∨ text.getLast? = some '\n' then [] else line

/-- pla_file.hpp:251-274: key and value of an option line; `l` starts at its dot. -/
def splitOption (l : List Char) : List Char × List Char :=
  let key := l.takeWhile (fun ch => !isSpace ch)
  let val := (l.dropWhile (fun ch => !isSpace ch)).dropWhile isSpace
  (key, (val.reverse.dropWhile isSpace).reverse)

/-- Options in the order read; `unordered_map::emplace` keeps the first value of a key. -/
abbrev Options := List (List Char × List Char)

/-- pla_file.hpp:264, 272 `emplace` -/
def emplace (o : Options) (kv : List Char × List Char) : Options :=
  if o.any (fun e => e.1 = kv.1) then o else o ++ [kv]

/-- pla_file.hpp:283-285 `find` -/
def findOption (o : Options) (key : List Char) : Option (List Char) :=
  match o.find? (fun e => e.1 = key) with
  | some e => some e.2
  | none => none

/-- pla_file.hpp:229-275: read options up to the first line that is none.  Returns the options, that
line and the lines after it; without such a line, what `std::getline` leaves in `line`. -/
def readOptions (text : List Char) : List (List Char) → List Char → Options →
    Options × List Char × List (List Char)
  | [], line, o => (o, lineAtEnd text line, [])
  | l :: ls, _, o =>
      match l.dropWhile isSpace with
      | [] => readOptions text ls l o
      | ch :: r =>
          if ch = '#' then readOptions text ls l o
          else if ch = '.' then readOptions text ls l (emplace o (splitOption (ch :: r)))
          else (o, l, ls)

/-- The number written by decimal digits. -/
def digits : List Char → Option Nat
  | [] => none
  | l => l.foldl (fun a ch => match a with
      | some k => if '0' ≤ ch ∧ ch ≤ '9' then some (10 * k + (ch.toNat - 48)) else none
      | none => none) (some 0)

/-- An optional minus sign and digits. -/
def signedDigits : List Char → Option Int
  | '-' :: r => match digits r with
    | some k => some (-(k : Int))
    | none => none
  | r => match digits r with
    | some k => some (k : Int)
    | none => none

/-- tools.hpp:49-59 `parse<Num>` for a signed type with values in `[-bound, bound)`:
`std::from_chars` must consume the whole text. -/
def parseInt (bound : Int) (l : List Char) : Option Int :=
  match signedDigits l with
  | some v => if -bound ≤ v ∧ v < bound then some v else none
  | none => none

/-- Conversion of `int64` to `int32` (pla_file.hpp:294: `optional<int64>` to `optional<int32>`). -/
def toInt32 (v : Int) : Int := (v + 2 ^ 31) % 2 ^ 32 - 2 ^ 31

/-- pla_file.hpp:339-354, 361-376: the value of a character. -/
def charValue (ch : Char) : Option Int :=
  if ch = '0' then some 0
  else if ch = '1' then some 1
  else if ch = '~' ∨ ch = '-' then some DontCare
  else none

/-- pla_file.hpp:337-355, 359-377: the loop filling a cube from position `i` on.  The loop of the code
runs up to the declared count, which is the length of the text (332). -/
def fillCube (asserts : Bool) : List Char → Int → Cube → Except Err (Option Cube)
  | [], _, c => .ok (some c)
  | ch :: r, i, c => match charValue ch with
    | none => .ok none
    | some v => match c.set asserts i v with
      | .error e => .error e
      | .ok c' => fillCube asserts r (i + 1) c'

/-- What becomes of a line of the data section. -/
inductive DataLine where
  | skip
  | stop
  | reject
  | row (l : Line)

/-- pla_file.hpp:305-379: the body of the loop reading data. -/
def readLine (asserts : Bool) (varCount fCount : Int) (line : List Char) : Except Err DataLine :=
  match line.dropWhile isSpace with
  | [] => .ok .skip
  | ch :: r =>
      if ch = '.' then .ok .stop
      else
        let vars := (ch :: r).takeWhile (fun ch => !isSpace ch)
        let rest := (ch :: r).dropWhile (fun ch => !isSpace ch)
        if rest.isEmpty then .ok .reject
        else
          let fs := (rest.dropWhile isSpace).takeWhile (fun ch => !isSpace ch)
          if vars.length ≠ varCount ∨ fs.length ≠ fCount then .ok .reject
          else match Cube.mk' varCount with
            | .error e => .error e
            | .ok c => match fillCube asserts vars 0 c with
              | .error e => .error e
              | .ok none => .ok .reject
              | .ok (some variables) => match Cube.mk' fCount with
                | .error e => .error e
                | .ok c => match fillCube asserts fs 0 c with
                  | .error e => .error e
                  | .ok none => .ok .reject
                  | .ok (some functions) => .ok (.row ⟨variables, functions⟩)

/-- pla_file.hpp:303-380: the do-while loop on `line` and the lines after it.  `none` is
`return std::nullopt`. -/
def readData (asserts : Bool) (varCount fCount : Int) : List (List Char) → List Char → List Line →
    Except Err (Option (List Line))
  | [], line, acc => match readLine asserts varCount fCount line with
    | .error e => .error e
    | .ok .reject => .ok none
    | .ok .stop => .ok (some acc)
    | .ok .skip => .ok (some acc)
    | .ok (.row pl) => .ok (some (acc ++ [pl]))
  | l :: ls, line, acc => match readLine asserts varCount fCount line with
    | .error e => .error e
    | .ok .reject => .ok none
    | .ok .stop => .ok (some acc)
    | .ok .skip => readData asserts varCount fCount ls l acc
    | .ok (.row pl) => readData asserts varCount fCount ls l (acc ++ [pl])

/-- pla_file.hpp:211-228: the loop of `to_words`; each round consumes at least one character. -/
def toWordsLoop : Nat → List Char → List (List Char)
  | 0, _ => []
  | f + 1, l => match l.dropWhile isSpace with
    | [] => []
    | ch :: r =>
        (ch :: r).takeWhile (fun ch => !isSpace ch) ::
          toWordsLoop f ((ch :: r).dropWhile (fun ch => !isSpace ch))

/-- pla_file.hpp:211-228 `to_words` -/
def toWords (l : List Char) : List (List Char) := toWordsLoop (l.length + 1) l

/-- pla_file.hpp:208-401 `load_file`; `none` is a file that cannot be opened.  `lines.reserve` (301)
of a negative number throws; memory is unlimited otherwise.  Characters outside ASCII, for which
`::isspace(char)` is undefined, are no spaces here. -/
def loadFile (asserts : Bool) : Option (List Char) → Except Err (Option File)
  | none => .ok none
  | some text =>
      let (o, line, rest) := readOptions text (textLines text) [] []
      match findOption o ".i".toList, findOption o ".o".toList, findOption o ".p".toList with
      | some i, some f, some p =>
          match parseInt (2 ^ 31) i, parseInt (2 ^ 31) f, parseInt (2 ^ 63) p with
          | some varCount, some fCount, some lineCount =>
              if toInt32 lineCount < 0 then .error .lengthError
              else match readData asserts varCount fCount rest line [] with
                | .error e => .error e
                | .ok none => .ok none
                | .ok (some lines) =>
                    .ok (some ⟨lines, toWords ((findOption o ".ilb".toList).getD []),
                      toWords ((findOption o ".ob".toList).getD [])⟩)
          | _, _, _ => .ok none
      | _, _, _ => .ok none

/-- pla_file.hpp:425-428 `get_variable_count`: the first of no lines is undefined. -/
def File.variableCount (f : File) : Except Err Int :=
  match f.lines with
  | [] => .error .emptyRange
  | l :: _ => .ok l.cube.size

/-- pla_file.hpp:430-433 `get_function_count` -/
def File.functionCount (f : File) : Except Err Int :=
  match f.lines with
  | [] => .error .emptyRange
  | l :: _ => .ok l.fVals.size

/-- pla_file.hpp:435-438 `get_line_count` -/
def File.lineCount (f : File) : Nat := f.lines.length

end Pla

/-! ### `from_pla` -/

/-- diagram_manager.hpp:1060-1070: the literal of variable `i`, if the cube has one. -/
def plaLiteral (c : Cfg) (cube : Pla.Cube) (i : Nat) : M (Option Ptr) := do
  let v ← liftE (cube.get c.asserts i)
  if v = 1 then
    let p ← variableD c i
    pure (some p)
  else
    let v ← liftE (cube.get c.asserts i)
    if v = 0 then
      let p ← variableNot c i
      pure (some p)
    else pure none

/-- diagram_manager.hpp:1054-1073 `product`: the vector of literals is folded and then destroyed. -/
def plaProduct (c : Cfg) (cube : Pla.Cube) : M Ptr := do
  let os ← mapL (plaLiteral c cube) (List.range cube.size.toNat)
  let variables := os.filterMap id
  let r ← leftFold c Op.AND variables
  dropAll (variables.map some)
  pure r

/-- diagram_manager.hpp:1103-1109: the product of a line with output 1. -/
def plaLine (c : Cfg) (fi : Nat) (l : Pla.Line) : M (Option Ptr) := do
  let v ← liftE (l.fVals.get c.asserts fi)
  if v = 1 then
    let p ← plaProduct c l.cube
    pure (some p)
  else pure none

/-- diagram_manager.hpp:1075-1089 `orFold` and the destruction of the products (1120). -/
def plaOrFold (c : Cfg) (tree : Bool) (products : List Ptr) : M Ptr :=
  match tree with
  | false => do
      let r ← leftFold c Op.OR products
      dropAll (products.map some)
      pure r
  | true => do
      let (r, rest) ← treeFold c Op.OR (products.map some)
      dropAll rest
      pure r

/-- diagram_manager.hpp:1098-1120: the diagram of function `fi`. -/
def plaFunction (c : Cfg) (file : Pla.File) (tree : Bool) (fi : Nat) : M Ptr := do
  let os ← mapL (plaLine c fi) file.lines
  match os.filterMap id with
  | [] => do
      let p ← constant c 0
      plaOrFold c tree [p]
  | products => plaOrFold c tree products

/-- diagram_manager.hpp:1046-1122 `from_pla`; `tree` is `fold_type::Tree`, otherwise
`fold_type::Left`. -/
def fromPla (c : Cfg) (file : Pla.File) (tree : Bool) : M (List Ptr) := do
  let k ← liftE file.functionCount
  mapL (plaFunction c file tree) (List.range k.toNat)

end Teddy
