import Verif.Basic

/-!
# Binary operations for `apply` (`libteddy/details/operators.hpp`)

Values are int32.  Bit operations go through `BitVec 32`; additions and multiplications are
checked, an out-of-range result being the outcome `overflow` (signed overflow is undefined
behaviour).
-/

namespace Teddy

/-- An operation as `apply` sees it: `operation_info` (operators.hpp:23-35) plus `operator()`. -/
structure BinOp where
  id : Nat
  comm : Bool
  fn : Int → Int → Except Err Int

/-- int32 range check on the result of an arithmetic operation. -/
def chk32 (v : Int) : Except Err Int :=
  if -2147483648 ≤ v ∧ v ≤ 2147483647 then .ok v else .error .overflow

/-- The value an int32 variable holds after wrap-around. -/
def wrap32 (v : Int) : Int := (BitVec.ofInt 32 v).toInt

/-- `l ^ r` on int32. -/
def xor32 (l r : Int) : Int := (BitVec.ofInt 32 l ^^^ BitVec.ofInt 32 r).toInt
/-- `l | r` on int32. -/
def or32 (l r : Int) : Int := (BitVec.ofInt 32 l ||| BitVec.ofInt 32 r).toInt
/-- `l & r` on int32. -/
def and32 (l r : Int) : Int := (BitVec.ofInt 32 l &&& BitVec.ofInt 32 r).toInt

/-- `tools.hpp:112-116`. -/
def min32 (l r : Int) : Int := if l < r then l else r
/-- `tools.hpp:121-125`. -/
def max32 (l r : Int) : Int := if l > r then l else r

/-- `static_cast<int32>(b)`. -/
def b2i (b : Bool) : Int := if b then 1 else 0

namespace Op

/-- operators.hpp:45-56 -/
def AND : BinOp := ⟨1, true, fun l r =>
  let mi := min32 l r
  let ma := max32 l r
  .ok (if mi = 0 then mi else ma)⟩

/-- operators.hpp:58-69 -/
def OR : BinOp := ⟨2, true, fun l r =>
  let mi := min32 l r
  let ma := max32 l r
  .ok (if mi = 0 then ma else mi)⟩

/-- operators.hpp:71-82 -/
def XOR : BinOp := ⟨3, true, fun l r =>
  let xi := xor32 l r
  let ma := max32 l r
  .ok (if ma = Nondetermined then ma else xi)⟩

/-- operators.hpp:84-95 -/
def PI_CONJ : BinOp := ⟨4, true, fun l r =>
  let mi := min32 l r
  let ma := max32 l r
  .ok (if mi = 0 then mi else if ma = Undefined then mi else ma)⟩

/-- operators.hpp:97-108 -/
def NAND : BinOp := ⟨5, true, fun l r => do
  let mi := min32 l r
  let ma := max32 l r
  if ma = Nondetermined then .ok ma else chk32 (1 - mi)⟩

/-- operators.hpp:110-124 -/
def NOR : BinOp := ⟨6, true, fun l r =>
  let mi := min32 l r
  let ma := max32 l r
  let ema := max32 (or32 l r) 1
  .ok (if or32 (and32 mi 1) (and32 ma 1) ≠ 0 then 0 else ema)⟩

/-- operators.hpp:126-137 -/
def XNOR : BinOp := ⟨7, true, fun l r =>
  let ma := max32 l r
  let ne := b2i (l == r)
  .ok (if ma = Nondetermined then ma else ne)⟩

/-- operators.hpp:139-150 -/
def EQUAL_TO : BinOp := ⟨8, true, fun l r =>
  let ma := max32 l r
  let eq := b2i (l == r)
  .ok (if ma = Nondetermined then ma else eq)⟩

/-- operators.hpp:152-165 -/
def NOT_EQUAL_TO : BinOp := ⟨9, true, fun l r =>
  let ma := max32 l r
  let ne := b2i (l != r)
  .ok (if ma = Nondetermined then ma else ne)⟩

/-- operators.hpp:167-176 -/
def LESS : BinOp := ⟨10, false, fun l r =>
  let ma := max32 l r
  let le := b2i (decide (l < r))
  .ok (if ma = Nondetermined then ma else le)⟩

/-- operators.hpp:178-187 -/
def LESS_EQUAL : BinOp := ⟨11, false, fun l r =>
  let ma := max32 l r
  let le := b2i (decide (l ≤ r))
  .ok (if ma = Nondetermined then ma else le)⟩

/-- operators.hpp:189-198 -/
def GREATER : BinOp := ⟨12, false, fun l r =>
  let ma := max32 l r
  let ge := b2i (decide (l > r))
  .ok (if ma = Nondetermined then ma else ge)⟩

/-- operators.hpp:200-210 -/
def GREATER_EQUAL : BinOp := ⟨13, false, fun l r =>
  let ma := max32 l r
  let ge := b2i (decide (l ≥ r))
  .ok (if ma = Nondetermined then Nondetermined else ge)⟩

/-- operators.hpp:212-223 -/
def MIN : BinOp := ⟨14, true, fun l r =>
  let mi := min32 l r
  let ma := max32 l r
  .ok (if mi = 0 ∨ ma ≠ Nondetermined then mi else ma)⟩

/-- operators.hpp:225-234 -/
def MAX : BinOp := ⟨15, true, fun l r => .ok (max32 l r)⟩

/-- operators.hpp:240-251 `MAXB<M>` -/
def MAXB (M : Int) : BinOp := ⟨16, true, fun l r =>
  let ma := max32 l r
  .ok (if l = M - 1 ∨ r = M - 1 then M - 1 else ma)⟩

/-- operators.hpp:253-263 `PLUS<M>`: the sum is computed before `Nondetermined` is tested. -/
def PLUS (M : Int) : BinOp := ⟨17, true, fun l r => do
  let ma := max32 l r
  let sum ← chk32 (l + r)
  let pl := Int.tmod sum M
  .ok (if ma = Nondetermined then ma else pl)⟩

/-- operators.hpp:265-278 `MULTIPLIES<M>`: the product is computed before the tests. -/
def MULTIPLIES (M : Int) : BinOp := ⟨18, true, fun l r => do
  let mi := min32 l r
  let ma := max32 l r
  let prod ← chk32 (l * r)
  let ml := Int.tmod prod M
  .ok (if mi = 0 then 0 else if ma = Nondetermined then Nondetermined else ml)⟩

/-- operators.hpp:280-289 -/
def IMPLIES : BinOp := ⟨19, false, fun l r =>
  let ma := max32 l r
  let im := b2i (l == 0 || r != 0)
  .ok (if l = 0 then 1 else if ma = Nondetermined then Nondetermined else im)⟩

/-- `PLUS<M>` as compiled with wrap-around arithmetic (`-fwrapv`); used to say what the operation
computes once the overflow is disregarded. -/
def PLUSwrap (M : Int) : BinOp := ⟨17, true, fun l r =>
  let ma := max32 l r
  let pl := Int.tmod (wrap32 (l + r)) M
  .ok (if ma = Nondetermined then ma else pl)⟩

/-- `MULTIPLIES<M>` as compiled with wrap-around arithmetic. -/
def MULTIPLIESwrap (M : Int) : BinOp := ⟨18, true, fun l r =>
  let mi := min32 l r
  let ma := max32 l r
  let ml := Int.tmod (wrap32 (l * r)) M
  .ok (if mi = 0 then 0 else if ma = Nondetermined then Nondetermined else ml)⟩

end Op

/-- operators.hpp:11-21 `make_nary`: `op(t, op(ts...))` for at least two arguments. -/
def BinOp.nary (op : BinOp) : List Int → Except Err Int
  | [] => .error .emptyRange
  | [t] => .ok t
  | t :: ts => do
      let r ← op.nary ts
      op.fn t r

end Teddy
