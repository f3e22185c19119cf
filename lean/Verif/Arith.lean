import Verif.Basic

/-!
# Integer arithmetic helpers

`utils::int_pow` (tools.hpp:19-42) and `node_manager::domain_product`
(node_manager.hpp:711-734).  Signed overflow is the outcome `overflow`.
-/

namespace Teddy

/-- int32 result or overflow. -/
def fit32 (v : Int) : Except Err Int :=
  if -2147483648 ≤ v ∧ v ≤ 2147483647 then .ok v else .error .overflow

/-- int64 result or overflow. -/
def fit64 (v : Int) : Except Err Int :=
  if -9223372036854775808 ≤ v ∧ v ≤ 9223372036854775807 then .ok v else .error .overflow

/-- tools.hpp:19-42 `int_pow`, the loop; `fit` is the range check of `Base`.  The exponent is a
non-negative int32, `fuel` bounds the number of halvings. -/
def intPowLoop (fit : Int → Except Err Int) : Nat → Int → Nat → Int → Except Err Int
  | 0, _, _, _ => .error .fuel
  | f + 1, base, exponent, result => do
      let result ← if exponent % 2 = 1 then fit (result * base) else pure result
      let exponent := exponent / 2
      if exponent = 0 then pure result
      else do
        let base ← fit (base * base)
        intPowLoop fit f base exponent result

/-- tools.hpp:19-42 `int_pow<int32>`. -/
def intPow32 (base : Int) (exponent : Nat) : Except Err Int :=
  intPowLoop fit32 (exponent + 1) base exponent 1

/-- node_manager.hpp:727-732: the loop of the mixed case. -/
def mixedProduct : List Nat → Int → Except Err Int
  | [], acc => .ok acc
  | d :: ds, acc => do
      let acc ← fit64 (acc * d)
      mixedProduct ds acc

/-- node_manager.hpp:719 `int64(1) << k` (C++20: a shift by 63 gives the smallest int64, a longer
one is undefined). -/
def shl64 (k : Nat) : Except Err Int :=
  if k < 63 then .ok (2 ^ k)
  else if k = 63 then .ok (-9223372036854775808)
  else .error .overflow

/-- node_manager.hpp:711-734 `domain_product` over the levels `from ≤ l < to`; `doms` lists the
domains of these levels.  `levelTo - levelFrom` is never negative for the callers. -/
def domainProductOf (fixedDom : Option Nat) (doms : List Nat) : Except Err Int :=
  match fixedDom with
  | some m => if m = 2 then shl64 doms.length else intPow32 m doms.length
  | none => mixedProduct doms 1

end Teddy
