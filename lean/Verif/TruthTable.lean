import Verif.Arith
import Verif.Reliability

/-!
# Truth tables (`libtsl/truth_table.hpp`, `truth_table.cpp`, `truth_table_reliability.hpp`, `.cpp`)

Simplifications: values of variables and sizes of domains are natural numbers; `double` is an exact
rational; a read outside a `std::vector` is `outOfRange`; containers never run out of memory.
-/

namespace Teddy
namespace TT

/-- truth_table.hpp:16-31 `struct truth_table`. -/
structure Table where
  vec : List Int
  dom : List Nat
  off : List Int
  maxVal : Int

/-- truth_table.cpp:30-41: the offsets, computed from the last one, in int32. -/
def offsets : List Nat → Except Err (List Int)
  | [] => .error .outOfRange
  | [_] => .ok [1]
  | _ :: d :: ds => do
      let os ← offsets (d :: ds)
      match os with
      | [] => .error .outOfRange
      | o :: _ =>
          let p ← fit32 ((d : Int) * o)
          .ok (p :: os)

/-- truth_table.cpp:18-21: `std::ranges::max` of the values other than `Undefined`; the maximum of an
empty range is undefined behaviour. -/
def maxDefined (vec : List Int) : Except Err Int :=
  match vec.filter (fun v => decide (v ≠ Undefined)) with
  | [] => .error .emptyRange
  | v :: vs => .ok (vs.foldl max v)

/-- truth_table.cpp:25: `std::reduce` of the domains in int32 (from left to right). -/
def product32 : List Nat → Int → Except Err Int
  | [], a => .ok a
  | d :: ds, a => do
      let p ← fit32 (a * d)
      product32 ds p

/-- truth_table.cpp:11-42 constructor; `asserts` tells whether assertions are enabled. -/
def make (asserts : Bool) (vec : List Int) (dom : List Nat) : Except Err Table := do
  let m ← maxDefined vec
  if asserts then
    let p ← product32 dom 1
    if (vec.length : Int) ≠ p then .error .assertion
    else if dom = [] then .error .assertion
    else do
      let os ← offsets dom
      .ok ⟨vec, dom, os, m⟩
  else do
    let os ← offsets dom
    .ok ⟨vec, dom, os, m⟩

/-- truth_table.cpp:113-118: the sum of `to_index`, in int32. -/
def indexLoop : List Nat → List Int → Int → Except Err Int
  | [], _, a => .ok a
  | _ :: _, [], _ => .error .outOfRange
  | x :: xs, o :: os, a => do
      let p ← fit32 ((x : Int) * o)
      let b ← fit32 (a + p)
      indexLoop xs os b

/-- truth_table.cpp:109-120 `to_index`.  Without the assertion a shorter `vars` is read past its end and
the rest of a longer one is ignored. -/
def toIndex (asserts : Bool) (t : Table) (vars : List Nat) : Except Err Int :=
  if asserts && decide (vars.length ≠ t.dom.length) then .error .assertion
  else if vars.length < t.dom.length then .error .outOfRange
  else indexLoop (vars.take t.dom.length) t.off 0

/-- Reading `vector[index]`. -/
def at? (vec : List Int) (k : Int) : Except Err Int :=
  if k < 0 then .error .outOfRange
  else match vec[k.toNat]? with
    | some v => .ok v
    | none => .error .outOfRange

/-- truth_table.cpp:100-104 `evaluate`. -/
def evaluate (asserts : Bool) (t : Table) (vars : List Nat) : Except Err Int := do
  let k ← toIndex asserts t vars
  at? t.vec k

/-- truth_table.hpp:78-91: the next element of the domain, and whether every position overflowed. -/
def next : List Nat → List Nat → List Nat × Bool
  | d :: ds, e :: es =>
      let (es', overflow) := next ds es
      if overflow then
        if e + 1 = d then (0 :: es', true) else ((e + 1) :: es', false)
      else (e :: es', false)
  | _, es => (es, true)

/-- truth_table.hpp:71-95: the `do … while` loop; the list is what remains of `vector` from `k` on. -/
def loop {τ : Type} (dom : List Nat) (f : Int → List Nat → τ → Except Err τ) :
    List Int → List Nat → τ → Except Err τ
  | [], _, _ => .error .outOfRange
  | v :: vs, elem, t => do
      let t ← f v elem t
      match next dom elem with
      | (_, true) => .ok t
      | (elem', false) => loop dom f vs elem' t

/-- truth_table.hpp:63-110 `domain_for_each`; the captured variables of `f` are threaded through. -/
def forEach {τ : Type} (t : Table) (f : Int → List Nat → τ → Except Err τ) (a : τ) : Except Err τ :=
  loop t.dom f t.vec (t.dom.map fun _ => 0) a

/-- truth_table.cpp:68-76 `satisfy_count`; the counter is an int64 and cannot overflow. -/
def satisfyCount (t : Table) (val : Int) : Nat := (t.vec.filter fun v => decide (v = val)).length

/-- truth_table.cpp:78-93 `satisfy_all`. -/
def satisfyAll (t : Table) (val : Int) : Except Err (List (List Nat)) :=
  forEach t (fun v elem acc => .ok (if v = val then acc ++ [elem] else acc)) []

/-- truth_table.cpp:95-98 `domain_size`. -/
def domainSize (t : Table) : Nat := t.vec.length

/-- truth_table.hpp:128-140 `apply_mutable` on the vectors (`op` cannot fail). -/
def applyMutable (asserts : Bool) (lhs rhs : Table) (op : Int → Int → Int) : Except Err Table :=
  if asserts && !(decide (lhs.vec.length = rhs.vec.length) && decide (lhs.dom = rhs.dom)) then
    .error .assertion
  else if lhs.vec.length < rhs.vec.length then .error .outOfRange
  else .ok { lhs with vec := List.zipWith op lhs.vec rhs.vec ++ lhs.vec.drop rhs.vec.length }

/-- truth_table.hpp:149-166 `compare` with `less_equal`. -/
def lessEqual : List Nat → List Nat → Bool
  | [], _ => true
  | _ :: _, [] => false
  | a :: as, b :: bs => decide (a ≤ b) && lessEqual as bs

/-- `result[k] = v`. -/
def setAt (vec : List Int) (k : Int) (v : Int) : Except Err (List Int) :=
  if k < 0 then .error .outOfRange
  else if k.toNat < vec.length then .ok (vec.set k.toNat v) else .error .outOfRange

/-- Changing one variable of an element, `tmpElem[varIndex] = v`. -/
def setVar (elem : List Nat) (i v : Nat) : Except Err (List Nat) :=
  if i < elem.length then .ok (elem.set i v) else .error .outOfRange

/-- truth_table_reliability.hpp:197-203: the derivative is stored for every value of the variable. -/
def spread (asserts : Bool) (t : Table) (i : Nat) (der : Int) (elem : List Nat) :
    List Nat → List Int → Except Err (List Int)
  | [], res => .ok res
  | k :: ks, res => do
      let e ← setVar elem i k
      let j ← toIndex asserts t e
      let res ← setAt res j der
      spread asserts t i der elem ks res

/-- truth_table_reliability.hpp:178-209 `dpld`. -/
def dpld (asserts : Bool) (t : Table) (vc : VarChange) (change : Int → Int → Bool) : Except Err Table := do
  let res ← forEach t (fun fFrom elem res =>
    match elem[vc.index]? with
    | none => .error .outOfRange
    | some v =>
        if v = vc.from then do
          let e ← setVar elem vc.index vc.to
          let fTo ← evaluate asserts t e
          spread asserts t vc.index (if change fFrom fTo then 1 else 0) elem
            (List.range (t.dom.getD vc.index 0)) res
        else .ok res) (t.vec.map fun _ => 0)
  make asserts res t.dom

/-- truth_table_reliability.hpp:218-247 `dpld_e`; `index` of the lambda is the length of what has been
written. -/
def dpldE (asserts : Bool) (t : Table) (vc : VarChange) (change : Int → Int → Bool) : Except Err Table := do
  let res ← forEach t (fun fFrom elem acc =>
    match elem[vc.index]? with
    | none => .error .outOfRange
    | some v =>
        if v ≠ vc.from then .ok (acc ++ [Undefined])
        else do
          let e ← setVar elem vc.index vc.to
          let fTo ← evaluate asserts t e
          .ok (acc ++ [if change fFrom fTo then 1 else 0])) []
  make asserts res t.dom

/-- `probabilities[i][k]`. -/
def probAt (ps : List (List Rat)) (i k : Nat) : Except Err Rat :=
  match ps[i]? with
  | none => .error .outOfRange
  | some row => match row[k]? with
    | none => .error .outOfRange
    | some p => .ok p

/-- truth_table_reliability.cpp:55-60 and 223-234 `vector_probability`: the product over the components
from `i` on. -/
def vectorProbFrom (ps : List (List Rat)) : Nat → List Nat → Rat → Except Err Rat
  | _, [], a => .ok a
  | i, x :: xs, a => do
      let p ← probAt ps i x
      vectorProbFrom ps (i + 1) xs (a * p)

/-- truth_table_reliability.cpp:223-234 `vector_probability`. -/
def vectorProbability (ps : List (List Rat)) (x : List Nat) : Except Err Rat := vectorProbFrom ps 0 x 1

/-- truth_table_reliability.cpp:38-67 `probability` of a system state. -/
def probability (t : Table) (ps : List (List Rat)) (state : Int) : Except Err Rat :=
  forEach t (fun v elem total =>
    if v = state then do
      let p ← vectorProbability ps elem
      .ok (total + p)
    else .ok total) 0

/-- truth_table_reliability.cpp:23-29: the product over the components from `i` on, for the `probability`
of a binary system (probabilities of state 1). -/
def binaryProbFrom (ps : List Rat) : Nat → List Nat → Rat → Except Err Rat
  | _, [], a => .ok a
  | i, x :: xs, a =>
      match ps[i]? with
      | none => .error .outOfRange
      | some p => binaryProbFrom ps (i + 1) xs (a * if x = 1 then p else 1 - p)

/-- truth_table_reliability.cpp:10-36 `probability` of state 1 of a binary system. -/
def binaryProbability (t : Table) (ps : List Rat) : Except Err Rat :=
  forEach t (fun v elem total =>
    if v = 1 then do
      let p ← binaryProbFrom ps 0 elem 1
      .ok (total + p)
    else .ok total) 0

/-- truth_table_reliability.cpp:69-82 `availability`: the states `state, state + 1, …`; the number of
iterations is given. -/
def availLoop (t : Table) (ps : List (List Rat)) : Nat → Int → Rat → Except Err Rat
  | 0, _, a => .ok a
  | k + 1, state, a => do
      let p ← probability t ps state
      availLoop t ps k (state + 1) (a + p)

/-- truth_table_reliability.cpp:69-82 `availability`. -/
def availability (t : Table) (ps : List (List Rat)) (state : Int) : Except Err Rat :=
  availLoop t ps (t.maxVal + 1 - state).toNat state 0

/-- truth_table_reliability.cpp:84-97 `unavailability`: the states `state - 1, …, 0`. -/
def unavailLoop (t : Table) (ps : List (List Rat)) : Nat → Rat → Except Err Rat
  | 0, a => .ok a
  | k + 1, a => do
      let p ← probability t ps k
      unavailLoop t ps k (a + p)

/-- truth_table_reliability.cpp:84-97 `unavailability`. -/
def unavailability (t : Table) (ps : List (List Rat)) (state : Int) : Except Err Rat :=
  unavailLoop t ps state.toNat 0

/-- truth_table_reliability.cpp:99-103 `state_frequency`. -/
def stateFrequency (t : Table) (state : Int) : Rat := (satisfyCount t state : Rat) / (domainSize t : Rat)

/-- truth_table_reliability.cpp:105-119 `structural_importance`: integer divisions, then a quotient. -/
def structuralImportance (d : Table) (i : Nat) : Except Err Rat :=
  match d.dom[i]? with
  | none => .error .outOfRange
  | some 0 => .error .divZero
  | some (m + 1) => .ok (((satisfyCount d 1 / (m + 1) : Nat) : Rat) / ((d.dom.prod / (m + 1) : Nat) : Rat))

/-- truth_table_reliability.cpp:121-127 `birnbaum_importance`. -/
def birnbaumImportance (d : Table) (ps : List (List Rat)) : Except Err Rat := probability d ps 1

/-- truth_table_reliability.cpp:171-173, 198-200 `PiConj`. -/
def piConj (l r : Int) : Int := min (min l r) Undefined

/-- truth_table_reliability.cpp:175-184, 202-211: the derivatives, in order. -/
def derivatives (asserts : Bool) (t : Table) (change : Int → Int → Bool) :
    List VarChange → Except Err (List Table)
  | [] => .ok []
  | vc :: vcs => do
      let d ← dpldE asserts t vc change
      let ds ← derivatives asserts t change vcs
      .ok (d :: ds)

/-- truth_table_reliability.cpp:187-190: the conjunction. -/
def conj (asserts : Bool) : Table → List Table → Except Err Table
  | d, [] => .ok d
  | d, e :: es => do
      let d ← applyMutable asserts d e piConj
      conj asserts d es

/-- The conjunction of the derivatives; `dplds.front()` of an empty vector is undefined behaviour. -/
def vectorsOf (asserts : Bool) (t : Table) (change : Int → Int → Bool) (vcs : List VarChange) :
    Except Err (List (List Nat)) := do
  match ← derivatives asserts t change vcs with
  | [] => .error .outOfRange
  | d :: ds => do
      let g ← conj asserts d ds
      satisfyAll g 1

/-- truth_table_reliability.cpp:176-181: the changes of `calculate_mcvs`. -/
def ups (dom : List Nat) : List VarChange :=
  (List.range dom.length).flatMap fun i =>
    (List.range (dom.getD i 0 - 1)).map fun k => ⟨i, k, k + 1⟩

/-- truth_table_reliability.cpp:203-208: the changes of `calculate_mpvs`. -/
def downs (dom : List Nat) : List VarChange :=
  (List.range dom.length).flatMap fun i =>
    (List.range (dom.getD i 0 - 1)).map fun k => ⟨i, k + 1, k⟩

/-- truth_table_reliability.cpp:169-194 `calculate_mcvs`; the derivative types of
truth_table_reliability.hpp:115-167 are those of dplds.hpp. -/
def mcvs (asserts : Bool) (t : Table) (state : Int) : Except Err (List (List Nat)) :=
  vectorsOf asserts t (Dpld.type3Increase state) (ups t.dom)

/-- truth_table_reliability.cpp:196-221 `calculate_mpvs`. -/
def mpvs (asserts : Bool) (t : Table) (state : Int) : Except Err (List (List Nat)) :=
  vectorsOf asserts t (Dpld.type3Decrease state) (downs t.dom)

/-- truth_table_reliability.cpp:129-167 `fussell_vesely_importance`.  A quotient of doubles by zero is not
an error there; here it is `divZero`. -/
def fussellVesely (asserts : Bool) (t : Table) (ps : List (List Rat)) (i : Nat) (componentState : Nat)
    (state : Int) : Except Err Rat := do
  let all ← mcvs asserts t state
  let relevant := all.filter fun m => decide (((m.getD i 0 : Nat) : Int) = (componentState : Int) - 1)
  let num ← forEach t (fun _ elem a =>
    if relevant.any (fun m => lessEqual elem m) then do
      let p ← vectorProbability ps elem
      .ok (a + p)
    else .ok a) 0
  let u ← unavailability t ps state
  if u = 0 then .error .divZero else .ok (num / u)

end TT
end Teddy
