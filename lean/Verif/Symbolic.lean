import Verif.World
import Mathlib.Analysis.SpecialFunctions.Pow.Real

/-!
# Distributions over time and symbolic availability (`probabilities.hpp`, `reliability_manager.hpp`)

Numbers stored in a `double` are rational; values of `std::exp` and `std::pow` are real numbers, without rounding.
Times are meant to be positive: at 0 a Weibull density can have a pole, where `std::pow` returns infinity and GiNaC
throws; the model takes the value Mathlib gives to the power.
-/

namespace Teddy

open SM

/-! ### `teddy::probs` -/

/-- probabilities.hpp:109-206: the distributions; the last component is `t_` (80). -/
inductive Dist
  | exponential (rate t : ℝ)
  | weibull (scale shape t : ℝ)
  | constant (value t : ℝ)
  | custom (dist : ℝ → ℝ) (t : ℝ)

namespace Dist

/-- probabilities.hpp:112-114: the constructor; `t_` is 0 (80). -/
def mkExponential (rate : ℝ) : Dist := exponential rate 0

/-- probabilities.hpp:136-140 -/
def mkWeibull (scale shape : ℝ) : Dist := weibull scale shape 0

/-- probabilities.hpp:164-166 -/
def mkConstant (value : ℝ) : Dist := constant value 0

/-- probabilities.hpp:188-190 -/
def mkCustom (dist : ℝ → ℝ) : Dist := custom dist 0

/-- probabilities.hpp:74-77, 218-221 `set_t`. -/
def setT (t : ℝ) : Dist → Dist
  | exponential rate _ => exponential rate t
  | weibull scale shape _ => weibull scale shape t
  | constant value _ => constant value t
  | custom dist _ => custom dist t

/-- probabilities.hpp:121-124, 147-151, 173-176, 197-200, 231-237 `operator()(t)`.  Where `std::pow` has no finite value the
model says nothing about the code: zero to a negative power is infinite there and 0 in Lean (see `Regular`). -/
noncomputable def at' (t : ℝ) : Dist → ℝ
  | exponential rate _ => rate * Real.exp (-rate * t)
  | weibull scale shape _ => shape / scale * (t / scale) ^ (shape - 1) * Real.exp (-(t / scale) ^ shape)
  | constant value _ => value
  | custom dist _ => dist t

/-- `std::pow` is called only where it has a finite value: a Weibull distribution with a shape below one has none at time
0, and none has one at a negative time. -/
def Regular (t : ℝ) : Dist → Prop
  | weibull scale shape _ => 0 < t / scale ∨ t / scale = 0 ∧ 1 ≤ shape
  | _ => True

/-- probabilities.hpp:116-119, 142-145, 168-171, 192-195, 223-229 `operator double`: the value at the time set last. -/
noncomputable def value : Dist → ℝ
  | exponential rate t => at' t (exponential rate t)
  | weibull scale shape t => at' t (weibull scale shape t)
  | constant v _ => v
  | custom dist t => at' t (custom dist t)

/-- probabilities.hpp:261-269 `at_time` of a vector. -/
def atTime (ds : List Dist) (t : ℝ) : List Dist := ds.map (setT t)

/-- probabilities.hpp:271-282 `at_time` of a matrix. -/
def atTimeM (ds : List (List Dist)) (t : ℝ) : List (List Dist) := ds.map fun row => row.map (setT t)

end Dist

/-! ### `teddy::symprobs` -/

/-- The expressions built by `symprobs` (GiNaC::ex).  GiNaC simplifies sums and products when they are built; the
model keeps them as they are written, their values are the same. -/
inductive Sym
  | num (q : Rat)
  | time
  | add (l r : Sym)
  | sub (l r : Sym)
  | mul (l r : Sym)
  | exp (e : Sym)
  | pow (e : Sym) (q : Rat)
deriving DecidableEq

namespace Sym

/-- probabilities.hpp:307-311 `expression::evaluate`: substitute the time and evaluate.  For a pole (zero to a negative power)
GiNaC throws, here the power is 0. -/
noncomputable def eval (t : ℝ) : Sym → ℝ
  | num q => q
  | time => t
  | add l r => eval t l + eval t r
  | sub l r => eval t l - eval t r
  | mul l r => eval t l * eval t r
  | exp e => Real.exp (eval t e)
  | pow e q => eval t e ^ (q : ℝ)

/-- probabilities.hpp:336-339 `exponential`. -/
def exponential (rate : Rat) : Sym := mul (num rate) (exp (mul (num (-rate)) time))

/-- probabilities.hpp:344-349 `weibull`. -/
def weibull (shape scale : Rat) : Sym :=
  mul (mul (num (shape / scale)) (pow (mul time (num (1 / scale))) (shape - 1)))
    (exp (mul (num (-1)) (pow (mul time (num (1 / scale))) shape)))

/-- probabilities.hpp:354-357 `constant`. -/
def constant (prob : Rat) : Sym := num prob

/-- probabilities.hpp:362-365 `complement`. -/
def complement (other : Sym) : Sym := sub (num 1) other

/-- probabilities.hpp:370-379 `as_matrix`; row `i` holds the expressions for the values 0 and 1 of variable `i`. -/
def asMatrix (probs : List Sym) : List (List Sym) := probs.map fun e => [complement e, e]

end Sym

/-! ### Symbolic availability -/

/-- `probs[i][k]` for a table with enough rows and columns. -/
def Sym.table (m : List (List Sym)) (i k : Nat) : Sym := (m.getD i []).getD k (.num 0)

/-- reliability_manager.hpp:742-766: the visitor of `symbolic_availability`; `m` is `exprMap`.  `emplace` keeps an
entry that exists already; `find` of a missing node returns the end iterator, which is dereferenced. -/
def symVisit (c : Cfg) (P : Nat → Nat → Sym) (p : Ptr) (m : Ptr → Option Sym) : M (Ptr → Option Sym) := do
  match ← getKind p with
  | .leaf _ => pure m
  | .inner i sons => do
      if c.asserts && (m p).isSome then throw .assertion
      let m := upd m p (some ((m p).getD (.num 0)))
      foldL (fun (e : Ptr × Nat) (m : Ptr → Option Sym) => do
        match m p, m e.1 with
        | some x, some d => pure (upd m p (some (.add x (.mul d (P i e.2)))))
        | _, _ => throw .nullDeref) (sons.zip (List.range sons.length)) m

/-- reliability_manager.hpp:719-769 `symbolic_availability`. -/
def symbolicAvailability (c : Cfg) (state : Int) (P : Nat → Nat → Sym) (root : Ptr) : M Sym := do
  let s ← get
  let m ← foldL (fun o (m : Ptr → Option Sym) => match o with
    | some p => do
        match ← getKind p with
        | .leaf v => pure (upd m p (some (.num (if v ≥ state then 1 else 0))))
        | .inner _ _ => throw .assertion
    | none => pure m) s.terminals (fun _ => none)
  let m ← traversePost c (symVisit c P) root m
  match m root with
  | some e => pure e
  | none => throw .nullDeref

/-- `symbolic_availability(state, probs, d)` for the diagram in slot `a`. -/
def symbolicAvailabilityOf (c : Cfg) (state : Int) (P : Nat → Nat → Sym) (a : Nat) : SM World Sym := do
  let p ← rootOf a
  onMgr (symbolicAvailability c state P p)

end Teddy
