import Verif.Diagram
import Verif.Spec
import Batteries.Data.List.Basic

/-!
# Vocabulary for the preconditions of the API

What a caller has to guarantee (values that fit a terminal, operations defined on the values of their
operands, products of domains that fit the integer types) and the functions the results denote.
Nodes, tables and marks do not occur here.
-/

namespace Teddy

/-- `x` gives every variable a value of its domain. -/
def Valid (c : Cfg) (x : Asg) : Prop := ∀ i, i < c.n → x i < c.dom i

/-- Domains are not empty; a fixed domain is shared by all variables. -/
structure CfgOK (c : Cfg) : Prop where
  dom_pos : ∀ i, i < c.n → 0 < c.dom i
  fixed : ∀ m, c.fixedDom = some m → ∀ i, i < c.n → c.dom i = m

/-- Values that a terminal can hold. -/
def TermOK (c : Cfg) (v : Int) : Prop :=
  0 ≤ v ∧ (c.asserts = true → ∀ m, c.fixedDom = some m → v < m)

/-- The operation is total on the given values, never answers `Nondetermined` on them, and when it
already answers on an unknown operand (`Nondetermined`) the answer does not depend on it. -/
structure OpOK (c : Cfg) (op : BinOp) (A B : Int → Prop) : Prop where
  ndA : ∀ a, A a → a ≠ Nondetermined
  ndB : ∀ b, B b → b ≠ Nondetermined
  total : ∀ a' b', (A a' ∨ a' = Nondetermined) → (B b' ∨ b' = Nondetermined) →
    ∃ v, op.fn a' b' = .ok v ∧
      (v = Nondetermined → a' = Nondetermined ∨ b' = Nondetermined) ∧
      (v ≠ Nondetermined → TermOK c v ∧ ∀ a b, A a → B b →
        (a' = Nondetermined ∨ a = a') → (b' = Nondetermined ∨ b = b') → op.fn a b = .ok v)
  comm : op.comm = true → ∀ a b, A a → B b → op.fn a b = op.fn b a

/-- The operation as a function on values (its meaning where it is defined). -/
def BinOp.val (op : BinOp) (a b : Int) : Int :=
  match op.fn a b with
  | .ok v => v
  | .error _ => 0

/-- Values a function takes. -/
def Range (c : Cfg) (f : Asg → Int) : Int → Prop := fun v => ∃ x, Valid c x ∧ f x = v

/-- The operation is applicable along a left fold. -/
def FoldOK (c : Cfg) (op : BinOp) : (Asg → Int) → List (Asg → Int) → Prop
  | _, [] => True
  | f, g :: gs => OpOK c op (Range c f) (Range c g) ∧
      FoldOK c op (fun x => op.val (f x) (g x)) gs

/-- One level of the tree: adjacent pairs are combined, an odd last element is kept. -/
def pairUp {α : Type} (op : α → α → α) : List α → List α
  | a :: b :: l => op a b :: pairUp op l
  | l => l

/-- `k` levels of the tree. -/
def pairUps {α : Type} (op : α → α → α) : Nat → List α → List α
  | 0, l => l
  | k + 1, l => pairUps op k (pairUp op l)

/-- Pointwise operation on functions. -/
def BinOp.lift (op : BinOp) (f g : Asg → Int) : Asg → Int := fun x => op.val (f x) (g x)

/-- The operation is applicable to all pairs of one level. -/
def PairsOK (c : Cfg) (op : BinOp) : List (Asg → Int) → Prop
  | f :: g :: l => OpOK c op (Range c f) (Range c g) ∧ PairsOK c op l
  | _ => True

/-- The operation is applicable on `k` levels of the tree. -/
def TreeOK (c : Cfg) (op : BinOp) : Nat → List (Asg → Int) → Prop
  | 0, _ => True
  | k + 1, fs => PairsOK c op fs ∧ TreeOK c op k (pairUp op.lift fs)

/-- The function `tree_fold` computes. -/
def treeFun (op : BinOp) (fs : List (Asg → Int)) : Asg → Int :=
  (pairUps op.lift (ceilLog2 fs.length) fs).headD (fun _ => 0)

/-- `OpOK` for an operation on several operands. -/
structure NOpOK (c : Cfg) (op : List Int → Except Err Int) (As : List (Int → Prop)) : Prop where
  nd : ∀ A ∈ As, ∀ a, A a → a ≠ Nondetermined
  total : ∀ vs', List.Forall₂ (fun A v => A v ∨ v = Nondetermined) As vs' →
    ∃ v, op vs' = .ok v ∧ (v = Nondetermined → Nondetermined ∈ vs') ∧
      (v ≠ Nondetermined → TermOK c v ∧ ∀ ws, List.Forall₂ (fun A w => A w) As ws →
        List.Forall₂ (fun v' w => v' = Nondetermined ∨ w = v') vs' ws → op ws = .ok v)

/-- Value of an expression. -/
def Expr.val (x : Asg) : Expr → Int
  | .const v => v
  | .var i => x i
  | .op f l r => f (l.val x) (r.val x)

/-- The expression uses existing variables, and the value of every subexpression is a valid terminal
value other than the internal `Nondetermined`. -/
def Expr.OK (c : Cfg) : Expr → Prop
  | .const v => TermOK c v ∧ v ≠ Nondetermined
  | .var i => i < c.n ∧ (c.dom i : Int) ≤ Nondetermined
  | .op f l r => l.OK c ∧ r.OK c ∧
      ∀ x y, Valid c x → Valid c y → TermOK c (f (l.val x) (r.val y)) ∧
        f (l.val x) (r.val y) ≠ Nondetermined

/-- `x` with the given variables fixed (the first occurrence of an index counts). -/
def updAll (x : Asg) (vars : List (Nat × Nat)) : Asg := fun i => (findVar vars i).getD (x i)

/-- The product of the domains in `doms` can be computed without overflow. -/
def ProdFits (fixedDom : Option Nat) (doms : List Nat) : Prop :=
  match fixedDom with
  | some m => if m = 2 then doms.length < 63 else m ^ doms.length ≤ 2147483647
  | none => doms.prod ≤ 9223372036854775807

/-- All domain products fit the integer types the code uses. -/
def CountFits (c : Cfg) : Prop := ProdFits c.fixedDom ((List.range c.n).map c.dom)

end Teddy
