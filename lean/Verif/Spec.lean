import Verif.Basic

/-!
# Specification vocabulary

Functions of assignments, lists of all assignments, positions in a truth vector.  Nothing here
mentions nodes, tables, marks or any other part of the implementation.
-/

namespace Teddy
namespace Spec

/-- `x` gives each of the `n` variables a value of its domain. -/
def InDomain (n : Nat) (dom : Nat → Nat) (x : Asg) : Prop := ∀ i, i < n → x i < dom i

/-- All assignments of the variables in `vars`, in lexicographic order (the first variable in the
list is the most significant); variables not in the list get 0. -/
def assignments (dom : Nat → Nat) : List Nat → List Asg
  | [] => [fun _ => 0]
  | i :: is => (List.range (dom i)).flatMap fun k => (assignments dom is).map fun x => upd x i k

/-- All assignments of `n` variables. -/
def allAsg (n : Nat) (dom : Nat → Nat) : List Asg := assignments dom (List.range n)

/-- Number of assignments of `n` variables on which `f` has value `v`. -/
def countValue (n : Nat) (dom : Nat → Nat) (f : Asg → Int) (v : Int) : Nat :=
  ((allAsg n dom).filter fun x => f x = v).length

/-- The values of the first `n` variables as a list. -/
def toList (n : Nat) (x : Asg) : List Nat := (List.range n).map x

/-- Product of the sizes of the domains of `vars`. -/
def domProd (dom : Nat → Nat) (vars : List Nat) : Nat := (vars.map dom).prod

/-- Position of `x` in a truth vector whose variables are `vars`, the last one least significant. -/
def position (dom : Nat → Nat) : List Nat → Asg → Nat
  | [], _ => 0
  | i :: is, x => x i * domProd dom is + position dom is x

/-- Truth vector of `f` when the variables are ordered as in `vars`. -/
def truthVector (dom : Nat → Nat) (vars : List Nat) (f : Asg → Int) : List Int :=
  (assignments dom vars).map f

/-- `f` depends on variable `i` (among assignments of `n` variables). -/
def DependsOn (n : Nat) (dom : Nat → Nat) (f : Asg → Int) (i : Nat) : Prop :=
  ∃ x k, InDomain n dom x ∧ k < dom i ∧ f (upd x i k) ≠ f x

/-- Try the values `ks` for variable `i`, one after the other, until `try_` succeeds. -/
def tryValues (try_ : Nat → Asg → Bool × Asg) (i : Nat) : List Nat → Asg → Bool × Asg
  | [], x => (false, x)
  | k :: ks, x =>
      let (b, y) := try_ k (upd x i k)
      if b then (true, y) else tryValues try_ i ks y

open Classical in
/-- Depth-first search for an assignment on which `f` has value `v`: the variables are taken in the given order,
those on which the function with the earlier ones fixed does not depend are left as they are, for the others
all values are tried. -/
noncomputable def search (n : Nat) (dom : Nat → Nat) (v : Int) : List Nat → (Asg → Int) → Asg → Bool × Asg
  | [], f, x => (f x == v, x)
  | i :: vars, f, x =>
      if DependsOn n dom f i then
        tryValues (fun k => search n dom v vars fun y => f (upd y i k)) i (List.range (dom i)) x
      else search n dom v vars f x

/-- The assignment `search` finds, starting with all variables 0. -/
noncomputable def searchOne (n : Nat) (dom : Nat → Nat) (order : List Nat) (v : Int) (f : Asg → Int) :
    Option (List Nat) :=
  let (b, x) := search n dom v order f fun _ => 0
  if b then some ((List.range n).map x) else none

/-- `x` with the first `l` variables of the order replaced by those of `y`. -/
def fixFirst (order : List Nat) (l : Nat) (y x : Asg) : Asg :=
  fun i => if i ∈ order.take l then y i else x i

/-- `g` is obtained from `f` by fixing the first variables of the order. -/
def Subfunction (n : Nat) (dom : Nat → Nat) (order : List Nat) (f g : Asg → Int) : Prop :=
  ∃ l y, InDomain n dom y ∧ g = fun x => f (fixFirst order l y x)

/-- Once the first `i` variables of the order have the values of `y`, the variables at the positions from `i` to `j`
have no influence on `f`. -/
def Skips (n : Nat) (dom : Nat → Nat) (order : List Nat) (f : Asg → Int) (y : Asg) (i j : Nat) : Prop :=
  ∀ k ∈ (order.take j).drop i, ¬ DependsOn n dom (fun x => f (fixFirst order i y x)) k

/-- Equal on all assignments. -/
def SameOn (n : Nat) (dom : Nat → Nat) (f g : Asg → Int) : Prop := ∀ x, InDomain n dom x → f x = g x

/-- `k` is the number of different functions with property `F`. -/
def CountFuns (n : Nat) (dom : Nat → Nat) (F : (Asg → Int) → Prop) (k : Nat) : Prop :=
  ∃ gs : List (Asg → Int), gs.length = k ∧ gs.Pairwise (fun g h => ¬ SameOn n dom g h) ∧
    (∀ g ∈ gs, F g) ∧ ∀ g, F g → ∃ h ∈ gs, SameOn n dom g h

/-- `x` with all the given variables fixed, one after the other. -/
def fixAll (x : Asg) (vars : List (Nat × Nat)) : Asg :=
  vars.foldr (fun v y => upd y v.1 v.2) x

/-- Probability of an assignment when variable `i` has value `k` with probability `P i k`,
independently.  The numbers `R` are rational, or real in the specification of symbolic expressions. -/
def weight {R : Type} [Mul R] [One R] (P : Nat → Nat → R) (vars : List Nat) (x : Asg) : R :=
  (vars.map fun i => P i (x i)).prod

/-- Probability that `f` satisfies `φ`. -/
def probability {R : Type} [Mul R] [One R] [Add R] [Zero R] (n : Nat) (dom : Nat → Nat) (P : Nat → Nat → R)
    (φ : Asg → Bool) : R :=
  (((allAsg n dom).filter φ).map (weight P (List.range n))).sum

/-- The probabilities of the values of every variable sum to one. -/
def SumsToOne {R : Type} [One R] [Add R] [Zero R] (n : Nat) (dom : Nat → Nat) (P : Nat → Nat → R) : Prop :=
  ∀ i, i < n → ((List.range (dom i)).map (P i)).sum = 1

/-- `x` is not the best vector, `f` is below `s` on it, and every improvement of one component by one
reaches `s`. -/
def MinCut (n : Nat) (dom : Nat → Nat) (f : Asg → Int) (s : Int) (x : Asg) : Prop :=
  (∃ i, i < n ∧ x i + 1 < dom i) ∧ f x < s ∧
    ∀ i, i < n → x i + 1 < dom i → s ≤ f (upd x i (x i + 1))

/-- `x` is not the worst vector, `f` reaches `s` on it, and every degradation of one component by one
drops below `s`. -/
def MinPath (n : Nat) (f : Asg → Int) (s : Int) (x : Asg) : Prop :=
  (∃ i, i < n ∧ 0 < x i) ∧ s ≤ f x ∧ ∀ i, i < n → 0 < x i → f (upd x i (x i - 1)) < s

instance (n : Nat) (dom : Nat → Nat) (f : Asg → Int) (s : Int) (x : Asg) :
    Decidable (MinCut n dom f s x) := by unfold MinCut; infer_instance

instance (n : Nat) (f : Asg → Int) (s : Int) (x : Asg) : Decidable (MinPath n f s x) := by
  unfold MinPath; infer_instance

/-- Some vector that is at least `x` in every component makes `f` equal to 1. -/
def Covered (n : Nat) (dom : Nat → Nat) (f : Asg → Int) (x : Asg) : Prop :=
  ∃ y ∈ allAsg n dom, (∀ i, i < n → x i ≤ y i) ∧ f y = 1

instance (n : Nat) (dom : Nat → Nat) (f : Asg → Int) (x : Asg) : Decidable (Covered n dom f x) := by
  unfold Covered; infer_instance

/-- `f` is layered: after fixing the first variables of the order (to the values of `y`), take two values
`a < b` of the next variable `i`.  Either `f` is never 1 when `i` has value `a`, or every vector that makes
`f` equal to 1 when `i` has value `b` lies below one that makes it 1 when `i` has value `a`. -/
def Layered (n : Nat) (dom : Nat → Nat) (order : List Nat) (f : Asg → Int) : Prop :=
  ∀ l i y a b, order[l]? = some i → InDomain n dom y → a < b → b < dom i →
    (∀ z, InDomain n dom z → f (fixFirst order l y (upd z i a)) ≠ 1) ∨
    ∀ z, InDomain n dom z → f (fixFirst order l y (upd z i b)) = 1 →
      ∃ z', InDomain n dom z' ∧ (∀ j, j < n → z j ≤ z' j) ∧
        f (fixFirst order l y (upd z' i a)) = 1

end Spec
end Teddy
