import Verif.UnitTests
import Verif.WorldSpec

/-!
# Passing a test
-/

namespace Teddy
namespace Tests

open Spec

/-- What the tests of `tests/core.test.cpp` need from the manager of a fixture: all variables have at least two values, the
values do not clash with the special ones, the number of elements of the domain can be computed in the integer types
used, and identifiers of operations mean the shipped operations, those of `PLUS` and `MULTIPLIES` the operations for 4 values
(with wrap-around arithmetic). -/
structure Suitable (P : Setup) : Prop where
  ok : P.OK
  two : ∀ i < P.c.n, 2 ≤ P.c.dom i
  fit : ∀ i < P.c.n, (P.c.dom i : Int) ≤ Nondetermined
  count : CountFits P.c
  ops : ∀ op ∈ [Op.AND, Op.OR, Op.XOR, Op.EQUAL_TO, Op.NOT_EQUAL_TO, Op.LESS, Op.GREATER, Op.LESS_EQUAL, Op.GREATER_EQUAL,
    Op.MIN, Op.MAX, Op.MULTIPLIESwrap 4, Op.PLUSwrap 4], P.Γ (opType P.c op).id = opType P.c op

/-- On a new manager, the test ends without undefined behaviour and without failed assertions, and reports `b`. -/
def Reports (P : Setup) (t : SM World Bool) (b : Bool) : Prop :=
  ∃ m w, construct P.c P.pool P.order = .ok m ∧ t ⟨m, []⟩ = .ok (b, w)

/-- All requirements of the test are met. -/
def Passes (P : Setup) (t : SM World Bool) : Prop := Reports P t true

/-- On a new manager, the action leaves some nodes of the initial pool unused. -/
def LeavesRoom {α : Type} (r : Except Err (Cfg × Mgr)) (a : Cfg → SM World α) : Prop :=
  ∀ c m, r = .ok (c, m) → ∀ x w, a c ⟨m, []⟩ = .ok (x, w) → w.mgr.poolEnd = m.poolEnd ∧ w.mgr.next < w.mgr.poolEnd

/-- The number of values of a variable. -/
def Fixture.dom : Fixture → Nat → Nat
  | .bdd, _ => 2
  | .mdd, _ => 3
  | .imdd doms, i => doms.getD i 0
  | .ifmdd doms, i => doms.getD i 0

/-- Values that random number generators can deliver: the domains have 2 or 3 values, the order is a shuffle of all
variables, and the variables drawn for the expression exist. -/
structure Seed (f : Fixture) (order : List Nat) (draw : Nat → Nat) : Prop where
  doms : ∀ doms, f = .imdd doms ∨ f = .ifmdd doms → doms.length = 15 ∧ ∀ d ∈ doms, 2 ≤ d ∧ d ≤ 3
  order : order.Perm (List.range f.vars)
  draw : ∀ k, draw k < f.vars

/-- What the constructor of `domain_iterator` with fixed values is meant to make: the fixed variables have their values, the
other ones start with 0 and are the only ones that change.  (The constructor itself has undefined behaviour.) -/
def intended (domains order : List Nat) (fixed : List (Nat × Nat)) : Except Err Tsl.DomIter :=
  .ok ⟨domains, (order.filter fun i => (fixed.find? fun p => p.1 == i).isNone).reverse,
    fixed.foldl (fun vs p => vs.set p.1 p.2) (List.replicate domains.length 0)⟩

end Tests
end Teddy
