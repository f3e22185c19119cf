import Verif.World
import Verif.RoundingSpec

/-!
# Probabilities and counts in floating point

`reliability_manager` keeps its numbers in `double`.  `Reliability.lean` computes them exactly; here every addition,
multiplication, division and conversion is followed by a rounding `rnd`.  With `rnd = id` these are the functions of
`Reliability.lean`; `rnd = double` is IEEE 754 binary64, rounding to nearest, ties to even.

Simplified: every operation is rounded by itself (a compiler may contract `a += b * c` on some targets).  Infinities and
NaN are not represented: all numbers that occur are at most the number of assignments, or a little more than one.
-/

namespace Teddy

open SM

/-- reliability_manager.hpp:1104-1116: the visitor of `calculate_ntps_post_impl`. -/
def ntpsPostVisitR (rnd : Rat → Rat) (P : Nat → Nat → Rat) (p : Ptr) (_ : Unit) : M Unit := do
  match ← getKind p with
  | .leaf _ => pure ()
  | .inner i sons => do
      setData p 0
      forL (fun (e : Ptr × Nat) => do
        let d ← getData e.1
        let x ← getData p
        setData p (rnd (x + rnd (d * P i e.2)))) (sons.zip (List.range sons.length))

/-- reliability_manager.hpp:1080-1120 `calculate_ntps_post_impl`. -/
def ntpsPostR (rnd : Rat → Rat) (c : Cfg) (selected : List Int) (P : Nat → Nat → Rat) (root : Ptr) : M Rat := do
  forEachTerminal fun p => setData p 0
  forL (fun v => do
    match ← getTerminal v with
    | some p => setData p 1
    | none => pure ()) selected
  traversePost c (ntpsPostVisitR rnd P) root ()
  getData root

/-- reliability_manager.hpp:571-581 `calculate_probability`. -/
def calculateProbabilityR (rnd : Rat → Rat) (c : Cfg) (state : Int) (P : Nat → Nat → Rat) (root : Ptr) : M Rat :=
  ntpsPostR rnd c [state] P root

/-- reliability_manager.hpp:606-625 `calculate_availability`. -/
def calculateAvailabilityR (rnd : Rat → Rat) (c : Cfg) (state : Int) (P : Nat → Nat → Rat) (root : Ptr) :
    M Rat := do
  let states ← terminalValues fun v => decide (v ≥ state)
  ntpsPostR rnd c states P root

/-- reliability_manager.hpp:668-687 `calculate_unavailability`. -/
def calculateUnavailabilityR (rnd : Rat → Rat) (c : Cfg) (state : Int) (P : Nat → Nat → Rat) (root : Ptr) :
    M Rat := do
  let states ← terminalValues fun v => decide (v < state)
  ntpsPostR rnd c states P root

/-- reliability_manager.hpp:1138-1152: the visitor of `calculate_ntps_level_impl`. -/
def ntpsLevelVisitR (rnd : Rat → Rat) (P : Nat → Nat → Rat) (p : Ptr) : M Unit := do
  match ← getKind p with
  | .leaf _ => pure ()
  | .inner i sons =>
      forL (fun (e : Ptr × Nat) => do
        let d ← getData p
        let x ← getData e.1
        setData e.1 (rnd (x + rnd (d * P i e.2)))) (sons.zip (List.range sons.length))

/-- reliability_manager.hpp:1122-1155 `calculate_ntps_level_impl`, which is `calculate_probabilities` (546-554). -/
def calculateProbabilitiesR (rnd : Rat → Rat) (c : Cfg) (P : Nat → Nat → Rat) (root : Ptr) : M Unit := do
  traversePre c (fun p (_ : Unit) => setData p 0) root ()
  forEachTerminal fun p => setData p 0
  setData root 1
  traverseLevel c (ntpsLevelVisitR rnd P) root

/-- reliability_manager.hpp:636-651, 697-712: sum of the data of the terminals that satisfy `φ`. -/
def sumTerminalsR (rnd : Rat → Rat) (φ : Int → Bool) : M Rat := do
  let s ← get
  foldL (fun o (acc : Rat) => match o with
    | some p => do
        match ← getKind p with
        | .leaf v =>
            if φ v then do
              let d ← getData p
              pure (rnd (acc + d))
            else pure acc
        | .inner _ _ => throw .assertion
    | none => pure acc) s.terminals 0

/-- reliability_manager.hpp:636-651 `get_availability`. -/
def getAvailabilityR (rnd : Rat → Rat) (state : Int) : M Rat := sumTerminalsR rnd fun v => decide (v ≥ state)

/-- reliability_manager.hpp:697-712 `get_unavailability`. -/
def getUnavailabilityR (rnd : Rat → Rat) (state : Int) : M Rat := sumTerminalsR rnd fun v => decide (v < state)

/-- diagram_manager.hpp:1459-1479: the visitor of `satisfy_count` when the nodes have a data member of type `double`;
`static_cast<T>(diff)` rounds as well. -/
def satCountDataVisitR (rnd : Rat → Rat) (c : Cfg) (value : Int) (p : Ptr) (_ : Unit) : M Unit := do
  match ← getKind p with
  | .leaf v => setData p (if v = value then 1 else 0)
  | .inner i sons => do
      setData p 0
      let s ← get
      let level := s.idx2lvl i
      forL (fun son => do
        let sl ← getLevel c son
        let diff ← domainProduct c (level + 1) sl
        let d ← getData son
        let x ← getData p
        setData p (rnd (x + rnd (d * rnd diff)))) sons

/-- diagram_manager.hpp:1417-1485 `satisfy_count` of a reliability manager. -/
def satisfyCountDataR (rnd : Rat → Rat) (c : Cfg) (value : Int) (root : Ptr) : M Int := do
  assertValue c value
  traversePost c (satCountDataVisitR rnd c value) root ()
  let l ← getLevel c root
  let d ← getData root
  let alpha ← liftE (fit64 (d.floor))
  let dp ← domainProduct c 0 l
  liftE (fit64 (alpha * dp))

/-- reliability_manager.hpp:767-778 `state_frequency`. -/
def stateFrequencyR (rnd : Rat → Rat) (c : Cfg) (state : Int) (root : Ptr) : M Rat := do
  let d ← domainProduct c 0 c.n
  let k ← satisfyCountDataR rnd c state root
  pure (rnd (rnd k / rnd d))

/-- `calculate_probability(state, probs, d)` for the diagram in slot `a`. -/
def calculateProbabilityOf (rnd : Rat → Rat) (c : Cfg) (state : Int) (P : Nat → Nat → Rat) (a : Nat) :
    SM World Rat := do
  let p ← rootOf a
  onMgr (calculateProbabilityR rnd c state P p)

/-- `calculate_availability(state, probs, d)` for the diagram in slot `a`. -/
def calculateAvailabilityOf (rnd : Rat → Rat) (c : Cfg) (state : Int) (P : Nat → Nat → Rat) (a : Nat) :
    SM World Rat := do
  let p ← rootOf a
  onMgr (calculateAvailabilityR rnd c state P p)

/-- `calculate_unavailability(state, probs, d)` for the diagram in slot `a`. -/
def calculateUnavailabilityOf (rnd : Rat → Rat) (c : Cfg) (state : Int) (P : Nat → Nat → Rat) (a : Nat) :
    SM World Rat := do
  let p ← rootOf a
  onMgr (calculateUnavailabilityR rnd c state P p)

/-- `calculate_probabilities(probs, d)` for the diagram in slot `a`. -/
def calculateProbabilitiesOf (rnd : Rat → Rat) (c : Cfg) (P : Nat → Nat → Rat) (a : Nat) : SM World Unit := do
  let p ← rootOf a
  onMgr (calculateProbabilitiesR rnd c P p)

/-- `satisfy_count(value, d)` for the diagram in slot `a`. -/
def satisfyCountOf (rnd : Rat → Rat) (c : Cfg) (value : Int) (a : Nat) : SM World Int := do
  let p ← rootOf a
  onMgr (satisfyCountDataR rnd c value p)

/-- `state_frequency(d, state)` for the diagram in slot `a`. -/
def stateFrequencyOf (rnd : Rat → Rat) (c : Cfg) (state : Int) (a : Nat) : SM World Rat := do
  let p ← rootOf a
  onMgr (stateFrequencyR rnd c state p)

end Teddy
