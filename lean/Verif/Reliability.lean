import Verif.Diagram

/-!
# `reliability_manager`

Model of `libteddy/details/{reliability_manager,dplds,probabilities}.hpp`.

A reliability manager is a `diagram_manager<double, Degree, Domain>`.  Here `double` is modelled by exact
rational numbers; `Rounding.lean` has the same functions with rounding.  Infinities and NaN are not represented.  The
data member of a node is indeterminate until it is written; reading it before is the outcome `uninit`.

The symbolic variants and the probability distributions are in `Symbolic.lean`.
-/

namespace Teddy

/-! ### Probabilities -/

/-- probabilities.hpp:20-61 `prob_vector_wrap`: a vector with the probabilities of state 1. -/
def probVectorWrap (p : Nat → Rat) : Nat → Nat → Rat := fun i k => if k = 1 then p i else 1 - p i

/-- node_manager.hpp:782-793 `for_each_terminal_node`: special terminals are not visited. -/
def forEachTerminal (f : Ptr → M Unit) : M Unit := do
  let s ← get
  forL (fun o => match o with
    | some p => f p
    | none => pure ()) s.terminals

/-- node_manager.hpp:428-433 `get_terminal_node`; a negative value is a huge unsigned index. -/
def getTerminal (v : Int) : M (Option Ptr) := do
  let s ← get
  if v < (s.terminals.length : Int) then
    if v < 0 then throw .outOfRange else pure (s.terminals.getD v.toNat none)
  else pure none

/-- reliability_manager.hpp:1104-1116: the visitor of `calculate_ntps_post_impl`. -/
def ntpsPostVisit (P : Nat → Nat → Rat) (p : Ptr) (_ : Unit) : M Unit := do
  match ← getKind p with
  | .leaf _ => pure ()
  | .inner i sons => do
      setData p 0
      forL (fun (e : Ptr × Nat) => do
        let d ← getData e.1
        let x ← getData p
        setData p (x + d * P i e.2)) (sons.zip (List.range sons.length))

/-- reliability_manager.hpp:1080-1120 `calculate_ntps_post_impl`. -/
def ntpsPost (c : Cfg) (selected : List Int) (P : Nat → Nat → Rat) (root : Ptr) : M Rat := do
  forEachTerminal fun p => setData p 0
  forL (fun v => do
    match ← getTerminal v with
    | some p => setData p 1
    | none => pure ()) selected
  traversePost c (ntpsPostVisit P) root ()
  getData root

/-- reliability_manager.hpp:1138-1152: the visitor of `calculate_ntps_level_impl`. -/
def ntpsLevelVisit (P : Nat → Nat → Rat) (p : Ptr) : M Unit := do
  match ← getKind p with
  | .leaf _ => pure ()
  | .inner i sons =>
      forL (fun (e : Ptr × Nat) => do
        let d ← getData p
        let x ← getData e.1
        setData e.1 (x + d * P i e.2)) (sons.zip (List.range sons.length))

/-- reliability_manager.hpp:1122-1155 `calculate_ntps_level_impl`, which is
`calculate_probabilities` (546-554). -/
def calculateProbabilities (c : Cfg) (P : Nat → Nat → Rat) (root : Ptr) : M Unit := do
  traversePre c (fun p (_ : Unit) => setData p 0) root ()
  forEachTerminal fun p => setData p 0
  setData root 1
  traverseLevel c (ntpsLevelVisit P) root

/-- reliability_manager.hpp:571-581 `calculate_probability`. -/
def calculateProbability (c : Cfg) (state : Int) (P : Nat → Nat → Rat) (root : Ptr) : M Rat :=
  ntpsPost c [state] P root

/-- reliability_manager.hpp:583-589 `get_probability`. -/
def getProbability (state : Int) : M Rat := do
  match ← getTerminal state with
  | some p => getData p
  | none => pure 0

/-- The values of the existing non-special terminals that satisfy `φ`, in ascending order
(reliability_manager.hpp:613-622, 675-684). -/
def terminalValues (φ : Int → Bool) : M (List Int) := do
  let s ← get
  foldL (fun o (acc : List Int) => match o with
    | some p => do
        match ← getKind p with
        | .leaf v => pure (if φ v then acc ++ [v] else acc)
        | .inner _ _ => throw .assertion
    | none => pure acc) s.terminals []

/-- reliability_manager.hpp:606-625 `calculate_availability`. -/
def calculateAvailability (c : Cfg) (state : Int) (P : Nat → Nat → Rat) (root : Ptr) : M Rat := do
  let states ← terminalValues fun v => decide (v ≥ state)
  ntpsPost c states P root

/-- reliability_manager.hpp:668-687 `calculate_unavailability`. -/
def calculateUnavailability (c : Cfg) (state : Int) (P : Nat → Nat → Rat) (root : Ptr) : M Rat := do
  let states ← terminalValues fun v => decide (v < state)
  ntpsPost c states P root

/-- reliability_manager.hpp:636-651, 697-712: sum of the data of the terminals that satisfy `φ`. -/
def sumTerminals (φ : Int → Bool) : M Rat := do
  let s ← get
  foldL (fun o (acc : Rat) => match o with
    | some p => do
        match ← getKind p with
        | .leaf v =>
            if φ v then do
              let d ← getData p
              pure (acc + d)
            else pure acc
        | .inner _ _ => throw .assertion
    | none => pure acc) s.terminals 0

/-- reliability_manager.hpp:636-651 `get_availability(state)`. -/
def getAvailability (state : Int) : M Rat := sumTerminals fun v => decide (v ≥ state)

/-- reliability_manager.hpp:697-712 `get_unavailability(state)`. -/
def getUnavailability (state : Int) : M Rat := sumTerminals fun v => decide (v < state)

/-! ### Counting with the data member -/

/-- diagram_manager.hpp:1459-1479: the visitor of `satisfy_count` when the nodes have a data member
of type `double`. -/
def satCountDataVisit (c : Cfg) (value : Int) (p : Ptr) (_ : Unit) : M Unit := do
  match ← getKind p with
  | .leaf v => setData p (if v = value then 1 else 0)
  | .inner i sons => do
      setData p 0
      let s ← get
      let level := s.idx2lvl i
      forL (fun son => do
        let sl ← getLevel c son
        let diff ← domainProduct c (level + 1) sl
        let d ← getData son
        let x ← getData p
        setData p (x + d * diff)) sons

/-- diagram_manager.hpp:1417-1485 `satisfy_count` of a reliability manager.  The count at the root
is converted to int64 (undefined if it does not fit). -/
def satisfyCountData (c : Cfg) (value : Int) (root : Ptr) : M Int := do
  assertValue c value
  traversePost c (satCountDataVisit c value) root ()
  let l ← getLevel c root
  let d ← getData root
  let alpha ← liftE (fit64 (d.floor))
  let dp ← domainProduct c 0 l
  liftE (fit64 (alpha * dp))

/-- reliability_manager.hpp:767-778 `state_frequency`. -/
def stateFrequency (c : Cfg) (state : Int) (root : Ptr) : M Rat := do
  let d ← domainProduct c 0 c.n
  let k ← satisfyCountData c state root
  pure ((k : Rat) / (d : Rat))

/-! ### Direct partial logic derivatives -/

/-- dplds.hpp:11-18 `basic(fFrom, fTo)`. -/
def Dpld.basic (fFrom fTo : Int) : Int → Int → Bool := fun l r => decide (l = fFrom) && decide (r = fTo)
/-- dplds.hpp:20-27 -/
def Dpld.type1Decrease (s : Int) : Int → Int → Bool := fun l r => decide (l = s) && decide (r < s)
/-- dplds.hpp:29-36 -/
def Dpld.type1Increase (s : Int) : Int → Int → Bool := fun l r => decide (l = s) && decide (r > s)
/-- dplds.hpp:38-42 -/
def Dpld.type2Decrease : Int → Int → Bool := fun l r => decide (l > r)
/-- dplds.hpp:44-48 -/
def Dpld.type2Increase : Int → Int → Bool := fun l r => decide (l < r)
/-- dplds.hpp:50-57 -/
def Dpld.type3Decrease (s : Int) : Int → Int → Bool := fun l r => decide (l ≥ s) && decide (r < s)
/-- dplds.hpp:59-66 -/
def Dpld.type3Increase (s : Int) : Int → Int → Bool := fun l r => decide (l < s) && decide (r ≥ s)

/-- reliability_manager.hpp:24-32 `var_change`. -/
structure VarChange where
  index : Nat
  «from» : Nat
  «to» : Nat

/-- `dpld_cache`, keyed by both operands. -/
abbrev DMemo := Ptr × Ptr → Option Ptr

/-- `dpld_cache::emplace` of a missing key. -/
def DMemo.put (m : DMemo) (lhs rhs r : Ptr) : DMemo :=
  fun k => if k = (lhs, rhs) then some r else m k

/-- reliability_manager.hpp:815-824: the local `get_son`. -/
def dpldSon (p : Ptr) (k var val : Nat) : M Ptr := do
  let q ← getSon p k
  match ← getKind q with
  | .leaf _ => pure q
  | .inner i _ => if i = var then getSon q val else pure q

/-- reliability_manager.hpp:805-868 `dpld_impl`. -/
def dpldImpl (c : Cfg) (vc : VarChange) (ch : Int → Int → Bool) :
    Nat → Ptr × Ptr → DMemo → M (Ptr × DMemo)
  | 0, _, _ => throw .fuel
  | f + 1, (lhs, rhs), m => do
      match m (lhs, rhs) with
      | some r => pure (r, m)
      | none => do
          match ← getKind lhs, ← getKind rhs with
          | .leaf a, .leaf b => do
              let r ← makeTerminal c (b2i (ch a b))
              pure (r, m.put lhs rhs r)
          | _, _ => do
              let ll ← getLevel c lhs
              let rl ← getLevel c rhs
              let top := min ll rl
              let i ← getIndex c top
              let (sons, m) ← mapAccL (fun k m => do
                let a ← (if ll = top then dpldSon lhs k vc.index vc.from else pure lhs : M Ptr)
                let b ← (if rl = top then dpldSon rhs k vc.index vc.to else pure rhs : M Ptr)
                dpldImpl c vc ch f (a, b) m) (List.range (c.dom i)) m
              let r ← makeInternal c i sons
              pure (r, m.put lhs rhs r)

/-- reliability_manager.hpp:780-803 `dpld`. -/
def dpld (c : Cfg) (vc : VarChange) (ch : Int → Int → Bool) (root : Ptr) : M Ptr := do
  let (l, r) ← (do
    match ← getKind root with
    | .leaf _ => pure (root, root)
    | .inner i _ =>
        if i = vc.index then do
          let a ← getSon root vc.from
          let b ← getSon root vc.to
          pure (a, b)
        else pure (root, root) : M (Ptr × Ptr))
  let (r, _) ← dpldImpl c vc ch (c.n + 1) (l, r) (fun _ => none)
  runDeferred c
  mkDiagram r

/-- reliability_manager.hpp:883-891, 934-942: a node of the variable with `son` for the value
`varFrom` and `Undefined` elsewhere. -/
def undefinedExcept (c : Cfg) (varFrom var : Nat) (son : Ptr) : M Ptr := do
  let d ← getDomain c var
  let sons ← mapL (fun k => if k = varFrom then pure son else makeTerminal c Undefined) (List.range d)
  makeInternal c var sons

/-- reliability_manager.hpp:906-957 `to_dpld_e_impl`. -/
def toDpldEImpl (c : Cfg) (varFrom var : Nat) : Nat → Ptr → Memo → M (Ptr × Memo)
  | 0, _, _ => throw .fuel
  | f + 1, p, m => do
      match ← getKind p with
      | .leaf _ => pure (p, m)
      | .inner i sons =>
          match m p with
          | some r => pure (r, m)
          | none => do
              let s ← get
              let varLevel := s.idx2lvl var
              let nodeLevel := s.idx2lvl i
              let (sons', m) ← mapAccL (fun son m => do
                let sonLevel ← getLevel c son
                if varLevel > nodeLevel ∧ varLevel < sonLevel then do
                  let r ← undefinedExcept c varFrom var son
                  pure (r, m)
                else toDpldEImpl c varFrom var f son m) sons m
              let r ← makeInternal c i sons'
              pure (r, upd m p (some r))

/-- reliability_manager.hpp:870-904 `to_dpld_e`. -/
def toDpldE (c : Cfg) (varFrom var : Nat) (root : Ptr) : M Ptr := do
  let rootLevel ← getLevel c root
  let s ← get
  if var < c.n then
    if s.idx2lvl var < rootLevel then do
      let r ← undefinedExcept c varFrom var root
      mkDiagram r
    else do
      let (r, _) ← toDpldEImpl c varFrom var (c.n + 1) root (fun _ => none)
      runDeferred c
      mkDiagram r
  else throw .outOfRange

/-! ### Importance measures -/

/-- reliability_manager.hpp:959-969 `structural_importance`. -/
def structuralImportance (c : Cfg) (root : Ptr) : M Rat := stateFrequency c 1 root

/-- reliability_manager.hpp:971-979 `birnbaum_importance`. -/
def birnbaumImportance (c : Cfg) (P : Nat → Nat → Rat) (root : Ptr) : M Rat :=
  calculateProbability c 1 P root

/-! ### Fussell-Vesely importance -/

/-- reliability_manager.hpp:1195, 1208, 1211: the son at a position. -/
def sonAt (sons : List Ptr) (k : Nat) : M Ptr :=
  match sons[k]? with
  | some q => pure q
  | none => throw .outOfRange

/-- reliability_manager.hpp:1196, 1209: the node is the terminal with value `v`. -/
def isTerminalOf (v : Int) (p : Ptr) : M Bool := do
  match ← getKind p with
  | .leaf a => pure (decide (a = v))
  | .inner _ _ => pure false

/-- reliability_manager.hpp:1193-1204: from the last son down to the second, look for the terminal 1;
the sons before the first one found become that terminal. -/
def mnfOnes : Nat → List Ptr → M (List Ptr)
  | 0, sons => pure sons
  | k + 1, sons => do
      let son ← sonAt sons (k + 1)
      if ← isTerminalOf 1 son then pure (List.replicate (k + 1) son ++ sons.drop (k + 1))
      else mnfOnes k sons

/-- reliability_manager.hpp:1206-1213: from the last son but one down to the first, a terminal 0 is
replaced by its successor. -/
def mnfZeros : Nat → List Ptr → M (List Ptr)
  | 0, sons => pure sons
  | k + 1, sons => do
      let son ← sonAt sons k
      if ← isTerminalOf 0 son then do
        let nxt ← sonAt sons (k + 1)
        mnfZeros k (sons.set k nxt)
      else mnfZeros k sons

/-- reliability_manager.hpp:1167-1218 `to_mnf_impl`. -/
def toMnfImpl (c : Cfg) : Nat → Ptr → Memo → M (Ptr × Memo)
  | 0, _, _ => throw .fuel
  | f + 1, p, m => do
      match ← getKind p with
      | .leaf _ => pure (p, m)
      | .inner i sons =>
          match m p with
          | some r => pure (r, m)
          | none => do
              let (sons, m) ← mapAccL (toMnfImpl c f) sons m
              let sons ← mnfOnes (sons.length - 1) sons
              let sons ← mnfZeros (sons.length - 1) sons
              let r ← makeInternal c i sons
              pure (r, upd m p (some r))

/-- reliability_manager.hpp:1157-1165 `to_mnf`. -/
def toMnf (c : Cfg) (root : Ptr) : M Ptr := do
  let (r, _) ← toMnfImpl c (c.n + 1) root (fun _ => none)
  runDeferred c
  mkDiagram r

/-- reliability_manager.hpp:981-1000 `fussell_vesely_importance`.  The division by an `unavailability`
of zero, which gives infinity or NaN in the code, gives 0 here. -/
def fussellVesely (c : Cfg) (P : Nat → Nat → Rat) (unavailability : Rat) (state index : Nat)
    (root : Ptr) : M Rat := do
  let mnf ← toMnf c root
  let q ← calculateProbability c 1 P mnf
  let r := ((List.range state).map (P index)).sum * q / unavailability
  dropHandle mnf
  pure r

/-! ### Minimal cut and path vectors -/

/-- The changes `mcvs_g` considers (reliability_manager.hpp:1036-1041). -/
def cutChanges (c : Cfg) : List VarChange :=
  (List.range c.n).flatMap fun i => (List.range (c.dom i - 1)).map fun a => ⟨i, a, a + 1⟩

/-- The changes `mpvs_g` considers (reliability_manager.hpp:1063-1068). -/
def pathChanges (c : Cfg) : List VarChange :=
  (List.range c.n).flatMap fun i => (List.range (c.dom i - 1)).map fun a => ⟨i, a + 1, a⟩

/-- reliability_manager.hpp:1036-1047, 1063-1074: one derivative per change, extended; `dpld` is
destroyed at the end of each iteration. -/
def dpldes (c : Cfg) (ch : Int → Int → Bool) (root : Ptr) (vcs : List VarChange) :
    M (List (Option Ptr)) :=
  mapL (fun vc => do
    let d ← dpld c vc ch root
    let e ← toDpldE c vc.from vc.index d
    dropHandle d
    pure (some e)) vcs

/-- reliability_manager.hpp:1026-1051, 1053-1078: conjunction of the derivatives and all its
solutions; `conj` and `dpldes` are destroyed at the end. -/
def vectorsG (c : Cfg) (ch : Int → Int → Bool) (root : Ptr) (vcs : List VarChange) :
    M (List (List Nat)) := do
  let xs ← dpldes c ch root vcs
  let (r, rest) ← treeFold c Op.PI_CONJ xs
  let l ← satisfyAll c 1 r
  dropHandle r
  dropAll rest
  pure l

/-- reliability_manager.hpp:1002-1012, 1026-1051 `mcvs`, `mcvs_g`. -/
def mcvs (c : Cfg) (state : Int) (root : Ptr) : M (List (List Nat)) :=
  vectorsG c (Dpld.type3Increase state) root (cutChanges c)

/-- reliability_manager.hpp:1053-1078 `mpvs_g`. -/
def mpvsG (c : Cfg) (state : Int) (root : Ptr) : M (List (List Nat)) :=
  vectorsG c (Dpld.type3Decrease state) root (pathChanges c)

/-- reliability_manager.hpp:1014-1024 `mpvs`: it calls `mcvs_g`. -/
def mpvs (c : Cfg) (state : Int) (root : Ptr) : M (List (List Nat)) := mcvs c state root

end Teddy
