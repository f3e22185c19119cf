import Verif.Managers
import Verif.World

/-!
# The shipped examples (`examples/readme.cpp`, `examples/soft_x.cpp`, `examples/time_reliability.cpp`)

As programs of API calls.  A diagram returned by call number `k` of those that return a diagram is in handle `k`.  The
destruction of the handles at the end of the functions is left out, and so is output; `examples/n_queens.cpp` is in
`Verif/Queens.lean`.
-/

namespace Teddy

/-- The assignment with the given values. -/
def asgOf (l : List Nat) : Asg := fun i => l.getD i 0

/-- A table of probabilities. -/
def probsOf (rows : List (List Rat)) : Nat → Nat → Rat := fun i k => (rows.getD i []).getD k 0

/-- readme.cpp:9-61 `example_basic_usage`.  `variables` (diagram_manager.hpp:883-905) calls `variable` for each index; the two
calls of `to_dot_graph` are left out. -/
def readmeBasic : List Call :=
  [.variableD 0, .variableD 1, .variableD 2,
   .variableD 0, .variableD 1, .variableD 2, .variableD 3,
   .equals 1 4,
   .apply Op.AND 3 4, .apply Op.AND 5 6, .apply Op.OR 7 8,
   .evaluate 9 (asgOf [1, 1, 0, 1]),
   .satisfyCount 1 9,
   .satisfyAll 1 9]

/-- readme.cpp:67-69 -/
def readmeVector : List Int :=
  [0,1,1,1,1,1,0,1,1,1,1,1,0,1,1,1,1,1,0,1,1,1,1,1,1,2,2,2,2,2,1,2,2,2,2,2]

/-- readme.cpp:84-90 -/
def readmeProbs : Nat → Nat → Rat :=
  probsOf [[1/10, 9/10, 0], [2/10, 6/10, 2/10], [3/10, 7/10, 0], [1/10, 6/10, 3/10]]

/-- readme.cpp:63-116 `example_reliability`. -/
def readmeReliability : List Call :=
  [.fromVector readmeVector,
   .calculateAvailability 1 readmeProbs 0,
   .calculateUnavailability 1 readmeProbs 0,
   .mcvs 1 0,
   .dpld ⟨2, 1, 0⟩ (Dpld.type3Decrease 1) 0,
   .structuralImportance 1]

/-- soft_x.cpp:15-19 -/
def softProbs : Nat → Nat → Rat :=
  probsOf [[1/10, 7/10, 2/10], [3/10, 6/10, 1/10], [2/10, 7/10, 1/10]]

/-- soft_x.cpp:10-24, the calls before `mcvs`. -/
def softX : List Call :=
  [.variableD 0, .variableD 1, .variableD 2,
   .apply Op.MIN 1 2, .apply Op.MAX 0 3,
   .dpld ⟨0, 0, 1⟩ (Dpld.type3Increase 1) 4,
   .evaluate 4 (asgOf [0, 1, 2]),
   .calculateAvailability 1 softProbs 4,
   .birnbaumImportance softProbs 5,
   .stateFrequency 1 4]

/-- soft_x.cpp:25 -/
def softXAll : List Call := softX ++ [.mcvs 1 4]

/-- time_reliability.cpp:16, the diagram; the arguments of `apply` are evaluated in any order, here from left to right. -/
def timeReliability : List Call :=
  [.variableD 0, .variableD 1, .variableD 2, .apply Op.OR 1 2, .apply Op.AND 0 3]

end Teddy
