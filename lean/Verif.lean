import Verif.Basic
import Verif.Table
import Verif.Ops
import Verif.Sort
import Verif.Arith
import Verif.NodeManager
import Verif.Diagram
import Verif.Spec
import Verif.ApiSpec
import Verif.Proofs.TableLemmas
import Verif.Proofs.Loops
import Verif.Proofs.Inv
import Verif.Proofs.Gc
import Verif.Proofs.Sem
import Verif.Proofs.Make
import Verif.Proofs.Good
import Verif.Proofs.Apply
import Verif.Proofs.Handle
import Verif.Proofs.Transform
import Verif.Proofs.Canon
import Verif.Proofs.Folds
import Verif.Proofs.ApplyN
import Verif.Proofs.ArithLemmas
import Verif.Proofs.Enum
import Verif.Proofs.Traverse
import Verif.Proofs.Count
import Verif.Proofs.Queries
import Verif.Proofs.Vectors
import Verif.World
import Verif.WorldSpec
import Verif.Reliability
import Verif.Proofs.Deferred
import Verif.Proofs.Dpld
import Verif.Proofs.Mcvs
import Verif.Proofs.Probability
import Verif.Proofs.NodeCount
import Verif.Proofs.Mnf
import Verif.Proofs.MnfBounds
import Verif.Proofs.SatOne
import Verif.Proofs.Sim
import Verif.Proofs.OpsLemmas
import Verif.Proofs.Restore
import Verif.Proofs.Observe
import Verif.Demo
import Verif.Properties.Diagrams
import Verif.ProgramSpec
import Verif.Proofs.Sizes
import Verif.Proofs.Program
import Verif.Properties.Queries
import Verif.Properties.Programs
import Verif.Properties.Memory
import Verif.Properties.Operations
import Verif.Proofs.SwapDec
import Verif.Proofs.SwapNode
import Verif.Proofs.Reorder
import Verif.Properties.Reordering
import Verif.Proofs.SortLemmas
import Verif.Properties.Components
import Verif.Properties.Reliability
import Verif.Bits
import Verif.Pla
import Verif.PlaSpec
import Verif.Proofs.BitsLemmas
import Verif.Proofs.PlaLemmas
import Verif.Proofs.PlaLoad
import Verif.Properties.Storage
import Verif.Proofs.FromPla
import Verif.Proofs.Reduce
import Verif.Properties.FromPla
import Verif.Properties.Violations
import Verif.Properties.ViolationsMarks
import Verif.Properties.ViolationsReduce
import Verif.TruthTable
import Verif.TruthTableSpec
import Verif.Proofs.TruthTable
import Verif.Proofs.TruthTableRel
import Verif.Properties.TruthTables
import Verif.Iterators
import Verif.ExprSpec
import Verif.Proofs.Iterators
import Verif.Proofs.Expressions
import Verif.MakeDiagram
import Verif.Proofs.MakeDiagram
import Verif.Properties.Iterators
import Verif.Queens
import Verif.QueensSpec
import Verif.Proofs.OkE
import Verif.Proofs.CountWide
import Verif.Proofs.Queens
import Verif.Properties.Queens
import Verif.Symbolic
import Verif.Proofs.Symbolic
import Verif.Properties.Symbolic
import Verif.DotSpec
import Verif.Dot
import Verif.Proofs.Dot
import Verif.Proofs.DotText
import Verif.Properties.Dot
import Verif.Proofs.Auto
import Verif.Properties.Automatic
import Verif.Proofs.Bridge
import Verif.Properties.Agreement
import Verif.BinarySpec
import Verif.Binary
import Verif.Proofs.Pivot
import Verif.Properties.Binary
import Verif.RoundingSpec
import Verif.Rounding
import Verif.Proofs.Rounding
import Verif.Proofs.RoundingLevel
import Verif.Proofs.RoundingCount
import Verif.Properties.Rounding
import Verif.Proofs.Mem
import Verif.Proofs.Destroy
import Verif.ReleaseSpec
import Verif.Proofs.Tidy
import Verif.Proofs.TidyBelow
import Verif.Proofs.Unmarked
import Verif.Properties.Destruction
import Verif.Links
import Verif.Proofs.Links
import Verif.Proofs.Always
import Verif.Proofs.Saved
import Verif.ChainSpec
import Verif.Properties.Chains
import Verif.Managers
import Verif.Properties.Managers
import Verif.Proofs.Aborts
import Verif.Properties.Aborts
import Verif.Shipped
import Verif.Proofs.Shipped
import Verif.Properties.Shipped
import Verif.AskSpec
import Verif.Proofs.Repair
import Verif.Properties.Repair
import Verif.UnitTests
import Verif.TestSpec
import Verif.Proofs.ApplyCongr
import Verif.Proofs.UnitTests
import Verif.Proofs.AutoVarSift
import Verif.Properties.UnitTests
import Verif.SeriesParallelSpec
import Verif.Proofs.SeriesParallel
import Verif.Proofs.TableImportance
import Verif.Properties.FussellVesely
import Verif.ReliabilityTests
import Verif.ReliabilityTestSpec
import Verif.Proofs.ReliabilityTests
import Verif.SystemTest
import Verif.Proofs.SystemTest
import Verif.Properties.ReliabilityTests
import Verif.Experiments
import Verif.Proofs.Experiments
import Verif.Properties.Experiments
import Verif.KeySpec
import Verif.Proofs.Keys
import Verif.Properties.Keys
import Verif.Cost
import Verif.Proofs.Cost
import Verif.Proofs.Parity
import Verif.Properties.Cost
import Verif.Throwing
import Verif.Proofs.Throwing
import Verif.Properties.Throwing
import Verif.Properties.ViolationsSettings
import Verif.SiftSpec
import Verif.Proofs.Sifting
import Verif.Properties.Sifting
import Verif.CostTransform
import Verif.Proofs.CostTransform
import Verif.Properties.CostTransform
import Verif.Properties.Pools
import Verif.Proofs.Shrink
import Verif.Properties.Shrink
import Verif.Proofs.Grow
import Verif.Properties.Grow
import Verif.CostApply
import Verif.Proofs.CostApply
import Verif.Properties.CostApply
import Verif.Properties.CostExact
