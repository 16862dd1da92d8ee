import Verif.Model.Base
import Verif.Model.Define
import Verif.Model.Queue
import Verif.Model.LCT
import Verif.Model.Flow
import Verif.Model.Solver
import Verif.Model.Oracle
import Verif.Model.Wrapped
import Verif.Spec
import Verif.Link
import Verif.Proof.Mono
import Verif.Proof.Solve
import Verif.Proof.Rounds
import Verif.Props.Example
import Verif.Props.Solver
import Verif.Props.Limits
import Verif.Props.Structures
import Verif.Props.Flow
import Verif.Props.Oracle
import Verif.Props.Repeat
import Verif.Props.Wrapped
import Verif.Model.Double
import Verif.Props.Double
import Verif.Props.Width
import Verif.Props.Rounding
import Verif.Props.Simple
import Verif.Model.Generator
import Verif.Proof.Lcg
import Verif.Proof.Generator
import Verif.Proof.GenMono
import Verif.Proof.GenWindows
import Verif.Proof.GenProblem
import Verif.Proof.GenBounds
import Verif.Props.Generator
import Verif.Proof.Exact
import Verif.Proof.ExactInput
import Verif.Proof.ExactOracle
import Verif.Proof.ExactCS
import Verif.Props.DoubleOracle
import Verif.Proof.ExactMin
import Verif.Proof.ExactSimple
import Verif.Props.DoubleSimple
import Verif.Model.FixedTests
import Verif.Props.FixedTests
import Verif.Props.Rounds
import Verif.Model.LCTCost
import Verif.Proof.LCTCost
import Verif.Props.Amortised
import Verif.Model.FlowCost
import Verif.Proof.FlowCost
import Verif.Proof.FlowAmort
import Verif.Proof.FlowTime
import Verif.Props.RunningTime
import Verif.Proof.WrappedFloat
import Verif.Props.WrappedDouble
import Verif.Props.NonConvex
import Verif.Model.IntData
import Verif.Proof.IntData
import Verif.Props.IntData
import Verif.Props.Infinite
import Verif.Model.SolverCost
import Verif.Proof.SolverCost
import Verif.Proof.SolverTime
import Verif.Proof.RunTime
import Verif.Props.SolverTime
import Verif.Proof.Safe
import Verif.Proof.SafeFlow
import Verif.Proof.SafeSolver
import Verif.Props.MemorySafety
import Verif.Model.Closure
import Verif.Proof.Closure
import Verif.Proof.ClosureCount
import Verif.Props.Closures
import Verif.Proof.LCTMin
import Verif.Proof.NoAssert
import Verif.Proof.LCTGood
import Verif.Proof.FlowAssert
import Verif.Proof.SolverAssert
import Verif.Props.Asserts
import Verif.Model.GraphText
import Verif.Proof.GenText
import Verif.Props.Texts
import Verif.Model.Rounded
import Verif.Proof.SafeReference
import Verif.Proof.ReferenceAssert
import Verif.Props.Reference
import Verif.Props.ReferenceDouble
import Verif.Proof.OracleTurn
import Verif.Proof.OracleError
import Verif.Props.OracleError
import Verif.Model.OracleCost
import Verif.Proof.OracleCost
import Verif.Props.OracleTime
import Verif.Model.CostScalingCost
import Verif.Model.SimpleCost
import Verif.Proof.CSCost
import Verif.Proof.SimpleCost
import Verif.Props.SimpleTime
import Verif.Props.SimpleEnds
import Verif.Props.FlowRounds
import Verif.Props.Tolerance
import Verif.Props.Print
import Verif.Props.Relations
import Verif.Props.Local
import Verif.Props.MergeCalc
import Verif.Props.Dual
import Verif.Props.Assign
import Verif.Props.QFloor
import Verif.Props.Lattice
import Verif.Props.Reset
import Verif.Model.OtherQ
import Verif.Props.PaperRounding
import Verif.Props.Excess
import Verif.Props.Constants
