import Verif.Builder.Heap
import Verif.Builder.HeapProps
import Verif.Builder.Model
import Verif.Builder.Props
import Verif.Bvp.Jac
import Verif.Bvp.Model
import Verif.Bvp.Props
import Verif.Bvp.Setters
import Verif.Bvp.Spec
import Verif.ComplexStep.Model
import Verif.ComplexStep.Props
import Verif.Continuation.Bisect
import Verif.Continuation.Configure
import Verif.Continuation.Endings
import Verif.Continuation.Enough
import Verif.Continuation.Invariants
import Verif.Continuation.Keeps
import Verif.Continuation.Lemmas
import Verif.Continuation.Model
import Verif.Continuation.Near
import Verif.Continuation.Product
import Verif.Continuation.Props
import Verif.Continuation.Props2
import Verif.Continuation.RealLog
import Verif.Continuation.Sparse
import Verif.Continuation.Spec
import Verif.Continuation.Straight
import Verif.Continuation.Witness
import Verif.Cost.Model
import Verif.Cost.Props
import Verif.Direct.Model
import Verif.Direct.Props
import Verif.Direct.Same
import Verif.EndToEnd.Agree
import Verif.EndToEnd.AlyBack
import Verif.EndToEnd.AlyChan
import Verif.EndToEnd.AlyFlow
import Verif.EndToEnd.AlyLimit
import Verif.EndToEnd.Back
import Verif.EndToEnd.Brachistochrone
import Verif.EndToEnd.BrachistochroneBack
import Verif.EndToEnd.BrachistochroneFast
import Verif.EndToEnd.Bryson
import Verif.EndToEnd.BrysonUnique
import Verif.EndToEnd.Catenary
import Verif.EndToEnd.Chain
import Verif.EndToEnd.ChainBack
import Verif.EndToEnd.Circuit
import Verif.EndToEnd.CircuitBack
import Verif.EndToEnd.CircuitFlow
import Verif.EndToEnd.CircuitLimit
import Verif.EndToEnd.CollocRun
import Verif.EndToEnd.Continuous
import Verif.EndToEnd.Convex
import Verif.EndToEnd.Current
import Verif.EndToEnd.Cycloid
import Verif.EndToEnd.Defect
import Verif.EndToEnd.DefectRun
import Verif.EndToEnd.Dual
import Verif.EndToEnd.Fastest
import Verif.EndToEnd.Ferry
import Verif.EndToEnd.FerryTurn
import Verif.EndToEnd.Fore
import Verif.EndToEnd.Hard
import Verif.EndToEnd.Ignored
import Verif.EndToEnd.Minimum
import Verif.EndToEnd.Model
import Verif.EndToEnd.NumSol
import Verif.EndToEnd.Order
import Verif.EndToEnd.Pass
import Verif.EndToEnd.Pontryagin
import Verif.EndToEnd.Props
import Verif.EndToEnd.Respect
import Verif.EndToEnd.RespectRun
import Verif.EndToEnd.Run
import Verif.EndToEnd.Scaled
import Verif.EndToEnd.ScaledRun
import Verif.EndToEnd.Shooting
import Verif.EndToEnd.SoftStop
import Verif.EndToEnd.Stages
import Verif.EndToEnd.Top
import Verif.EndToEnd.TopRun
import Verif.EndToEnd.TopScaled
import Verif.EndToEnd.Unique
import Verif.EndToEnd.Zermelo
import Verif.EndToEnd.ZermeloBack
import Verif.Extremal.Back
import Verif.Extremal.Clean
import Verif.Extremal.Converse
import Verif.Extremal.Core
import Verif.Extremal.Defect
import Verif.Extremal.DefectDiffyg
import Verif.Extremal.DefectPipe
import Verif.Extremal.Diffyg
import Verif.Extremal.DiffygRun
import Verif.Extremal.Fixed
import Verif.Extremal.FixedPipe
import Verif.Extremal.Front
import Verif.Extremal.Hold
import Verif.Extremal.Lift
import Verif.Extremal.Parameter
import Verif.Extremal.ParameterOk
import Verif.Extremal.ParameterRun
import Verif.Extremal.Pipeline
import Verif.Extremal.Props
import Verif.Extremal.Quads
import Verif.Extremal.Spec
import Verif.Extremal.Still
import Verif.Extremal.StillProps
import Verif.Extremal.Sufficient
import Verif.Extremal.Tracks
import Verif.Extremal.Unique
import Verif.Extremal.User
import Verif.FinDiff.Lemmas
import Verif.FinDiff.Model
import Verif.FinDiff.Props
import Verif.FinDiff.Props2
import Verif.Functor.Model
import Verif.Functor.Props
import Verif.Geometry.Model
import Verif.Geometry.Props
import Verif.Guess.Layout
import Verif.Guess.Match
import Verif.Guess.Model
import Verif.Guess.Props
import Verif.Homog.Control
import Verif.Homog.Dual
import Verif.Homog.Lemmas
import Verif.Homog.Lu
import Verif.Homog.Model
import Verif.Homog.Props
import Verif.Homog.Steps
import Verif.Homog.Tables
import Verif.Logging.Model
import Verif.Logging.Props
import Verif.Mappers.Differential
import Verif.Mappers.EpsTrig
import Verif.Mappers.Lemmas
import Verif.Mappers.Model
import Verif.Mappers.Props
import Verif.Numeric.Lemmas
import Verif.Numeric.Model
import Verif.Numeric.Props1
import Verif.Numeric.Props2
import Verif.Numeric.Props3
import Verif.Numeric.Scaling
import Verif.Numeric.Units
import Verif.Py
import Verif.PyLemmas
import Verif.Reduction.Equivalence
import Verif.Reduction.Model
import Verif.Reduction.Props
import Verif.Reduction.Repeat
import Verif.Rename.Compiled
import Verif.Rename.Control
import Verif.Rename.Dual
import Verif.Rename.Lemmas
import Verif.Rename.Pipeline
import Verif.Rename.Props
import Verif.Rename.Solve
import Verif.Rename.Spec
import Verif.Rename.Steps
import Verif.Reported.Model
import Verif.Reported.Props
import Verif.Reported.Quads
import Verif.Scope.Always
import Verif.Scope.Backward
import Verif.Scope.Forward
import Verif.Scope.Front
import Verif.Scope.Props
import Verif.Scope.Spec
import Verif.Scope.Total
import Verif.Shooting.Accept
import Verif.Shooting.Again
import Verif.Shooting.Armijo
import Verif.Shooting.Contract
import Verif.Shooting.Ends
import Verif.Shooting.Exact
import Verif.Shooting.Flow
import Verif.Shooting.Follow
import Verif.Shooting.Lemmas
import Verif.Shooting.Linear
import Verif.Shooting.Local
import Verif.Shooting.Model
import Verif.Shooting.Newton
import Verif.Shooting.Ode
import Verif.Shooting.Pack
import Verif.Shooting.Props
import Verif.Shooting.Regular
import Verif.Shooting.Spec
import Verif.Shooting.Stack
import Verif.Solve.Model
import Verif.Solve.Props
import Verif.Spline.Lemmas
import Verif.Spline.Model
import Verif.Spline.Props
import Verif.Symbolic.Args
import Verif.Symbolic.ArgsLemmas
import Verif.Symbolic.ArgsProps
import Verif.Symbolic.Barrier
import Verif.Symbolic.Control
import Verif.Symbolic.Cramer
import Verif.Symbolic.Dual
import Verif.Symbolic.Eliminate
import Verif.Symbolic.Expr
import Verif.Symbolic.Fields
import Verif.Symbolic.Follow
import Verif.Symbolic.OneSided
import Verif.Symbolic.OneSidedTrig
import Verif.Symbolic.Oracle
import Verif.Symbolic.Problem
import Verif.Symbolic.Props1
import Verif.Symbolic.Props2
import Verif.Symbolic.Props3
import Verif.Symbolic.Props4
import Verif.Symbolic.Props5
import Verif.Symbolic.Props6
import Verif.Symbolic.Props7
import Verif.Symbolic.Rational
import Verif.Symbolic.Recursive
import Verif.Symbolic.Regularise
import Verif.Symbolic.Spec
import Verif.Symbolic.Switches
import Verif.Symbolic.Symplectic
import Verif.Traj.Lemmas
import Verif.Traj.Model
import Verif.Traj.Props
import Verif.Traj.Seq
import Verif.Traj.Spec
import Verif.UserFun.Model
import Verif.UserFun.Names
import Verif.UserFun.Props
