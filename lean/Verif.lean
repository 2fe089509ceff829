import Verif.Logical.Props
import Verif.LRUCache.Props
import Verif.BinaryWord.Props
import Verif.BinaryTree.Props
import Verif.Rounding.Props
import Verif.Bounds.Props
import Verif.Bounds.Sqrt
import Verif.Bounds.SqrtLoop
import Verif.Ball.Props
import Verif.Decimal.Props
import Verif.Exact.Bounds
import Verif.Exact.Extended
import Verif.Interval.Union
import Verif.Reachability.Props
import Verif.AlgebraicSort.Props
import Verif.Symbolic.Kleene
import Verif.Symbolic.Cse
import Verif.Expansion.Props
import Verif.Expansion.Horner
import Verif.TaylorModel.Range
import Verif.Numeric.Int
import Verif.TaylorModel.Compose
import Verif.TaylorModel.Canonical
import Verif.Procedure.Hull
import Verif.Grid.Neighbour
import Verif.Grid.PavingProps
import Verif.Grid.Approx
import Verif.Space.Props
import Verif.Differential.Univariate
import Verif.Matrix.Triangular
import Verif.ConstraintSolver.Newton
import Verif.ConstraintSolver.Actual
import Verif.Solver.ImplicitExamples
import Verif.Flow.BounderExamples
import Verif.Flow.PicardExamples
import Verif.Container.Props
import Verif.Hybrid.Location
import Verif.Hybrid.AutomatonExamples
import Verif.Hybrid.FunctionsExamples
import Verif.Hybrid.CompositeExamples
import Verif.Hybrid.PavingExamples
import Verif.Hybrid.SetsExamples
import Verif.FunctionSet.Examples
import Verif.Optimiser.Examples
import Verif.Paver.Examples
import Verif.Enclosure.Model
import Verif.Enclosure.Ops
import Verif.Enclosure.Props
import Verif.Enclosure.Kuhn
import Verif.Enclosure.Examples
import Verif.Evolver.Workload
import Verif.Evolver.Model
import Verif.Evolver.Props
import Verif.Evolver.Examples
import Verif.HybridEvolver.Model
import Verif.HybridEvolver.Points
import Verif.HybridEvolver.Crossings
import Verif.HybridEvolver.Guards
import Verif.HybridEvolver.Timing
import Verif.HybridEvolver.Step
import Verif.HybridEvolver.Starting
import Verif.HybridEvolver.Props
import Verif.HybridEvolver.Paths
import Verif.HybridEvolver.Real
import Verif.HybridEvolver.Exact
import Verif.HybridEvolver.Examples
import Verif.FunctionPatch.Props
import Verif.FunctionPatch.Exact
import Verif.FunctionPatch.Calculus
import Verif.FunctionPatch.Examples
import Verif.Real.Model
import Verif.Real.Spec
import Verif.Real.Limits
import Verif.Real.Ops
import Verif.Real.Props
import Verif.Real.Effective
import Verif.Real.Finite
import Verif.Real.Examples
import Verif.Affine.Model
import Verif.Affine.Props
import Verif.Affine.Convert
import Verif.Affine.Examples
import Verif.LinearProgram.Model
import Verif.LinearProgram.Spec
import Verif.LinearProgram.Lemmas
import Verif.LinearProgram.Props
import Verif.LinearProgram.Examples
import Verif.AffineSet.Model
import Verif.AffineSet.Props
import Verif.AffineSet.Examples
import Verif.Inclusion.Model
import Verif.Inclusion.Spec
import Verif.Inclusion.Growth
import Verif.Inclusion.Props
import Verif.Inclusion.Constant
import Verif.Inclusion.Examples
import Verif.InclusionEvolver.Model
import Verif.InclusionEvolver.Schedule
import Verif.InclusionEvolver.Orbit
import Verif.InclusionEvolver.Examples
import Verif.InclusionEvolver.Recondition
import Verif.InclusionEvolver.ReconditionExamples
import Verif.Elementary.Model
import Verif.Elementary.Taylor
import Verif.Elementary.Series
import Verif.Elementary.Trig
import Verif.Elementary.Cos
import Verif.Elementary.CosLarge
import Verif.Elementary.Examples
import Verif.Elementary.ExpSeries
import Verif.Elementary.Exp
import Verif.Elementary.Log
import Verif.Elementary.BoundsTrig
import Verif.Elementary.BoundsTrigExamples
import Verif.Polynomial.Model
import Verif.Polynomial.Props
import Verif.Polynomial.Calculus
import Verif.Polynomial.Evaluate
import Verif.Polynomial.Univariate
import Verif.Polynomial.Examples
import Verif.Box.Model
import Verif.Box.Props
import Verif.Box.SetTests
import Verif.Directed.Model
import Verif.Directed.Props
import Verif.Complex.Model
import Verif.Complex.Props
import Verif.Chebyshev.Model
import Verif.Chebyshev.Lemmas
import Verif.Chebyshev.Props
import Verif.Chebyshev.Multi
import Verif.Simplex.Model
import Verif.Simplex.Lemmas
import Verif.Simplex.Props
import Verif.Simplex.Examples
import Verif.Graded.Taylor
import Verif.Graded.Model
import Verif.Graded.Ops
import Verif.Graded.Flow
import Verif.Graded.Props
import Verif.Graded.Examples
import Verif.SeriesFlow.Taylor
import Verif.SeriesFlow.Model
import Verif.SeriesFlow.Props
import Verif.SeriesFlow.Examples
import Verif.Structured.Model
import Verif.Structured.Sym
import Verif.Structured.Props
import Verif.Structured.Examples
import Verif.FixedDifferential.Model
import Verif.FixedDifferential.Calculus
import Verif.FixedDifferential.Scalar
import Verif.FixedDifferential.Props
import Verif.FixedDifferential.SecondProps
import Verif.FixedDifferential.Univariate
import Verif.FixedDifferential.Examples
import Verif.Simulator.Model
import Verif.Simulator.Props
import Verif.Simulator.Order
import Verif.Simulator.Initial
import Verif.Simulator.Examples
import Verif.Simulator.Hybrid
import Verif.Simulator.HybridProps
import Verif.Simulator.HybridOrbit
import Verif.Simulator.HybridExamples
import Verif.ExprSet.Model
import Verif.ExprSet.Props
import Verif.ExprSet.Examples
import Verif.Printing.Model
import Verif.Printing.Props
import Verif.Printing.Examples
import Verif.FunctionObject.Model
import Verif.FunctionObject.Props
import Verif.FunctionObject.Examples
import Verif.FunctionObject.Derivative
import Verif.FunctionObject.DerivativeProps
import Verif.CommandLine.Model
import Verif.CommandLine.Props
import Verif.CommandLine.Loop
import Verif.ArrayMemory.Model
import Verif.ArrayMemory.Props
import Verif.PDE.Model
import Verif.PDE.Props
import Verif.Tensor.Model
import Verif.Tensor.Props
import Verif.Tensor.String
import Verif.ListSet.Model
import Verif.ListSet.Props
import Verif.Orthogonal.Model
import Verif.Orthogonal.Props
import Verif.Orthogonal.Householder
