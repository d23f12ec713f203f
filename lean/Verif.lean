import Verif.Poly.Props
import Verif.Block.Props2x2
import Verif.Grid.Props
import Verif.GP.Props
import Verif.GP.ValidateProps
import Verif.GP.CovPathsProps
import Verif.Normal.Props
import Verif.Covar.Props
import Verif.Domain.GridProps
import Verif.Coeff.Props
import Verif.Op.Props
import Verif.Matern.HeapProps
import Verif.Matern.IntegralProps
import Verif.ExpQuad.Props
import Verif.Piecewise.IntegralProps
import Verif.Wendland.Radial
import Verif.Fem.LaplaceProps
import Verif.Fem.MaternProps
import Verif.Pde.PiecewiseProps
import Verif.Pde.HeatProps
import Verif.Tensor.Props
import Verif.Tensor.DiffProps
import Verif.CovAlg.Violations
import Verif.XCov.Violations
import Verif.XCov.Refuse
import Verif.XCov.OpTotal
import Verif.Param.Props
import Verif.PosDef.Props
import Verif.Galerkin.Two
import Verif.GP.FunctlShapeProps
import Verif.Func.LebViolations
import Verif.DetProc.Props
import Verif.DiffFn.Violations
import Verif.Gmm.Props
import Verif.XCov.BasesProps
import Verif.PosDef.Wendland
import Verif.PosDef.StrictProps
import Verif.GP.Interpolate
import Verif.PosDef.Jet1
import Verif.PosDef.Jet1Strict
import Verif.GP.Jet
import Verif.GP.JetProps
import Verif.GP.JetKernels
import Verif.GP.JetTensor
import Verif.Backend.Model
import Verif.Backend.Props
import Verif.Solve.Model
import Verif.Solve.Lemmas
import Verif.Solve.Grid
import Verif.Solve.HeatProps
import Verif.Solve.PoissonProps
import Verif.PosDef.Spectral
import Verif.GP.Integral
import Verif.GP.Projection
import Verif.Solve.FemModel
import Verif.Solve.FemLemmas
import Verif.Solve.FemSystem
import Verif.Solve.FemSolve
import Verif.Solve.FemProps
import Verif.GP.Recentre
import Verif.GP.Joint
import Verif.GP.JointLemmas
import Verif.GP.JointProps
import Verif.GP.MessageProps
import Verif.GP.JointStrict
import Verif.GP.TwoViews
import Verif.Solve.InverseProps
import Verif.GP.MeasGram
import Verif.Solve.FemRandom
import Verif.Piecewise.Interp
import Verif.Cpu.Model
import Verif.Cpu.HeatProps
import Verif.Cpu.PowerProps
import Verif.GP.ExactRows
import Verif.Solve.Operators
import Verif.Solve.OperatorsProps
import Verif.Cpu.Notebook
import Verif.Cpu.Notebook2DProps
import Verif.Cpu.Notebook1DProps
import Verif.GP.Reindex
import Verif.GP.JointRows
import Verif.Cpu.Joint
import Verif.Cpu.JointProps
import Verif.GP.Optimal
import Verif.Solve.MaxPrinciple
import Verif.Solve.Converge
import Verif.Solve.ConvergeProps
import Verif.XCov.KLinop
import Verif.XCov.KLinopProps
import Verif.Tensor.Keops
import Verif.GP.Averaging
import Verif.Solve.Potential
import Verif.Solve.Green
import Verif.Solve.GreenProd
import Verif.Solve.SmoothProps
import Verif.Solve.Rates
import Verif.Solve.RatesProps
import Verif.PostView.Model
import Verif.PostView.Lemmas
import Verif.PostView.Props
import Verif.Plot.Model
import Verif.Plot.Quantile
import Verif.Plot.Props
import Verif.Plot.SliceProps
import Verif.Plot.TaylorProps
import Verif.JaxFn.Model
import Verif.JaxFn.Calc
import Verif.JaxFn.Props
import Verif.JaxFn.PdeProps
import Verif.GP.Transform
import Verif.GP.Compress
import Verif.GP.TransformProps
import Verif.GP.Robust
import Verif.GP.RobustProps
import Verif.Rounding.Model
import Verif.Rounding.Lemmas
import Verif.Rounding.Props
import Verif.Rounding.Post
import Verif.Rounding.Binary
import Verif.Rounding.Examples
import Verif.Printed.Model
import Verif.Printed.Lemmas
import Verif.Printed.OpLemmas
import Verif.Printed.Props
import Verif.Rounding.UpdateModel
import Verif.Rounding.Update
import Verif.Rounding.FactorModel
import Verif.Rounding.Factor
import Verif.PostView.LinkModel
import Verif.PostView.Link
import Verif.ExpQuad.TensorRoute
import Verif.Rounding.Close
import Verif.Rounding.DerivModel
import Verif.Rounding.Deriv
import Verif.Rounding.DerivGram
import Verif.Rounding.DerivExamples
import Verif.Rounding.SolveModel
import Verif.Rounding.Solve
import Verif.Rounding.SolveKernels
import Verif.Rounding.SolveExamples
import Verif.Rounding.SolveCovModel
import Verif.Rounding.SolveCov
import Verif.Rounding.SolveCovKernels
import Verif.Rounding.SolveCovExamples
import Verif.Rounding.TensorModel
import Verif.Rounding.TensorFl
import Verif.Rounding.TensorHistory
import Verif.Rounding.TensorExamples
import Verif.Rounding.SeriesModel
import Verif.Rounding.Series
import Verif.Rounding.FemModel
import Verif.Rounding.Fem
import Verif.Rounding.WendlandModel
import Verif.Rounding.Wendland
import Verif.Func.ShapeOnly
import Verif.Rounding.PiecewiseModel
import Verif.Rounding.Piecewise
import Verif.Rounding.IntegralModel
import Verif.Rounding.Integral
import Verif.Rounding.PwIntModel
import Verif.Rounding.PwInt
import Verif.Rounding.VolumeModel
import Verif.Rounding.Volume
