import Verif.Model.Advection
import Verif.Model.BSpline
import Verif.Model.BatchSparse
import Verif.Model.CircularMapping
import Verif.Model.CollisionInterface
import Verif.Model.Collisions
import Verif.Model.CombinedMapping
import Verif.Model.Connectivity
import Verif.Model.CoordTransforms
import Verif.Model.Crash
import Verif.Model.Csr
import Verif.Model.DerivField
import Verif.Model.DiffOps
import Verif.Model.DiscreteMapping
import Verif.Model.Drivers
import Verif.Model.EdgeRounding
import Verif.Model.EdgeTransform
import Verif.Model.Fdm
import Verif.Model.Fem
import Verif.Model.Fft
import Verif.Model.FloatAdvection
import Verif.Model.FloatFdm
import Verif.Model.FloatLagrange
import Verif.Model.FloatPolar
import Verif.Model.FloatQuad
import Verif.Model.FloatRk
import Verif.Model.FloatWrap
import Verif.Model.GaussLegendre
import Verif.Model.GridTools
import Verif.Model.GuidingCentre
import Verif.Model.Gyroaverage
import Verif.Model.IdealVlasov
import Verif.Model.Initial
import Verif.Model.Input
import Verif.Model.InterfaceDerivs
import Verif.Model.Interpolators
import Verif.Model.Lagrange
import Verif.Model.LagrangeEvaluator
import Verif.Model.Layout
import Verif.Model.MatchSlice
import Verif.Model.MathTools
import Verif.Model.Matrix
import Verif.Model.MeshInit
import Verif.Model.Moments
import Verif.Model.MpiLandau
import Verif.Model.MpiLayout
import Verif.Model.MpiProgram
import Verif.Model.MpiTranspose
import Verif.Model.MultipatchData
import Verif.Model.MultipatchSpline
import Verif.Model.NDLagrange
import Verif.Model.Norms
import Verif.Model.Onion
import Verif.Model.OrthoTransforms
import Verif.Model.ParallelLoops
import Verif.Model.PartialDerivs
import Verif.Model.Pdi
import Verif.Model.PolarDrivers
import Verif.Model.PolarFem
import Verif.Model.PolarSplines
import Verif.Model.QnSolver
import Verif.Model.Quadrature
import Verif.Model.QuadratureND
import Verif.Model.Rounding
import Verif.Model.Simulation
import Verif.Model.Sources
import Verif.Model.Species
import Verif.Model.SplineBuilderDeriv
import Verif.Model.SplineCache
import Verif.Model.SplineInterp
import Verif.Model.SplineInterp2D
import Verif.Model.SplineQuadrature
import Verif.Model.Splitting
import Verif.Model.Tensor
import Verif.Model.TimeLoops
import Verif.Model.Timestepper
import Verif.Model.Transpose
import Verif.Model.Tridiag
import Verif.Model.TypeSeq
import Verif.Model.VectorFields
import Verif.Model.VectorMapper
import Verif.Model.ViewStream
import Verif.Spec.Einstein
import Verif.Spec.LinearSystem
import Verif.Spec.Timestepper
import Verif.Props.AccuracyAdvection
import Verif.Props.AccuracyGauss
import Verif.Props.AccuracyLagrange
import Verif.Props.AccuracyQuad
import Verif.Props.Advection
import Verif.Props.AdvectionPolar
import Verif.Props.AdvectionStability
import Verif.Props.BSpline
import Verif.Props.BatchSparse
import Verif.Props.Bernstein
import Verif.Props.CircularMapping
import Verif.Props.CnContraction
import Verif.Props.CnOrder
import Verif.Props.CollisionCoeffs
import Verif.Props.CollisionInterface
import Verif.Props.CollisionsInter
import Verif.Props.CollisionsIntra
import Verif.Props.CombinedMapping
import Verif.Props.Connectivity
import Verif.Props.CoordTransforms
import Verif.Props.Crash
import Verif.Props.Csr
import Verif.Props.CzarnyMapping
import Verif.Props.DerivField
import Verif.Props.DiffOps
import Verif.Props.Diocotron
import Verif.Props.DiscreteMapping
import Verif.Props.Drivers
import Verif.Props.EdgeRounding
import Verif.Props.EdgeTransform
import Verif.Props.Equilibria
import Verif.Props.Fdm
import Verif.Props.Fem
import Verif.Props.FemBSpline
import Verif.Props.FemBSplineExamples
import Verif.Props.FemConvergence
import Verif.Props.FemDensity
import Verif.Props.FemOrder
import Verif.Props.Fft
import Verif.Props.FftAccuracy
import Verif.Props.FftEnergy
import Verif.Props.FloatAdvection
import Verif.Props.FloatFdm
import Verif.Props.FloatLagrange
import Verif.Props.FloatPolar
import Verif.Props.FloatQuad
import Verif.Props.FloatRk
import Verif.Props.FloatWrap
import Verif.Props.FlowComp
import Verif.Props.FreeStreaming
import Verif.Props.GaussLegendre
import Verif.Props.GaussLegendreNodes
import Verif.Props.GridTools
import Verif.Props.GuidingCentre
import Verif.Props.GyroAccuracy
import Verif.Props.Gyroaverage
import Verif.Props.IdealVlasov
import Verif.Props.InitialPerturb
import Verif.Props.Input
import Verif.Props.InterfaceDerivs
import Verif.Props.InterfaceDerivsUniform
import Verif.Props.InterpError
import Verif.Props.Interpolators
import Verif.Props.Krook
import Verif.Props.Lagrange
import Verif.Props.LagrangeComb
import Verif.Props.LagrangeEvaluator
import Verif.Props.LagrangeShift
import Verif.Props.Layout
import Verif.Props.MaskSource
import Verif.Props.MatchSlice
import Verif.Props.MathTools
import Verif.Props.MatrixBlocks
import Verif.Props.MatrixCorner
import Verif.Props.MatrixFactory
import Verif.Props.MatrixStorage
import Verif.Props.MeshInit
import Verif.Props.Moments
import Verif.Props.MpiLandau
import Verif.Props.MpiLayout
import Verif.Props.MpiProgram
import Verif.Props.MpiTranspose
import Verif.Props.MultipatchData
import Verif.Props.MultipatchSpline
import Verif.Props.NDLagrange
import Verif.Props.Norms
import Verif.Props.Onion
import Verif.Props.OrthoTransforms
import Verif.Props.ParallelLoops
import Verif.Props.ParallelLoopsCode
import Verif.Props.PartialDerivs
import Verif.Props.PatchSplines
import Verif.Props.PatchSplines2D
import Verif.Props.Pdi
import Verif.Props.PeriodicSplineAdvection
import Verif.Props.PolarDrivers
import Verif.Props.PolarFem
import Verif.Props.PolarFemCea
import Verif.Props.PolarFemCsr
import Verif.Props.PolarFemElem
import Verif.Props.PolarFemPtr
import Verif.Props.PolarFemSolve
import Verif.Props.PolarSplines
import Verif.Props.QnAccuracy
import Verif.Props.QnSolver
import Verif.Props.Quadrature
import Verif.Props.QuadratureND
import Verif.Props.RkExpansion
import Verif.Props.RkOrder
import Verif.Props.RkStability
import Verif.Props.Rounding
import Verif.Props.RoundingTridiag
import Verif.Props.Simulation
import Verif.Props.SimulationXVx
import Verif.Props.Species
import Verif.Props.SplineAdvection
import Verif.Props.SplineApprox
import Verif.Props.SplineBuilderDeriv
import Verif.Props.SplineCache
import Verif.Props.SplineEnergy
import Verif.Props.SplineInterp2D
import Verif.Props.SplineInterpAccuracy
import Verif.Props.SplineQuadrature
import Verif.Props.SplineQuadratureAccuracy
import Verif.Props.SplineSampling
import Verif.Props.SplineUnique
import Verif.Props.SplineWhitney
import Verif.Props.SplineZeros
import Verif.Props.Splitting
import Verif.Props.Strang
import Verif.Props.Taylor
import Verif.Props.TensorIndex
import Verif.Props.TensorMul
import Verif.Props.TimeLoops
import Verif.Props.Timestepper
import Verif.Props.Transpose
import Verif.Props.TrapezoidPeriodic
import Verif.Props.Tridiag
import Verif.Props.TypeSeq
import Verif.Props.VectorFields
import Verif.Props.VectorMapper
import Verif.Props.ViewStream
import Verif.Props.VlasovOrder
import Verif.Props.VortexMerger
