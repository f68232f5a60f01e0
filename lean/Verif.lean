import Verif.Model.ActiveSurfaces
import Verif.Model.Designs
import Verif.Model.Domains
import Verif.Model.Gradients
import Verif.Model.GradientsArr
import Verif.Model.Integrals
import Verif.Model.Misc
import Verif.Model.MiscArr
import Verif.Model.Multistart
import Verif.Model.Notebooks
import Verif.Model.Optimizers
import Verif.Model.Plotters
import Verif.Model.QPSolver
import Verif.Model.Quadrature
import Verif.Model.ResponseSurfaces
import Verif.Model.Rounded
import Verif.Model.RoundedActive
import Verif.Model.RoundedActiveRBF
import Verif.Model.RoundedKernelGrads
import Verif.Model.RoundedLocal
import Verif.Model.RoundedMaps
import Verif.Model.RoundedMeans
import Verif.Model.RoundedOls
import Verif.Model.RoundedOpg
import Verif.Model.RoundedPartitions
import Verif.Model.RoundedQphd
import Verif.Model.RoundedSurfaces
import Verif.Model.RoundedTraining
import Verif.Model.SimRunners
import Verif.Model.Subspaces
import Verif.Model.TestFunctions
import Verif.Model.WeightsArr
import Verif.Np
import Verif.NpReduce
import Verif.Proofs.Accept
import Verif.Proofs.AcceptLaw
import Verif.Proofs.Bootstrap
import Verif.Proofs.Cholesky
import Verif.Proofs.ConvexPoincare
import Verif.Proofs.Directions
import Verif.Proofs.DoubleRoot
import Verif.Proofs.Doubles
import Verif.Proofs.EigSymm
import Verif.Proofs.Eigh
import Verif.Proofs.FloatProd
import Verif.Proofs.FloatSum
import Verif.Proofs.GaussDensity
import Verif.Proofs.GaussRule
import Verif.Proofs.GeneralPosition
import Verif.Proofs.Gradients
import Verif.Proofs.Groups
import Verif.Proofs.HermitePoly
import Verif.Proofs.Index
import Verif.Proofs.IndexSet
import Verif.Proofs.JacobiPoly
import Verif.Proofs.Kernel
import Verif.Proofs.KyFan
import Verif.Proofs.LeastSquares
import Verif.Proofs.LegendrePoly
import Verif.Proofs.LsqLaw
import Verif.Proofs.Misc
import Verif.Proofs.MomentConv
import Verif.Proofs.Multistart
import Verif.Proofs.Near
import Verif.Proofs.NodeGap
import Verif.Proofs.Partials
import Verif.Proofs.Perturb
import Verif.Proofs.Plotters
import Verif.Proofs.Poincare
import Verif.Proofs.PolyApprox
import Verif.Proofs.PolyTrain
import Verif.Proofs.Quadrature
import Verif.Proofs.RBF
import Verif.Proofs.Rotation
import Verif.Proofs.Rounding
import Verif.Proofs.Run
import Verif.Proofs.SampleMean
import Verif.Proofs.SignVectors
import Verif.Proofs.SimRunners
import Verif.Proofs.StrongShatter
import Verif.Proofs.TestFunctions
import Verif.Proofs.TwoStage
import Verif.Proofs.Volume
import Verif.Props.Abstract
import Verif.Props.ActiveRBFRounded
import Verif.Props.ActiveRounded
import Verif.Props.ActiveSubspace
import Verif.Props.ActiveSurfaces
import Verif.Props.ActiveTraining
import Verif.Props.BootStream
import Verif.Props.BootWeights
import Verif.Props.Bootstrap
import Verif.Props.BoundedLaw
import Verif.Props.Columns
import Verif.Props.Compute
import Verif.Props.ComputeMore
import Verif.Props.ConvexMin
import Verif.Props.CubeError
import Verif.Props.DesignInside
import Verif.Props.Designs
import Verif.Props.Directions
import Verif.Props.DoublePrecision
import Verif.Props.EigenBias
import Verif.Props.Equivariance
import Verif.Props.FiniteDiff
import Verif.Props.GaussConverge
import Verif.Props.GaussMore
import Verif.Props.HitLaw
import Verif.Props.IndexSet
import Verif.Props.InexactRidge
import Verif.Props.IntegralRules
import Verif.Props.Integrals
import Verif.Props.IntegrateLaw
import Verif.Props.KernelGradsRounded
import Verif.Props.Ladle
import Verif.Props.LocalAccuracy
import Verif.Props.LocalLinear
import Verif.Props.LocalRounded
import Verif.Props.LocalShapes
import Verif.Props.LocalWeights
import Verif.Props.Maps
import Verif.Props.Maximin
import Verif.Props.MaximinObj
import Verif.Props.MeansRounded
import Verif.Props.MinMap
import Verif.Props.MinMapZ
import Verif.Props.Misc
import Verif.Props.MonteCarlo
import Verif.Props.NormalizerShapes
import Verif.Props.NotReady
import Verif.Props.Notebooks
import Verif.Props.OlsLaw
import Verif.Props.OlsRounded
import Verif.Props.OpgRounded
import Verif.Props.OptimMultistart
import Verif.Props.Optimizers
import Verif.Props.OutputErrors
import Verif.Props.Partition
import Verif.Props.PartitionsRounded
import Verif.Props.Plotters
import Verif.Props.PolyApprox
import Verif.Props.PolyLaw
import Verif.Props.PolyTrainingRounded
import Verif.Props.QPSolver
import Verif.Props.Qphd
import Verif.Props.QphdLaw
import Verif.Props.QphdRounded
import Verif.Props.Quadrature
import Verif.Props.RBF
import Verif.Props.RBFError
import Verif.Props.RBFFunctionals
import Verif.Props.RBFObjective
import Verif.Props.RandomWalk
import Verif.Props.Recovery
import Verif.Props.Regression
import Verif.Props.RejectionLaw
import Verif.Props.Retrain
import Verif.Props.RidgeError
import Verif.Props.RidgeRBF
import Verif.Props.RoundedExact
import Verif.Props.RoundedExactMore
import Verif.Props.RoundedGradients
import Verif.Props.RoundedMaps
import Verif.Props.RoundedNormalizer
import Verif.Props.RoundedPartition
import Verif.Props.RoundedSubspace
import Verif.Props.SampleSets
import Verif.Props.Samplers
import Verif.Props.SamplersMore
import Verif.Props.SimRunners
import Verif.Props.Sizes
import Verif.Props.SliceLaw
import Verif.Props.Stability
import Verif.Props.SurfaceCoords
import Verif.Props.SurfaceLaw
import Verif.Props.SurfacesRounded
import Verif.Props.Tensor
import Verif.Props.TensorExact
import Verif.Props.TestFunctions
import Verif.Props.TestPhysics
import Verif.Props.TrainingLaw
import Verif.Props.TrainingRounded
import Verif.Props.Unused
import Verif.Props.VertexLaw
import Verif.Props.WalkLaw
import Verif.Props.WalkMixing
import Verif.Props.WeightShapes
import Verif.Props.WeightedRsq
import Verif.Props.Zonotope
import Verif.Props.ZonotopeHull
import Verif.Props.ZonotopeVertices
import Verif.Props.ZonotopeZeros
import Verif.Py
import Verif.Spec.Calls
import Verif.Spec.Doubles
import Verif.Spec.Eig
import Verif.Spec.Eigh
import Verif.Spec.Figure
import Verif.Spec.FloatProd
import Verif.Spec.FloatSum
import Verif.Spec.LinAlg
import Verif.Spec.Multistart
import Verif.Spec.NativeSpace
import Verif.Spec.Notebook
import Verif.Spec.Optim
import Verif.Spec.OrthoPoly
import Verif.Spec.Refused
import Verif.Spec.RidgeError
import Verif.Spec.RowGradient
import Verif.Spec.StableSolve
import Verif.Spec.Stats
import Verif.Spec.Tensor
import Verif.Spec.White
import Verif.Spec.Zonotope
