import Verif.Lemmas.ArrLemmas
import Verif.Lemmas.Assoc
import Verif.Lemmas.BlockGauss
import Verif.Lemmas.Chain
import Verif.Lemmas.Components
import Verif.Lemmas.Congr
import Verif.Lemmas.CovModel
import Verif.Lemmas.Dense
import Verif.Lemmas.DenseFacts
import Verif.Lemmas.DerivativeLaw
import Verif.Lemmas.DetDeriv
import Verif.Lemmas.Discrete
import Verif.Lemmas.Est
import Verif.Lemmas.Events
import Verif.Lemmas.Exact
import Verif.Lemmas.ExactSSM
import Verif.Lemmas.ExpBound
import Verif.Lemmas.ExposureDeriv
import Verif.Lemmas.Fourier
import Verif.Lemmas.GM
import Verif.Lemmas.GPCalls
import Verif.Lemmas.GaussianAverages
import Verif.Lemmas.GaussianLaw
import Verif.Lemmas.Gram
import Verif.Lemmas.Influence
import Verif.Lemmas.Innovate
import Verif.Lemmas.Insert
import Verif.Lemmas.IntBlocks
import Verif.Lemmas.IntCongr
import Verif.Lemmas.IntExact
import Verif.Lemmas.IntLeaf
import Verif.Lemmas.IntLine
import Verif.Lemmas.IntMeasure
import Verif.Lemmas.IntPd
import Verif.Lemmas.IntPerturb
import Verif.Lemmas.IntPerturbRun
import Verif.Lemmas.IntPredict
import Verif.Lemmas.IntRun
import Verif.Lemmas.IntSum
import Verif.Lemmas.KernelAnalytic
import Verif.Lemmas.KernelBase
import Verif.Lemmas.KernelComb
import Verif.Lemmas.KernelExpMatern
import Verif.Lemmas.KernelMatern
import Verif.Lemmas.KernelSHO
import Verif.Lemmas.Loewner
import Verif.Lemmas.LogProb
import Verif.Lemmas.MatDeriv
import Verif.Lemmas.MatLit
import Verif.Lemmas.Moving
import Verif.Lemmas.Names
import Verif.Lemmas.NearPosterior
import Verif.Lemmas.NoiseWithin
import Verif.Lemmas.NoisyBound
import Verif.Lemmas.NoisyPredict
import Verif.Lemmas.NoisyRun
import Verif.Lemmas.NoisySmooth
import Verif.Lemmas.OneDatum
import Verif.Lemmas.OneMore
import Verif.Lemmas.ParRegular
import Verif.Lemmas.ParStep
import Verif.Lemmas.ParallelAny
import Verif.Lemmas.Parts
import Verif.Lemmas.Perturb
import Verif.Lemmas.PerturbChain
import Verif.Lemmas.PosDef
import Verif.Lemmas.PosDefFn
import Verif.Lemmas.PosteriorCov
import Verif.Lemmas.Predict
import Verif.Lemmas.Psd
import Verif.Lemmas.QualityBound
import Verif.Lemmas.RiemannSum
import Verif.Lemmas.RowExact
import Verif.Lemmas.Run
import Verif.Lemmas.ScanCost
import Verif.Lemmas.ShoLarge
import Verif.Lemmas.StateProcess
import Verif.Lemmas.Strip
import Verif.Lemmas.TwoPoint
import Verif.Lemmas.VanLoan
import Verif.Model.BlockView
import Verif.Model.Dense
import Verif.Model.GP
import Verif.Model.GPCore
import Verif.Model.Innovations
import Verif.Model.Integrated
import Verif.Model.Jax
import Verif.Model.Kalman
import Verif.Model.Kernel
import Verif.Model.Kernels
import Verif.Model.Operators
import Verif.Model.Parallel
import Verif.Model.Psd
import Verif.Model.UserKernel
import Verif.Model.VanLoan
import Verif.Props.C01_AtGaps
import Verif.Props.C01_EndToEnd
import Verif.Props.C01_Exact
import Verif.Props.C05_AtData
import Verif.Props.C06_EndToEnd
import Verif.Props.C06_Parallel
import Verif.Props.C09_IntegratedExact
import Verif.Props.C100_AnyKernel
import Verif.Props.C101_ParallelAny
import Verif.Props.C102_ParallelIntegratedAny
import Verif.Props.C103_Forecast
import Verif.Props.C11_EndToEnd
import Verif.Props.C11_ExposureAverage
import Verif.Props.C12_ParallelIntegrated
import Verif.Props.C13_Events
import Verif.Props.C15_InputOrder
import Verif.Props.C16_Filter
import Verif.Props.C16_ShoNoise
import Verif.Props.C18_Causality
import Verif.Props.C20_Transition
import Verif.Props.C24_Values
import Verif.Props.C28_Likelihood
import Verif.Props.C29_Periodic
import Verif.Props.C29_Tail
import Verif.Props.C31_VanLoan
import Verif.Props.C33_IntegratedSHO
import Verif.Props.C34_Reset
import Verif.Props.C36_Psd
import Verif.Props.C37_Names
import Verif.Props.C39_Components
import Verif.Props.C41_Dense
import Verif.Props.C42_Interface
import Verif.Props.C47_DenseSHO
import Verif.Props.C48_Matern
import Verif.Props.C49_BlockView
import Verif.Props.C53_Mixed
import Verif.Props.C55_ExposurePrediction
import Verif.Props.C56_Simultaneous
import Verif.Props.C58_LatentPrediction
import Verif.Props.C59_States
import Verif.Props.C60_Accessors
import Verif.Props.C61_Regression
import Verif.Props.C62_Curves
import Verif.Props.C65_Data
import Verif.Props.C68_Units
import Verif.Props.C69_Limits
import Verif.Props.C70_Predict
import Verif.Props.C70_Truncation
import Verif.Props.C71_Textbook
import Verif.Props.C72_Nearby
import Verif.Props.C73_Quality
import Verif.Props.C74_IntegratedTruncation
import Verif.Props.C75_OneMore
import Verif.Props.C76_Gradient
import Verif.Props.C77_Probability
import Verif.Props.C78_Arithmetic
import Verif.Props.C80_Cost
import Verif.Props.C81_Influence
import Verif.Props.C84_Scales
import Verif.Props.C86_UserKernels
import Verif.Props.C88_MovingRows
import Verif.Props.C89_Innovations
import Verif.Props.C90_Averages
import Verif.Props.C92_OneDatum
import Verif.Props.C93_Splines
import Verif.Props.C94_Reversal
import Verif.Props.C95_Parts
import Verif.Props.C96_Derivative
import Verif.Props.C97_Resolved
import Verif.Props.C97_Textbook
import Verif.Props.C98_Further
import Verif.Props.C99_ResolvedExposures
import Verif.Spec.Augmented
import Verif.Spec.BuiltIn
import Verif.Spec.Cost
import Verif.Spec.Cov
import Verif.Spec.Dense
import Verif.Spec.Discrete
import Verif.Spec.Exposure
import Verif.Spec.Parts
import Verif.Spec.Probability
import Verif.Spec.Proper
import Verif.Spec.Shipped
import Verif.Spec.StateProcess
import Verif.Spec.Textbook
import Verif.Spec.ValidKern
