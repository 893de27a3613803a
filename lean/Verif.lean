import Verif.Model.Basic
import Verif.Model.Ops
import Verif.Model.Matrix
import Verif.Model.Input
import Verif.Model.Cfloat
import Verif.Model.Random
import Verif.Model.Act
import Verif.Model.Loss
import Verif.Model.Gen
import Verif.Model.Layer
import Verif.Model.Network
import Verif.Model.Data
import Verif.Model.Examples
import Verif.Props.MatrixStore
import Verif.Props.MatrixOps
import Verif.Props.Complex
import Verif.Props.Random
import Verif.Props.Init
import Verif.Props.Act
import Verif.Props.ActExact
import Verif.Props.Loss
import Verif.Spec.Layer
import Verif.Spec.IntNet
import Verif.Spec.Network
import Verif.Props.Layer
import Verif.Props.Network
import Verif.Props.NetworkSize
import Verif.Props.NetworkEval
import Verif.Spec.Training
import Verif.Props.Training
import Verif.Props.FixedPoint
import Verif.Props.Descent
import Verif.Props.DenseGrad
import Verif.Props.Backprop
import Verif.Props.NetGrad
import Verif.Props.NetGradRefuted
import Verif.Props.DescentLaw
import Verif.Props.ConvGrad
import Verif.Props.ConvTangent
import Verif.Props.ConvRight
import Verif.Props.ConvLaw
import Verif.Spec.Pooling
import Verif.Props.ReduceLaw
import Verif.Props.ConvNet
import Verif.Props.Data
import Verif.Props.Mnist
import Verif.Props.Signal
import Verif.Props.SignalValue
import Verif.Props.TrainTotal
import Verif.Props.ExampleNets
import Verif.Spec.Examples
import Verif.Props.ExampleRuns
import Verif.Props.ExampleReg
import Verif.Props.Period
import Verif.Props.ExampleDescent
import Verif.Props.MatrixMore
import Verif.Props.GenReal
import Verif.Props.DescentConv
import Verif.Props.ComplexRate
import Verif.Props.Upsampling
import Verif.Props.Translation
import Verif.Spec.Relate
import Verif.Lemmas.Relate
import Verif.Lemmas.RelateMat
import Verif.Lemmas.RelateNet
import Verif.Lemmas.RelateTwo
import Verif.Spec.Rounding
import Verif.Lemmas.Rounding
import Verif.Props.Rounding
import Verif.Spec.Symmetry
import Verif.Props.Symmetry
import Verif.Props.NetShape
import Verif.Spec.Lipschitz
import Verif.Props.Lipschitz
import Verif.Spec.Ieee
import Verif.Lemmas.Ieee
import Verif.Props.Ieee
import Verif.Props.IeeeComplex
import Verif.Props.IeeeAct
import Verif.Props.Nan
import Verif.Props.IeeeInit
import Verif.Props.IeeeError
import Verif.Props.IeeeNet
import Verif.Props.IeeePred
import Verif.Props.IeeeRandom
import Verif.Props.IeeeLoss
import Verif.Spec.Estimate
import Verif.Lemmas.Estimate
import Verif.Props.Estimate
import Verif.Lemmas.EstimateSharp
import Verif.Props.EstimateSharp
import Verif.Spec.Batch
import Verif.Props.Batch
import Verif.Props.Uphill
import Verif.Spec.Dead
import Verif.Props.Dead
import Verif.Spec.Hidden
import Verif.Props.Hidden
import Verif.Props.Twins
import Verif.Lemmas.Tame
import Verif.Spec.Converge
import Verif.Lemmas.TameNet
import Verif.Props.Converge
import Verif.Spec.Rescale
import Verif.Props.Rescale
import Verif.Model.Tests
import Verif.Spec.Tests
import Verif.Props.Tests
import Verif.Spec.Spread
import Verif.Props.Spread
import Verif.Props.SpreadMean
import Verif.Props.ErrorRate
import Verif.Props.LeastSquares
import Verif.Props.Affine
import Verif.Props.Span
import Verif.Props.Unitary
import Verif.Props.Express
import Verif.Props.Shared
import Verif.Props.Cardioid
import Verif.Props.Still
import Verif.Props.SignalIeee
import Verif.Props.FilterNet
import Verif.Props.MirrorPool
import Verif.Props.SignsReal
import Verif.Props.Outputs
import Verif.Props.Channels
import Verif.Props.Streams
import Verif.Props.Planes
import Verif.Props.DeadFilters
import Verif.Props.NanImages
import Verif.Props.Accepted
import Verif.Props.Patches
import Verif.Props.Threshold
import Verif.Props.Epochs
import Verif.Props.ComplexRun
import Verif.Props.Pictures
import Verif.Props.Overflow
import Verif.Props.Cycle
import Verif.Props.LongRun
import Verif.Props.Stability
import Verif.Props.ConvStability
import Verif.Props.Order
import Verif.Props.TransposeNet
import Verif.Props.FilterTurn
import Verif.Props.FilterBalance
import Verif.Props.FilterCondition
import Verif.Props.Origin
import Verif.Props.Padding
import Verif.Props.BlockEdges
