import Verif.Lazy
import Verif.LazySpec
import Verif.Syntax
import Verif.World
import Verif.Ops
import Verif.Spec
import Verif.SpecOps
import Verif.RefineLook
import Verif.Mono
import Verif.Refine
import Verif.RefineOps
import Verif.Props.Lazy
import Verif.Api
import Verif.Graph
import Verif.GraphNames
import Verif.Props.Graph
import Verif.Props.Names
import Verif.GraphOps
import Verif.Props.Groups
import Verif.Numerics
import Verif.Eval
import Verif.EvalMono
import Verif.SecondOrder
import Verif.SoundAlg
import Verif.Sound
import Verif.SoundPost
import Verif.SoundMo
import Verif.SoundDiff
import Verif.SoundKern
import Verif.SoundMean
import Verif.Interp
import Verif.SoundTup
import Verif.NumericsSpec
import Verif.Model
import Verif.EvalBig
import Verif.Calls
import Verif.Plain
import Verif.Canon
import Verif.Hilbert
import Verif.Realise
import Verif.Program
import Verif.Run
import Verif.Total
import Verif.TotalSparse
import Verif.Returns
import Verif.Update
import Verif.Stack
import Verif.Positive
import Verif.Stable
import Verif.Smooth
import Verif.Everywhere
import Verif.Off
import Verif.Regular
import Verif.Study
import Verif.Derive
import Verif.Props.Sound
import Verif.Point
import Verif.Props.Derive
import Verif.EvalDiag
import Verif.Props.Calls
import Verif.Props.Stacks
import Verif.SmoothCalls
import Verif.Props.Smooth
import Verif.Props.Diag
import Verif.Post
import Verif.Join
import Verif.Fdd
import Verif.Props.Condition
import Verif.Closed
import Verif.Sizes
import Verif.Props.Fdd
import Verif.Props.Noise
import Verif.EvalTake
import Verif.Take
import Verif.Props.Take
import Verif.Props.Notation
import Verif.Normal
import Verif.Gaussian
import Verif.Density
import Verif.Props.Normal
import Verif.Props.Density
import Verif.Props.Divergence
import Verif.Sparse
import Verif.NormalState
import Verif.Props.NormalState
import Verif.Conditional
import Verif.Props.Conditional
import Verif.Chain
import Verif.MeasureFns
import Verif.Props.Joint
import Verif.Cache
import Verif.Props.Cache
import Verif.Pseudo
import Verif.Props.Sparse
import Verif.Variational
import Verif.Props.Variational
import Verif.Surrogate
import Verif.Props.Surrogate
import Verif.Moments
import Verif.Product
import Verif.Props.Product
import Verif.Props.Rules
import Verif.Approx
import Verif.Props.Approx
import Verif.Stationary
import Verif.Props.Stationary
import Verif.Arith
import Verif.Props.Arith
import Verif.Props.ExprRuns
import Verif.Props.Express
import Verif.Props.Findings
import Verif.Construct
import Verif.Props.Sure
import Verif.Renoise
import Verif.Jitter
import Verif.MoreNoise
import Verif.Props.Jitter
import Verif.MorePoints
import Verif.Props.MorePoints
import Verif.Redata
import Verif.Props.Redata
import Verif.Props.RedataProduct
import Verif.Coverage
import Verif.Props.Coverage
import Verif.Predict
import Verif.Props.Predict
import Verif.Pool
import Verif.Props.Pool
import Verif.Restate
import Verif.Props.Restate
import Verif.Apart
import Verif.Props.Apart
import Verif.Blur
import Verif.Props.Blur
import Verif.JitterSparse
import Verif.Props.JitterSparse
import Verif.Follow
import Verif.Props.Follow
import Verif.Information
import Verif.Props.Information
import Verif.Props.Gain
import Verif.Broadcast
import Verif.Props.Broadcast
import Verif.Props.Raises
import Verif.Props.Weights
import Verif.Tensor
import Verif.Batch
import Verif.Props.Batch
import Verif.BatchSparse
import Verif.Props.BatchSparse
import Verif.BatchEval
import Verif.BatchAt
import Verif.Props.BatchEval
import Verif.Props.BatchReturns
import Verif.BatchWorld
import Verif.BatchSim
import Verif.Props.BatchWorld
import Verif.BatchFdd
import Verif.Props.BatchFdd
import Verif.BatchMissing
import Verif.Props.BatchMissing
import Verif.BatchPseudo
import Verif.Props.BatchPseudo
import Verif.Props.BatchInfer
import Verif.Props.BatchLaws
import Verif.JitterFns
import Verif.Props.JitterFns
