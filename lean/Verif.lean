import Verif.Core.Rand
import Verif.Core.Expect
import Verif.Core.Env
import Verif.Pond.Model
import Verif.Pond.Spec
import Verif.Pond.Lemmas
import Verif.Pond.Secrecy
import Verif.Pond.Props
import Verif.Core.Arith
import Verif.Helpers.Model
import Verif.Helpers.Props
import Verif.Fixed.Model
import Verif.Fixed.Lemmas
import Verif.Fixed.Props
import Verif.Pond.Trunc
import Verif.Pond.TruncLemmas
import Verif.Pond.TruncProps
import Verif.Pond.FixedMul
import Verif.Pond.Approx
import Verif.Pond.ApproxLemmas
import Verif.Pond.ApproxReal
import Verif.Pond.ApproxData
import Verif.Pond.ApproxProps
import Verif.Pond.Gap
import Verif.Bits.Prefix
import Verif.Aby3.Base
import Verif.Aby3.Model
import Verif.Aby3.Spec
import Verif.Aby3.Lemmas
import Verif.Aby3.MulAb
import Verif.Aby3.Circuits
import Verif.Aby3.CircuitLemmas
import Verif.Aby3.B2a
import Verif.Bits.Int
import Verif.Bits.Kernels
import Verif.Bits.KernelLemmas
import Verif.Bits.KernelProps
import Verif.Aby3.Trunc
import Verif.Aby3.TruncLemmas
import Verif.Aby3.Cheetah
import Verif.Core.Support
import Verif.Aby3.Prog
import Verif.Aby3.ProgSpec
import Verif.Aby3.ProgLemmas
import Verif.Aby3.Props
import Verif.Aby3.CircuitProps
import Verif.Aby3.Dist
import Verif.Aby3.TruncProps
import Verif.Aby3.Compare
import Verif.Aby3.CompareLemmas
import Verif.Aby3.CompareProps
import Verif.Core.Bitonic
import Verif.Aby3.Sort
import Verif.Aby3.SortLemmas
import Verif.Aby3.SortProps
import Verif.Aby3.Poly
import Verif.Aby3.PolyLemmas
import Verif.Aby3.PolySim
import Verif.Aby3.PolyProps
import Verif.Aby3.Nonce
import Verif.Aby3.NonceProps
import Verif.Crt.Model
import Verif.Crt.Lemmas
import Verif.Crt.Props
import Verif.Crt.BitsProps
import Verif.Sampling.Model
import Verif.Sampling.Lemmas
import Verif.Sampling.Props
import Verif.Sampling.KeystreamProps
import Verif.Sampling.FactoryProps
import Verif.SecureNN.Model
import Verif.SecureNN.OddProps
import Verif.SecureNN.Lemmas
import Verif.SecureNN.Compare
import Verif.SecureNN.MsbLemmas
import Verif.SecureNN.Props
import Verif.SecureNN.HelperProps
import Verif.SecureNN.BitProps
import Verif.Runtime.Memo
import Verif.Runtime.MemoProps
import Verif.Runtime.Context
import Verif.Runtime.ContextProps
import Verif.Runtime.Config
import Verif.Runtime.ConfigProps
import Verif.Runtime.Vars
import Verif.Runtime.VarsProps
import Verif.Runtime.Queue
import Verif.Runtime.QueueProps
import Verif.Runtime.Serving
import Verif.Runtime.ServingProps
import Verif.Paillier.Model
import Verif.Paillier.Props
import Verif.Tensor.Model
import Verif.Tensor.Spec
import Verif.Tensor.Lemmas
import Verif.Tensor.ConvProps
import Verif.Tensor.Pool
import Verif.Tensor.PoolProps
import Verif.Tensor.Patches
import Verif.Tensor.PatchesProps
import Verif.Convert.Model
import Verif.Convert.Props
import Verif.Keras.Optim
import Verif.Keras.OptimLemmas
import Verif.Keras.OptimProps
import Verif.Keras.Fit
import Verif.Keras.FitLemmas
import Verif.Keras.FitProps
import Verif.Keras.Layers
import Verif.Keras.GradSpec
import Verif.Keras.GradLemmas
import Verif.Keras.GradProps
import Verif.Keras.Conv
import Verif.Keras.ConvLemmas
import Verif.Keras.ConvExact
import Verif.Keras.ConvProps
import Verif.Keras.Pooling
import Verif.Keras.PoolingLemmas
import Verif.Keras.PoolingExact
import Verif.Keras.PoolingProps
import Verif.Aby3.PolyBound
import Verif.Aby3.LogReal
import Verif.Aby3.Log
import Verif.Aby3.LogLemmas
import Verif.Aby3.LogProps
import Verif.Aby3.Norm
import Verif.Aby3.NormLemmas
import Verif.Aby3.NormProps
import Verif.I128.Model
import Verif.I128.Lemmas
import Verif.I128.Props
import Verif.I128.Float
import Verif.I128.FloatProps
import Verif.Local.Model
import Verif.Local.Lemmas
import Verif.Local.Props
import Verif.Aby3.Exp
import Verif.Aby3.ExpLemmas
import Verif.Aby3.ExpProps
import Verif.Aby3.ExpReal
import Verif.Aby3.Recip
import Verif.Aby3.RecipLemmas
import Verif.Aby3.RecipProps
import Verif.Aby3.InvSqrt
import Verif.Aby3.InvSqrtLemmas
import Verif.Aby3.InvSqrtProps
import Verif.Aby3.InvSqrtReal
import Verif.Aby3.NatExp
import Verif.Aby3.NatExpLemmas
import Verif.Aby3.NatExpProps
import Verif.Aby3.ExpInfProps
import Verif.Aby3.Exp19
import Verif.Aby3.Exp19Lemmas
import Verif.Aby3.Exp19Props
import Verif.Aby3.Softmax
import Verif.Aby3.SoftmaxLemmas
import Verif.Aby3.SoftmaxProps
import Verif.Aby3.SoftmaxKinds
import Verif.Aby3.SoftmaxKindsProps
import Verif.Aby3.Sigmoid
import Verif.Aby3.SigmoidReal
import Verif.Aby3.SigmoidProps
import Verif.Keras.Depthwise
import Verif.Keras.DepthwiseProps
import Verif.Keras.Weights
import Verif.Keras.WeightsLemmas
import Verif.Keras.WeightsProps
import Verif.Aby3.Disk
import Verif.Aby3.DiskLemmas
import Verif.Aby3.DiskProps
import Verif.Aby3.Iterate
import Verif.Aby3.IterateProps
import Verif.Keras.Norm
import Verif.Keras.NormProps
import Verif.Keras.Shapes
import Verif.Keras.ShapesProps
import Verif.Convert.Nodes
import Verif.Convert.Onnx
import Verif.Convert.NodesLemmas
import Verif.Convert.NodesProps
import Verif.Convert.GemmProps
import Verif.Convert.NodesConv
import Verif.Convert.NodesPool
import Verif.Convert.NodesGlobal
import Verif.Convert.Struct
import Verif.Convert.OnnxStruct
import Verif.Convert.StructLemmas
import Verif.Convert.StructProps
import Verif.Convert.StructMove
import Verif.Convert.StructParts
import Verif.Convert.StructSlice
import Verif.Convert.NodeGradSpec
import Verif.Convert.StructBack
import Verif.Convert.NodeGradLemmas
import Verif.Convert.NodeGradProps
import Verif.Convert.NodeGradParts
import Verif.Convert.ChainRule
import Verif.Data.Model
import Verif.Data.Spec
import Verif.Data.Lemmas
import Verif.Data.Props
import Verif.Sodium.Model
import Verif.Sodium.Props
import Verif.Keras.Clone
import Verif.Keras.CloneProps
import Verif.Aby3.Average
import Verif.Aby3.AverageLemmas
import Verif.Aby3.AverageProps
import Verif.Aby3.ShareType
import Verif.Aby3.ShareTypeSpec
import Verif.Aby3.ShareTypeProps
import Verif.Utils.Graph
import Verif.Utils.GraphProps
import Verif.Runtime.Function
import Verif.Runtime.FunctionSpec
import Verif.Runtime.FunctionLemmas
import Verif.Runtime.FunctionProps
import Verif.Runtime.Trace
import Verif.Runtime.TraceProps
import Verif.Aby3.Network
import Verif.Aby3.NetworkSpec
import Verif.Aby3.NetworkConv
import Verif.Aby3.NetworkPool
import Verif.Aby3.Number
import Verif.Aby3.NetworkLemmas
import Verif.Aby3.NetworkProps
import Verif.Aby3.NetworkHeadProps
import Verif.Aby3.Federated
import Verif.Aby3.FederatedProps
import Verif.Aby3.Train
import Verif.Aby3.TrainSpec
import Verif.Aby3.TrainLemmas
import Verif.Aby3.TrainClose
import Verif.Aby3.TrainProps
import Verif.Data.Joint
import Verif.Data.JointProps
import Verif.Keras.Args
import Verif.Keras.ArgsSpec
import Verif.Keras.ArgsLemmas
import Verif.Keras.ArgsKinds
import Verif.Keras.ArgsProps
import Verif.Convert.LayerBack
import Verif.Convert.LayerGradLemmas
import Verif.Convert.LayerGradProps
import Verif.Convert.LayerGradPool
import Verif.Convert.LayerGradAct
import Verif.Convert.LayerGradMax
import Verif.Convert.LayerGradConv
import Verif.Pond.Divide
import Verif.Pond.DivideProps
import Verif.Pond.DividePublic
import Verif.Pond.DividePublicProps
import Verif.Keras.Names
import Verif.Keras.NamesProps
import Verif.Aby3.ReduceMax
import Verif.Aby3.ReduceMaxSpec
import Verif.Aby3.ReduceMaxLemmas
import Verif.Aby3.ReduceMaxProps
import Verif.Aby3.Argmax
import Verif.Aby3.ArgmaxLemmas
import Verif.Aby3.ArgmaxProps
import Verif.Local.Decorator
import Verif.Local.DecoratorProps
import Verif.Keras.InputArgs
import Verif.Keras.InputArgsProps
import Verif.Local.Variables
import Verif.Local.VariablesProps
import Verif.Tensor.SpaceBatch
import Verif.Tensor.SpaceBatchProps
import Verif.Local.PublicInput
import Verif.Local.PublicInputProps
import Verif.Local.EqualPublic
import Verif.Local.EqualPublicProps
import Verif.Utils.Fetches
import Verif.Utils.FetchesProps
import Verif.Keras.Compile
import Verif.Keras.CompileProps
import Verif.Keras.PredictGraph
import Verif.Keras.PredictGraphProps
import Verif.Keras.Build
import Verif.Keras.BuildProps
import Verif.Keras.Metrics
import Verif.Keras.MetricsProps
