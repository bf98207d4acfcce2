import Mathlib.Data.Rat.Floor
import Mathlib.Tactic.Common

/-!
# C92: the arguments of layers

The constructors of the layers of `tf_encrypted/keras/layers` (called with keyword arguments) and of
their base class. An object (an initializer, a regularizer, a function) is a number; numbers are exact.
The result of a constructor is the list of the attributes that `build`, `call`, `backward` and
`compute_output_shape` read. Attributes that are stored but never read are left out, since they have no
effect: `trainable` (base_layer.py:64), `momentum` (normalization.py:153). The arguments `name` and
`lazy_normalization`, which TensorFlow does not have as an argument of these layers, are not looked at
(see C65 for the latter).
-/

namespace Verif.Keras.Args

/-- A Python value. -/
inductive Arg where
  | none
  | bool (b : Bool)
  | num (q : ℚ)
  | str (s : String)
  | tup (l : List (Option ℚ))
  | list (l : List (Option ℚ))
  | obj (n : ℕ)
  deriving DecidableEq

/-- `True == 1` and `False == 0`. -/
def Arg.norm : Arg → Arg
  | .bool b => .num (if b then 1 else 0)
  | a => a

/-- `==` -/
def Arg.eq (a b : Arg) : Bool := a.norm = b.norm

/-- What a constructor raises. -/
inductive Err where
  | typeError
  | valueError
  | keyError
  | notImplemented
  | unknownArg
  deriving DecidableEq

/-- `if p: raise e` -/
def refuse (p : Bool) (e : Err) : Except Err Unit := if p then .error e else .ok ()

/-- Keyword arguments. -/
abbrev Kwargs := List (String × Arg)

/-- The layers. -/
inductive Kind where
  | dense | conv2d | depthwise | batchnorm | maxpool | avgpool | globalpool | flatten | reshape | relu
  | activation
  deriving DecidableEq

/-- The parameters of the constructors that TensorFlow's layers do not implement here, with their
defaults in TensorFlow: `inspect.signature(tf.keras.layers.X.__init__)`. -/
def tfDefault : Kind → String → Option Arg
  | .dense, n => if n ∈ ["kernel_regularizer", "bias_regularizer", "activity_regularizer", "kernel_constraint",
      "bias_constraint"] then some .none else none
  | .conv2d, n => if n ∈ ["kernel_regularizer", "bias_regularizer", "activity_regularizer", "kernel_constraint",
      "bias_constraint"] then some .none
    else if n = "dilation_rate" then some (.tup [some 1, some 1]) else if n = "groups" then some (.num 1) else none
  | .depthwise, n => if n ∈ ["depthwise_regularizer", "bias_regularizer", "activity_regularizer",
      "depthwise_constraint", "bias_constraint"] then some .none
    else if n = "dilation_rate" then some (.tup [some 1, some 1]) else none
  | .batchnorm, n => if n ∈ ["beta_regularizer", "gamma_regularizer", "beta_constraint", "gamma_constraint"] then
      some .none else none
  | .relu, n => if n = "max_value" then some .none else if n ∈ ["negative_slope", "threshold"] then some (.num 0)
    else none
  | _, _ => none

/-- `default_args_check` (layers/layers_utils.py:59-76). -/
def check (arg : Arg) (name : String) (k : Kind) : Except Err Unit :=
  match tfDefault k name with
  | none => .error .unknownArg
  | some d => if arg.eq d then .ok () else .error .notImplemented

/-- `check` for several arguments in turn. -/
def checkAll (k : Kind) (get : String → Arg) : List String → Except Err Unit
  | [] => .ok ()
  | n :: ns =>
    match check (get n) n k with
    | .error e => .error e
    | .ok () => checkAll k get ns

/-- `Layer.__init__` (engine/base_layer.py:34-67): what is left over must be known. -/
def layerInit (rest : Kwargs) : Except Err Unit :=
  if rest.all fun a => a.1 ∈ ["trainable", "name", "input_shape", "batch_input_shape", "batch_size", "weights",
      "activity_regularizer", "dtype", "lazy_normalization"] then .ok ()
  else .error .typeError

/-- `self._batch_input_shape` (engine/base_layer.py:52-59). -/
def batchShape (rest : Kwargs) : Kwargs :=
  match rest.lookup "batch_input_shape" with
  | some a => [("batch_input_shape", a)]
  | none =>
    match rest.lookup "input_shape" with
    | some a => [("batch_input_shape", a)]
    | none => []

/-- The parameters of a constructor with their defaults; `none` for those without default. -/
def params : Kind → List (String × Option Arg)
  -- dense.py:44-57
  | .dense => [("units", none), ("activation", some .none), ("use_bias", some (.bool true)),
      ("kernel_initializer", some (.str "glorot_uniform")), ("bias_initializer", some (.str "zeros")),
      ("kernel_regularizer", some .none), ("bias_regularizer", some .none), ("activity_regularizer", some .none),
      ("kernel_constraint", some .none), ("bias_constraint", some .none)]
  -- convolutional.py:87-106
  | .conv2d => [("filters", none), ("kernel_size", none), ("strides", some (.tup [some 1, some 1])),
      ("padding", some (.str "valid")), ("data_format", some .none), ("dilation_rate", some (.tup [some 1, some 1])),
      ("groups", some (.num 1)), ("activation", some .none), ("use_bias", some (.bool true)),
      ("kernel_initializer", some (.str "glorot_uniform")), ("bias_initializer", some (.str "zeros")),
      ("kernel_regularizer", some .none), ("bias_regularizer", some .none), ("activity_regularizer", some .none),
      ("kernel_constraint", some .none), ("bias_constraint", some .none)]
  -- convolutional.py:380-397
  | .depthwise => [("kernel_size", none), ("strides", some (.tup [some 1, some 1])), ("padding", some (.str "valid")),
      ("depth_multiplier", some (.num 1)), ("data_format", some .none), ("activation", some .none),
      ("use_bias", some (.bool true)), ("depthwise_initializer", some (.str "glorot_uniform")),
      ("bias_initializer", some (.str "zeros")), ("depthwise_regularizer", some .none),
      ("bias_regularizer", some .none), ("activity_regularizer", some .none), ("depthwise_constraint", some .none),
      ("bias_constraint", some .none)]
  -- normalization.py:89-108
  | .batchnorm => [("axis", some (.num 3)), ("momentum", some (.num (99 / 100))), ("epsilon", some (.num (1 / 1000))),
      ("center", some (.bool true)), ("scale", some (.bool true)), ("beta_initializer", some (.str "zeros")),
      ("gamma_initializer", some (.str "ones")), ("moving_mean_initializer", some (.str "zeros")),
      ("moving_variance_initializer", some (.str "ones")), ("beta_regularizer", some .none),
      ("gamma_regularizer", some .none), ("beta_constraint", some .none), ("gamma_constraint", some .none),
      ("fused", some .none)]
  -- pooling.py:122-140, 208-225
  | .maxpool | .avgpool => [("pool_size", some (.tup [some 2, some 2])), ("strides", some .none),
      ("padding", some (.str "valid")), ("data_format", some .none)]
  -- pooling.py:298-301
  | .globalpool => [("data_format", some .none), ("keepdims", some (.bool false))]
  -- flatten.py:25
  | .flatten => [("data_format", some .none)]
  -- reshape.py:36
  | .reshape => [("target_shape", none)]
  -- relu.py:27
  | .relu => [("max_value", some .none), ("negative_slope", some (.num 0)), ("threshold", some (.num 0))]
  -- activation.py:20
  | .activation => [("activation", none)]

/-- The value of a parameter, once it is known that those without default are given. -/
def value (ps : List (String × Option Arg)) (kw : Kwargs) (name : String) : Arg :=
  match kw.lookup name with
  | some a => a
  | none => ((ps.lookup name).join).getD .none

/-- Are the parameters without default given? -/
def bound (ps : List (String × Option Arg)) (kw : Kwargs) : Bool :=
  ps.all fun p => p.2.isSome || (kw.lookup p.1).isSome

/-- What is passed on to the base class. -/
def extra (ps : List (String × Option Arg)) (kw : Kwargs) : Kwargs := kw.filter fun a => (ps.lookup a.1).isNone

/-- `conv_utils.normalize_tuple(value, 2, name)`: a number is used for both dimensions. -/
def pair : Arg → Except Err Arg
  | .num q => .ok (.tup [some q, some q])
  | .bool b => .ok (.tup [some (if b then 1 else 0), some (if b then 1 else 0)])
  | .tup [some a, some b] => .ok (.tup [some a, some b])
  | .list [some a, some b] => .ok (.tup [some a, some b])
  | _ => .error .valueError

/-- `conv_utils.normalize_padding`. -/
def padding : Arg → Except Err Arg
  | .str s => if s.toLower ∈ ["valid", "same", "causal"] then .ok (.str s.toLower) else .error .valueError
  | _ => .error .valueError

/-- `conv_utils.normalize_data_format`; `g` is the setting of the Keras backend. -/
def format (g : String) : Arg → Except Err Arg
  | .none => .ok (.str g)
  | .str s => if s.toLower ∈ ["channels_first", "channels_last"] then .ok (.str s.toLower) else .error .valueError
  | _ => .error .valueError

/-- `activations.get` (keras/activations.py:46-60). For other values the function ends without a `return`,
and the result is `None`. -/
def activationGet : Arg → Except Err Arg
  | .none => .ok (.str "linear")
  | .obj n => .ok (.obj n)
  | .str s => if s ∈ ["relu", "sigmoid", "tanh", "linear", "softmax"] then .ok (.str s) else .error .keyError
  | _ => .ok .none

/-- A convolution applies an activation of `None` like the linear one (convolutional.py:187-188,
562-563). -/
def convActivation (a : Arg) : Except Err Arg :=
  match activationGet a with
  | .error e => .error e
  | .ok .none => .ok (.str "linear")
  | .ok b => .ok b

/-- `int(units)` -/
def toInt : Arg → Except Err Arg
  | .num q => .ok (.num (if 0 ≤ q then ⌊q⌋ else ⌈q⌉))
  | .bool b => .ok (.num (if b then 1 else 0))
  | .str s =>
    match s.toInt? with
    | some n => .ok (.num n)
    | none => .error .valueError
  | _ => .error .typeError

/-- `tuple(target_shape)` -/
def toTuple : Arg → Except Err Arg
  | .tup l => .ok (.tup l)
  | .list l => .ok (.tup l)
  | _ => .error .typeError

/-- `Dense.__init__` (dense.py:44-74). For an activation that is neither a string nor a function, `call`
raises. -/
def dense (kw : Kwargs) : Except Err Kwargs := do
  let v := value (params .dense) kw
  layerInit (extra (params .dense) kw)
  let units ← toInt (v "units")
  let act ← activationGet (v "activation")
  refuse (act = .none) .typeError
  checkAll .dense v ["kernel_regularizer", "bias_regularizer", "activity_regularizer", "kernel_constraint",
    "bias_constraint"]
  return [("units", units), ("activation", act), ("use_bias", v "use_bias"),
    ("kernel_initializer", v "kernel_initializer"), ("bias_initializer", v "bias_initializer")] ++
    batchShape (extra (params .dense) kw)

/-- `kernel_size[0] == kernel_size[1]` -/
def square : Arg → Bool
  | .tup [a, b] => a = b
  | _ => false

/-- `Conv2D.__init__` (convolutional.py:87-142). -/
def conv2d (g : String) (v : String → Arg) (rest : Kwargs) : Except Err Kwargs := do
  layerInit rest
  let size ← pair (v "kernel_size")
  refuse (!square size) .notImplemented
  let strides ← pair (v "strides")
  let pad ← padding (v "padding")
  let form ← format g (v "data_format")
  let act ← convActivation (v "activation")
  checkAll .conv2d v ["dilation_rate", "groups", "kernel_regularizer", "bias_regularizer", "activity_regularizer",
    "kernel_constraint", "bias_constraint"]
  return [("filters", v "filters"), ("kernel_size", size), ("strides", strides), ("padding", pad),
    ("data_format", form), ("activation", act), ("use_bias", v "use_bias"),
    ("kernel_initializer", v "kernel_initializer"), ("bias_initializer", v "bias_initializer")] ++ batchShape rest

/-- `DepthwiseConv2D.__init__` (convolutional.py:380-463): the constructor of `Conv2D` gets what is given
besides, `filters=None`, and not the initializer of the bias. -/
def depthwise (g : String) (kw : Kwargs) : Except Err Kwargs := do
  let v := value (params .depthwise) kw
  let rest := extra (params .depthwise) kw
  refuse (rest.lookup "filters").isSome .typeError
  let passed : Kwargs := ("filters", .none) :: (["kernel_size", "strides", "padding", "data_format", "activation",
    "use_bias", "bias_regularizer", "activity_regularizer", "bias_constraint"].map fun n => (n, v n)) ++ rest
  let base ← conv2d g (value (params .conv2d) passed) (extra (params .conv2d) passed)
  checkAll .depthwise v ["depthwise_regularizer", "bias_regularizer", "activity_regularizer", "depthwise_constraint",
    "bias_constraint"]
  return ["kernel_size", "strides", "padding", "data_format", "activation"].map
      (fun n => (n, (base.lookup n).getD .none)) ++
    [("depth_multiplier", v "depth_multiplier"), ("use_bias", v "use_bias"),
      ("depthwise_initializer", v "depthwise_initializer"), ("bias_initializer", v "bias_initializer")] ++
    batchShape (extra (params .conv2d) passed)

/-- The first of a list (normalization.py:139-142). -/
def firstAxis : Arg → Arg
  | .list (some q :: _) => .num q
  | a => a

/-- The axes 1 and 3 only (normalization.py:144-149). -/
def normAxis (a : Arg) : Except Err Arg :=
  if (firstAxis a).eq (.num 1) ∨ (firstAxis a).eq (.num 3) then .ok (firstAxis a) else .error .valueError

/-- `BatchNormalization.__init__` (normalization.py:89-153). -/
def batchnorm (kw : Kwargs) : Except Err Kwargs := do
  let v := value (params .batchnorm) kw
  layerInit (extra (params .batchnorm) kw)
  checkAll .batchnorm v ["beta_regularizer", "gamma_regularizer", "beta_constraint", "gamma_constraint"]
  let axis ← normAxis (v "axis")
  return [("axis", axis), ("epsilon", v "epsilon"), ("center", v "center"), ("scale", v "scale"),
    ("beta_initializer", v "beta_initializer"), ("gamma_initializer", v "gamma_initializer"),
    ("moving_mean_initializer", v "moving_mean_initializer"),
    ("moving_variance_initializer", v "moving_variance_initializer")] ++ batchShape (extra (params .batchnorm) kw)

/-- `Pooling2D.__init__` (pooling.py:32-51). -/
def pooling (k : Kind) (g : String) (kw : Kwargs) : Except Err Kwargs := do
  let v := value (params k) kw
  layerInit (extra (params k) kw)
  let form := if v "data_format" = .none then .str "channels_last" else v "data_format"
  let str := if v "strides" = .none then v "pool_size" else v "strides"
  let size ← pair (v "pool_size")
  let strides ← pair str
  let pad ← padding (v "padding")
  let form ← format g form
  return [("pool_size", size), ("strides", strides), ("padding", pad), ("data_format", form)] ++
    batchShape (extra (params k) kw)

/-- Construction of a layer with keyword arguments: the attributes it will work with. -/
def construct (k : Kind) (g : String) (kw : Kwargs) : Except Err Kwargs :=
  if !bound (params k) kw then .error .typeError
  else
    match k with
    | .dense => dense kw
    | .conv2d => conv2d g (value (params .conv2d) kw) (extra (params .conv2d) kw)
    | .depthwise => depthwise g kw
    | .batchnorm => batchnorm kw
    | .maxpool => pooling .maxpool g kw
    | .avgpool => pooling .avgpool g kw
    -- pooling.py:298-301
    | .globalpool => do
      let v := value (params .globalpool) kw
      layerInit (extra (params .globalpool) kw)
      let form ← format g (v "data_format")
      return [("data_format", form), ("keepdims", v "keepdims")] ++ batchShape (extra (params .globalpool) kw)
    -- flatten.py:25-27
    | .flatten => do
      layerInit (extra (params .flatten) kw)
      let form ← format g (value (params .flatten) kw "data_format")
      return ("data_format", form) :: batchShape (extra (params .flatten) kw)
    -- reshape.py:36-38
    | .reshape => do
      layerInit (extra (params .reshape) kw)
      let shape ← toTuple (value (params .reshape) kw "target_shape")
      return ("target_shape", shape) :: batchShape (extra (params .reshape) kw)
    -- relu.py:27-33
    | .relu => do
      layerInit (extra (params .relu) kw)
      checkAll .relu (value (params .relu) kw) ["max_value", "negative_slope", "threshold"]
      return batchShape (extra (params .relu) kw)
    -- activation.py:20-23; `call` raises for what is neither a string nor a function
    | .activation => do
      layerInit (extra (params .activation) kw)
      let act ← activationGet (value (params .activation) kw "activation")
      refuse (act = .none) .typeError
      return ("activation", act) :: batchShape (extra (params .activation) kw)

end Verif.Keras.Args
