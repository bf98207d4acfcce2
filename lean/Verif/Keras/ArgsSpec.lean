import Verif.Keras.Args

/-!
# C92: what the arguments of a layer ask for

The parameters and defaults of the layers of TensorFlow, and how TensorFlow reads their values.
-/

namespace Verif.Keras.Args

/-- The parameters of the layers of TensorFlow, with their defaults. Left out: `momentum` and `fused` of
`BatchNormalization`, which matter for training only (here `backward` raises), and `name`. -/
def documented (k : Kind) : List (String × Option Arg) :=
  (match k with
  | .dense => [("units", none), ("activation", some .none), ("use_bias", some (.bool true)),
      ("kernel_initializer", some (.str "glorot_uniform")), ("bias_initializer", some (.str "zeros")),
      ("kernel_regularizer", some .none), ("bias_regularizer", some .none),
      ("kernel_constraint", some .none), ("bias_constraint", some .none)]
  | .conv2d => [("filters", none), ("kernel_size", none), ("strides", some (.tup [some 1, some 1])),
      ("padding", some (.str "valid")), ("data_format", some .none), ("dilation_rate", some (.tup [some 1, some 1])),
      ("groups", some (.num 1)), ("activation", some .none), ("use_bias", some (.bool true)),
      ("kernel_initializer", some (.str "glorot_uniform")), ("bias_initializer", some (.str "zeros")),
      ("kernel_regularizer", some .none), ("bias_regularizer", some .none),
      ("kernel_constraint", some .none), ("bias_constraint", some .none)]
  | .depthwise => [("kernel_size", none), ("strides", some (.tup [some 1, some 1])), ("padding", some (.str "valid")),
      ("depth_multiplier", some (.num 1)), ("data_format", some .none), ("dilation_rate", some (.tup [some 1, some 1])),
      ("activation", some .none), ("use_bias", some (.bool true)),
      ("depthwise_initializer", some (.str "glorot_uniform")),
      ("bias_initializer", some (.str "zeros")), ("depthwise_regularizer", some .none),
      ("bias_regularizer", some .none), ("depthwise_constraint", some .none), ("bias_constraint", some .none)]
  | .batchnorm => [("axis", some (.num (-1))), ("epsilon", some (.num (1 / 1000))),
      ("center", some (.bool true)), ("scale", some (.bool true)), ("beta_initializer", some (.str "zeros")),
      ("gamma_initializer", some (.str "ones")), ("moving_mean_initializer", some (.str "zeros")),
      ("moving_variance_initializer", some (.str "ones")), ("beta_regularizer", some .none),
      ("gamma_regularizer", some .none), ("beta_constraint", some .none), ("gamma_constraint", some .none)]
  | .maxpool | .avgpool => [("pool_size", some (.tup [some 2, some 2])), ("strides", some .none),
      ("padding", some (.str "valid")), ("data_format", some .none)]
  | .globalpool => [("data_format", some .none), ("keepdims", some (.bool false))]
  | .flatten => [("data_format", some .none)]
  | .reshape => [("target_shape", none)]
  | .relu => [("max_value", some .none), ("negative_slope", some (.num 0)), ("threshold", some (.num 0))]
  | .activation => [("activation", none)]) ++
  -- the base class
  [("trainable", some (.bool true)), ("activity_regularizer", some .none), ("weights", some .none),
    ("dtype", some .none), ("batch_input_shape", some .none)]

/-- The axis of a tensor of rank four. -/
def axisOf4 : Arg → Arg
  | .num q => if q < 0 then .num (q + 4) else .num q
  | a => a.norm

/-- An activation: none is the linear one. -/
def activationOf : Arg → Except Err Arg
  | .none => .ok (.str "linear")
  | .obj n => .ok (.obj n)
  | .str s => .ok (.str s)
  | _ => .error .typeError

/-- The shape of a batch: `input_shape` is the shape of a sample. -/
def batchOf (kw : Kwargs) : Arg :=
  match kw.lookup "batch_input_shape", kw.lookup "input_shape", kw.lookup "batch_size" with
  | some a, _, _ => a
  | none, some (.tup l), some (.num q) => .tup (some q :: l)
  | none, some (.tup l), _ => .tup (none :: l)
  | none, some (.list l), some (.num q) => .tup (some q :: l)
  | none, some (.list l), _ => .tup (none :: l)
  | none, some a, _ => a
  | none, none, _ => .none

/-- A height and a width: one number stands for both; `True` and `False` are the numbers 1 and 0. -/
def sides : Arg → List (Option ℚ)
  | .num q => [some q, some q]
  | .bool b => [some (if b then 1 else 0), some (if b then 1 else 0)]
  | .tup l => l
  | .list l => l
  | _ => []

/-- Both have to be given, the height first. -/
def heightWidth (a : Arg) : Except Err Arg :=
  match sides a with
  | [some height, some width] => .ok (.tup [some height, some width])
  | _ => .error .valueError

/-- What the arguments ask for, one documented parameter at a time; `g` is the data format set for the
Keras backend. -/
def asked (k : Kind) (g : String) (kw : Kwargs) (name : String) : Except Err Arg :=
  let v := value (documented k) kw
  if name ∈ ["kernel_size", "dilation_rate", "pool_size"] then heightWidth (v name)
  else if name = "strides" then heightWidth (if v name = .none then v "pool_size" else v name)
  else if name = "padding" then padding (v name)
  else if name = "data_format" then format g (v name)
  else if name = "activation" then activationOf (v name)
  else if name = "units" then toInt (v name)
  else if name = "target_shape" then toTuple (v name)
  else if name = "axis" then .ok (axisOf4 (firstAxis (v name)))
  else if name = "batch_input_shape" then .ok (batchOf kw)
  else .ok (v name)

/-- What a layer does that has no attribute for a parameter: its weights are trained, its convolution is
not dilated and has one group, the rectifier is the plain one, and nothing is regularized, constrained or
set. -/
def without : String → Arg
  | "trainable" => .bool true
  | "dilation_rate" => .tup [some 1, some 1]
  | "groups" => .num 1
  | "negative_slope" => .num 0
  | "threshold" => .num 0
  | _ => .none

/-- The value of a parameter according to which a layer with the given attributes works. -/
def acts (made : Kwargs) (name : String) : Arg := (made.lookup name).getD (without name)

end Verif.Keras.Args
