import Verif.Tensor.Model
import Mathlib.Data.Rat.Init
import Mathlib.Data.List.Basic

/-!
# `Input` and the input of a model

Model of `InputLayer.__init__` and `Input` (keras/engine/input_layer.py 29-80, 83-184), and of the input
that `Sequential.add` makes for the first layer (keras/models/sequential.py 47-60) out of the arguments of
the layer (keras/engine/base_layer.py 34-64). Names are not modelled here (`Keras/Names.lean`). The
result is the array of zeros that is given to `define_private_variable` (C04, C39).
-/

namespace Verif.Keras.InputArgs

open Verif.Tensor

/-- Python exceptions. -/
inductive Err
  | value
  | type
  | index
  | attribute
  | notImplemented
deriving DecidableEq, Repr

/-- A size: an `int` or `None`. -/
abbrev Dim : Type := Option ℤ

/-- A shape argument: `None`, a tuple or list, an `int`, or a `TensorShape`, whose rank may be unknown. -/
inductive ShapeArg
  | none
  | tuple (ds : List Dim)
  | int (n : ℤ)
  | tensor (ds : Option (List Dim))
deriving DecidableEq, Repr

/-- `bool(shape)`; a `TensorShape` is true if its rank is known. -/
def ShapeArg.truthy : ShapeArg → Bool
  | .none => false
  | .tuple ds => !ds.isEmpty
  | .int n => n ≠ 0
  | .tensor ds => ds.isSome

/-- `bool(batch_shape)`. -/
def truthy : Option (List Dim) → Bool
  | none => false
  | some ds => !ds.isEmpty

/-- The first lines of both functions (input_layer.py 39-50, 135-147): batch size and shape out of the
keyword `batch_shape` (`batch_input_shape`), which may be absent or `None`; then other keywords. -/
def batchAndShape (shape : ShapeArg) (batchSize : Dim) (batchShape : Option (Option (List Dim)))
    (other : Bool) : Except Err (Dim × ShapeArg) := do
  let r ← match batchShape with
    | none => Except.ok (batchSize, shape)
    | some b =>
      if shape.truthy && truthy b then Except.error Err.value
      else match b with
        | none => Except.error Err.type
        | some [] => Except.error Err.index
        | some (n :: ds) => Except.ok (n, ShapeArg.tuple ds)
  if other then Except.error Err.value else Except.ok r

/-- The sizes of a shape (input_layer.py 69-77). -/
def sizes : ShapeArg → Except Err (List Dim)
  | .none => .error .value
  | .tuple ds => .ok ds
  | .int n => .ok [some n]
  | .tensor none => .error .value
  | .tensor (some ds) => .ok ds

/-- `np.zeros` (input_layer.py 80): `None` is no size, and neither is a negative number. -/
def zeros (ds : List Dim) : Except Err (Ten ℚ) :=
  if ds.any (·.isNone) then .error .type
  else if ds.any (fun d => d.getD 0 < 0) then .error .value
  else .ok ⟨ds.map fun d => (d.getD 0).toNat, fun _ => 0⟩

/-- `InputLayer(...)` and its attribute `input` (input_layer.py 29-80). -/
def inputLayer (shape : ShapeArg) (batchSize : Dim) (dtype tensor sparse : Bool)
    (batchShape : Option (Option (List Dim))) (other : Bool) : Except Err (Ten ℚ) := do
  let (b, s) ← batchAndShape shape batchSize batchShape other
  if b = none then Except.error Err.notImplemented
  else if tensor || dtype || sparse then Except.error Err.notImplemented
  else do
    let ds ← sizes s
    zeros (b :: ds)

/-- The arguments of `Input`. `dtype`, `sparse`, `tensor` say whether something other than the default is
given, `other` whether there are other keywords; `batchShape` is `none` if the keyword is absent. -/
structure Args where
  shape : ShapeArg := .none
  batchSize : Dim := none
  dtype : Bool := false
  sparse : Bool := false
  tensor : Bool := false
  batchShape : Option (Option (List Dim)) := none
  other : Bool := false

/-- `Input` (input_layer.py 135-184). -/
def input (a : Args) : Except Err (Ten ℚ) := do
  let (b, s) ← batchAndShape a.shape a.batchSize a.batchShape a.other
  if s = .none ∧ a.tensor = false then Except.error Err.value
  else if a.sparse || a.dtype || a.tensor then Except.error Err.notImplemented
  else if truthy (a.batchShape.getD none) then
    inputLayer .none none a.dtype a.tensor a.sparse a.batchShape false
  else inputLayer s b a.dtype a.tensor a.sparse none false

/-- The attribute `_batch_input_shape` (base_layer.py 50-58) of a layer with the keywords `input_shape` and
`batch_input_shape`; `none` if the attribute is missing. -/
def layerShape (inputShape batchInputShape : Option (Option (List Dim))) :
    Option (Option (List Dim)) :=
  match batchInputShape with
  | some s => some s
  | none => inputShape

/-- The input of a model whose first layer has the given keywords (sequential.py 55-58). -/
def firstInput (inputShape batchInputShape : Option (Option (List Dim))) : Except Err (Ten ℚ) :=
  match layerShape inputShape batchInputShape with
  | none => .error .attribute
  | some s => input { batchShape := some s }

end Verif.Keras.InputArgs
