import Mathlib.Data.Nat.Notation
import Mathlib.Data.List.Nodup

/-!
# Cloning Keras models

Models `clone_model`, `model_from_config` and `_instantiate_tfe_layer` of
`tf_encrypted/keras/models/sequential.py`, with `Sequential.add` and `set_weights` as far as they
decide between success and exception and which layer gets which weights.

What single layers compute is a parameter (`Lang`); for the layers of the library that is the
subject of C65-C67, C71, C75 and C76. Layers with several inputs are left out: the library has
none, so a model with one is refused.
-/

namespace Verif.Keras

/-- Exceptions. -/
inductive CloneErr
  /-- `RuntimeError`: no such layer, or an exception of the constructor (an option that is not
  implemented) -/
  | unsupported
  /-- `AttributeError`: the first layer has no `_batch_input_shape` -/
  | attribute
  /-- `NotImplementedError`: the batch size is not known -/
  | notImplemented
  /-- `IndexError`: `weights[0]` of an empty list, or `weights[i]` out of range -/
  | index
  deriving DecidableEq, Repr

/-- Layers and what they compute. -/
structure Lang where
  /-- class name and `get_config()` of a layer -/
  Cfg : Type
  X : Type
  W : Type
  /-- `tfe_layer_cls(**config)` (sequential.py 224-251): the number of weights of the layer, or
  `none` for an exception -/
  accepts : Cfg → Option ℕ
  /-- `batch_input_shape[0]` in the configuration: absent, `None`, or a number -/
  batch : Cfg → Option (Option ℕ)
  /-- what the layer computes in Keras -/
  keras : Cfg → List W → X → X
  /-- what the layer of the library computes -/
  tfe : Cfg → List W → X → X

variable (Λ : Lang)

/-- A layer of a Keras model: its name, its configuration (`none` for an `InputLayer`), the calls
made of it (`inbound_nodes`: the layer and call the input came from) and its weights. -/
structure KLayer where
  name : ℕ
  cfg : Option Λ.Cfg
  calls : List (ℕ × ℕ)
  weights : List Λ.W

/-- A Keras model with one input: its layers in the order of `get_config()["layers"]`, and the calls
whose results are its outputs. A `keras.Sequential` is a chain. -/
structure KModel where
  layers : List (KLayer Λ)
  outputs : List (ℕ × ℕ)

variable {Λ}

/-- `model.get_weights()`. -/
def KModel.weights (m : KModel Λ) : List Λ.W := m.layers.flatMap (·.weights)

/-- The configurations that are not those of an `InputLayer` (sequential.py 195-199). -/
def KModel.cfgs (m : KModel Λ) : List Λ.Cfg := m.layers.filterMap (·.cfg)

/-- `add` of the first layer (sequential.py 47-70, input_layer.py 29-80). -/
def addFirst (c : Λ.Cfg) : Except CloneErr Unit :=
  match Λ.batch c with
  | none => .error .attribute
  | some none => .error .notImplemented
  | some (some _) => .ok ()

/-- `model_from_config` (sequential.py 182-201): the layers with the numbers of their weights. -/
def fromConfig : List Λ.Cfg → Bool → Except CloneErr (List (Λ.Cfg × ℕ))
  | [], _ => .ok []
  | c :: cs, first =>
    match Λ.accepts c with
    | none => .error .unsupported
    | some n =>
      (if first then addFirst c else .ok ()).bind fun _ =>
        (fromConfig cs false).map fun l => (c, n) :: l

/-- `set_weights` of a flat list (sequential.py 144-164; base_layer.py 122-143): each layer takes as
many as it has; a layer for which some but not enough are left raises, surplus is ignored. -/
def distribute {A : Type} : List (A × ℕ) → List Λ.W → Except CloneErr (List (A × Option (List Λ.W)))
  | [], _ => .ok []
  | (c, n) :: l, ws =>
    if (ws.take n).length = 0 then (distribute l (ws.drop n)).map fun r => (c, none) :: r
    else if (ws.take n).length < n then .error .index
    else (distribute l (ws.drop n)).map fun r => (c, some (ws.take n)) :: r

/-- `clone_model` (sequential.py 204-221): the layers with the weights set in them (`none`: the
initial ones). -/
def clone (m : KModel Λ) : Except CloneErr (List (Λ.Cfg × Option (List Λ.W))) :=
  (fromConfig m.cfgs true).bind fun l =>
    if m.weights = [] then .error .index else distribute l m.weights

/-- `Sequential.call` (sequential.py 92-112); `init` are initial weights. -/
def runClone (init : Λ.Cfg → List Λ.W) : List (Λ.Cfg × Option (List Λ.W)) → Λ.X → Λ.X
  | [], x => x
  | (c, ws) :: l, x => runClone init l (Λ.tfe c (ws.getD (init c)) x)

end Verif.Keras
