/-!
# Names of layers

`tf_encrypted/keras/engine/base_layer_utils.py`: `unique_object_name` (36-80);
`tf_encrypted/keras/engine/base_layer.py`: `_init_set_name` (148-155);
`tf_encrypted/keras/engine/input_layer.py`: `InputLayer.__init__` (28-80);
`tf_encrypted/keras/models/base_model.py`: `BaseModel.__init__` (27-28).

The counters belong to one graph (`_get_default_graph_uid_map`, base_layer_utils.py:27-33); everything
here happens in one graph.
-/

namespace Verif.Keras.Names

/-- `(namespace, name)`, the key of a counter (base_layer_utils.py:69). -/
abbrev Key := String × String

/-- The counters, a `defaultdict(int)` (base_layer_utils.py:31). -/
abbrev Uids := Key → Nat

/-- `name_uid_map[name_key] += 1`. -/
def bump (u : Uids) (k : Key) : Uids := fun k' => if k' = k then u k + 1 else u k'

/-- `name + "_" + str(number)`. -/
def numbered (name : String) (n : Nat) : String := name ++ "_" ++ toString n

/-- One pass of the loop (base_layer_utils.py:69-79). -/
def propose (zero : Bool) (k : Key) (u : Uids) : String × Uids :=
  if zero then
    let number := u k
    (if number ≠ 0 then numbered k.2 number else k.2, bump u k)
  else
    let u' := bump u k
    (numbered k.2 (u' k), u')

/-- The loop (base_layer_utils.py:67-79), at most as many passes as given. -/
def search (zero : Bool) (avoid : List String) (k : Key) : Nat → Uids → Option (String × Uids)
  | 0, _ => none
  | fuel + 1, u =>
    let r := propose zero k u
    if r.1 ∈ avoid then search zero avoid k fuel r.2 else some r

/-- `unique_object_name(name, avoid_names=avoid, namespace=namespace, zero_based=zero)`
(base_layer_utils.py:36-80). That the loop ends after so many passes is `search_returns`. -/
def uniqueName (zero : Bool) (avoid : List String) (k : Key) (u : Uids) : Option (String × Uids) :=
  search zero avoid k (avoid.length + 1) u

/-- The classes of layers. -/
inductive LayerClass
  | activation | conv2d | depthwiseConv2d | dense | flatten | batchNormalization | maxPooling2d
  | averagePooling2d | globalAveragePooling2d | globalMaxPooling2d | relu | reshape | inputLayer
  | sequential
  /-- a class of the user, with the name in snake case -/
  | user (snake : String)
deriving DecidableEq

/-- `generic_utils.to_snake_case(self.__class__.__name__)` (base_layer.py:151); the function is part of
TensorFlow, its values for the classes of the library are written out. -/
def LayerClass.snake : LayerClass → String
  | .activation => "activation"
  | .conv2d => "conv2d"
  | .depthwiseConv2d => "depthwise_conv2d"
  | .dense => "dense"
  | .flatten => "flatten"
  | .batchNormalization => "batch_normalization"
  | .maxPooling2d => "max_pooling2d"
  | .averagePooling2d => "average_pooling2d"
  | .globalAveragePooling2d => "global_average_pooling2d"
  | .globalMaxPooling2d => "global_max_pooling2d"
  | .relu => "re_lu"
  | .reshape => "reshape"
  | .inputLayer => "input_layer"
  | .sequential => "sequential"
  | .user s => s

/-- `_init_set_name(name)` (base_layer.py:148-155): `None` and the empty string are replaced. -/
def initName (c : LayerClass) (name : Option String) (u : Uids) : Option (String × Uids) :=
  match name with
  | none => uniqueName true [] ("", c.snake) u
  | some s => if s = "" then uniqueName true [] ("", c.snake) u else some (s, u)

/-- Does the constructor hand its argument `name` to `Layer.__init__`? `InputLayer` leaves it out
(input_layer.py:65). `BaseModel` gives it in the position of `trainable` (base_model.py:28, base_layer.py:34),
and with it `Sequential` (sequential.py:17). All others pass it on among the keyword arguments. -/
def LayerClass.passesName : LayerClass → Bool
  | .inputLayer => false
  | .sequential => false
  | _ => true

/-- The name of a new layer, created with the given name or without one. -/
def create (c : LayerClass) (name : Option String) (u : Uids) : Option (String × Uids) :=
  if c.passesName then initName c name u else initName c none u

/-- The names of layers created one after the other. -/
def createAll : List (LayerClass × Option String) → Uids → Option (List String)
  | [], _ => some []
  | (c, name) :: rest, u =>
    match create c name u with
    | none => none
    | some (s, u') =>
      match createAll rest u' with
      | none => none
      | some l => some (s :: l)

/-- The results of calls of `unique_object_name`, with the same counting from zero or one. -/
def callAll (zero : Bool) : List (Key × List String) → Uids → Option (List String)
  | [], _ => some []
  | (k, avoid) :: rest, u =>
    match uniqueName zero avoid k u with
    | none => none
    | some (s, u') =>
      match callAll zero rest u' with
      | none => none
      | some l => some (s :: l)

end Verif.Keras.Names
