import Verif.Keras.Depthwise
import Mathlib.Analysis.Real.Sqrt

/-!
# Setting the weights of layers and models

`set_weights` of `Layer` (engine/base_layer.py), `DepthwiseConv2D` (layers/convolutional.py),
`BatchNormalization` (layers/normalization.py) and `Sequential` (models/sequential.py), with the lists
and variables they change. Lists are Python objects: a list that is handed in can be the list of another
layer, and `set_weights` writes to it. Arithmetic is exact. All weights are scaled, so that the
assertions about the scaling hold.
-/

namespace Verif.Keras

open Verif.Tensor

/-- What can be in a list of weights: a numpy array, a private or public tensor, a private or public
variable (by its address). -/
inductive Obj
  | arr (t : Ten ℝ)
  | priv (t : Ten ℝ)
  | pub (t : Ten ℝ)
  | pvar (a : ℕ)
  | uvar (a : ℕ)

/-- The exceptions. `shape` is raised by TensorFlow for shapes that do not fit. -/
inductive WErr
  | index
  | assertion
  | attribute
  | type
  | value
  | shape
  deriving DecidableEq, Repr

/-- The contents of the variables and of the lists. -/
structure Heap where
  vars : ℕ → Ten ℝ
  lists : ℕ → List Obj

def Heap.setVar (h : Heap) (a : ℕ) (t : Ten ℝ) : Heap := { h with vars := Function.update h.vars a t }
def Heap.setList (h : Heap) (a : ℕ) (l : List Obj) : Heap := { h with lists := Function.update h.lists a l }

/-- The three versions of `set_weights`. `BatchNormalization` also has the variables `moving_variance`
and `denom` and the number `epsilon`. -/
inductive Kind
  | plain
  | depthwise (cfg : ConvCfg) (m c : ℕ)
  | norm (variance denom : ℕ) (ε : ℝ)

/-- Whether the weights are public variables (normalization.py 159-178; base_layer.py 111-119). -/
def Kind.isPublic : Kind → Bool
  | .norm _ _ _ => true
  | _ => false

/-- A layer: its kind, and the address of the list `self.weights` (base_layer.py 68). -/
structure WLayer where
  kind : Kind
  weights : ℕ

/-- `tfe.define_private_variable(weight).read_value()` and its public counterpart: the two loops of
`set_weights` on one entry of a list that begins with a numpy array (base_layer.py 134-139). A private
value cannot be made public. -/
def defined (isPublic : Bool) (h : Heap) : Obj → Except WErr Obj
  | .arr t => .ok (if isPublic then .pub t else .priv t)
  | .pub t => .ok (if isPublic then .pub t else .priv t)
  | .uvar a => .ok (if isPublic then .pub (h.vars a) else .priv (h.vars a))
  | .priv t => if isPublic then .error .type else .ok (.priv t)
  | .pvar a => if isPublic then .error .type else .ok (.priv (h.vars a))

/-- `read_value()`: only variables have it. -/
def readValue (h : Heap) : Obj → Except WErr Obj
  | .pvar a => .ok (.priv (h.vars a))
  | .uvar a => .ok (.pub (h.vars a))
  | _ => .error .attribute

/-- `for index, weight in enumerate(weights): weights[index] = f(weight)`: the entries before one for
which `f` raises are replaced. -/
def replaceAll (f : Obj → Except WErr Obj) : List Obj → List Obj × Option WErr
  | [] => ([], none)
  | o :: r =>
      match f o with
      | .error e => (o :: r, some e)
      | .ok o' => (o' :: (replaceAll f r).1, (replaceAll f r).2)

/-- The beginning of `set_weights`, which replaces the entries of the list it is given
(base_layer.py 131-139, convolutional.py 611-622, normalization.py 227-234). -/
def convert (isPublic : Bool) (h : Heap) (ws : List Obj) : List Obj × Option WErr :=
  match ws with
  | [] => ([], some .index)
  | .arr t :: r => replaceAll (defined isPublic h) (.arr t :: r)
  | .pvar a :: r => if isPublic then (.pvar a :: r, some .assertion) else replaceAll (readValue h) (.pvar a :: r)
  | .uvar a :: r => if isPublic then replaceAll (readValue h) (.uvar a :: r) else (.uvar a :: r, some .assertion)
  | .priv t :: r => (.priv t :: r, if isPublic then some .assertion else none)
  | .pub t :: r => (.pub t :: r, if isPublic then none else some .assertion)

/-- The shape of an entry. -/
def Obj.shape (h : Heap) : Obj → List ℕ
  | .arr t | .priv t | .pub t => t.shape
  | .pvar a | .uvar a => (h.vars a).shape

/-- What is put into the `i`-th weight, of shape `s`, for the given tensor: it is reshaped; the kernel of
`DepthwiseConv2D` is rearranged (base_layer.py 142, convolutional.py 625-632, normalization.py 237). -/
def Kind.place (kind : Kind) (i : ℕ) (s : List ℕ) (t : Ten ℝ) : Option (Ten ℝ) :=
  match kind, i with
  | .depthwise cfg m c, 0 => rearrange cfg m c t
  | _, _ => Tensor.reshape t s

/-- `place` on an entry of the list. Variables are tensors, too. -/
def Kind.placeObj (kind : Kind) (h : Heap) (i : ℕ) (s : List ℕ) (o : Obj) : Except WErr Obj :=
  let f (mk : Ten ℝ → Obj) (t : Ten ℝ) : Except WErr Obj :=
    match kind.place i s t with
    | some v => .ok (mk v)
    | none => .error .shape
  match kind, i, o with
  | .depthwise _ _ _, 0, .pub _ => .error .value
  | .depthwise _ _ _, 0, .uvar _ => .error .value
  | _, _, .arr t => f .arr t
  | _, _, .priv t => f .priv t
  | _, _, .pub t => f .pub t
  | _, _, .pvar a => f .priv (h.vars a)
  | _, _, .uvar a => f .pub (h.vars a)

/-- `tfe.assign` (pond.py 844-888, aby3.py 1118-1171). -/
def assignObj (h : Heap) : Obj → Obj → Except WErr Heap
  | .pvar a, .priv t => if (h.vars a).shape = t.shape then .ok (h.setVar a t) else .error .shape
  | .uvar a, .pub t => if (h.vars a).shape = t.shape then .ok (h.setVar a t) else .error .shape
  | .pvar _, _ => .error .assertion
  | .uvar _, _ => .error .assertion
  | _, _ => .error .type

/-- `for i, w in enumerate(self.weights)` (base_layer.py 140-142). -/
def assignAll (kind : Kind) : Heap → ℕ → List Obj → List Obj → Heap × Option WErr
  | h, _, [], _ => (h, none)
  | h, i, w :: ws, src =>
      match src[i]? with
      | none => (h, some .index)
      | some o =>
          match kind.placeObj h i (w.shape h) o with
          | .error e => (h, some e)
          | .ok v =>
              match assignObj h w v with
              | .error e => (h, some e)
              | .ok h' => assignAll kind h' (i + 1) ws src

/-- `reciprocal(sqrt(moving_variance + epsilon))`. -/
noncomputable def normDenom (ε : ℝ) (v : Ten ℝ) : Ten ℝ := ⟨v.shape, fun idx => 1 / Real.sqrt (v.get idx + ε)⟩

/-- The end of `set_weights`: `BatchNormalization` renews the denominator (normalization.py 239-246). -/
noncomputable def Kind.finish (kind : Kind) (h : Heap) : Heap :=
  match kind with
  | .plain => h
  | .depthwise _ _ _ => h
  | .norm v d ε => h.setVar d (normDenom ε (h.vars v))

/-- The list at an address, if there is one, is replaced. -/
def Heap.back (h : Heap) (a : Option ℕ) (l : List Obj) : Heap :=
  match a with
  | some a => h.setList a l
  | none => h

/-- `layer.set_weights(src)`. `back` is the address of the list, if someone else has it. -/
noncomputable def WLayer.set (l : WLayer) (h : Heap) (src : List Obj) (back : Option ℕ) : Heap × Option WErr :=
  let c := convert l.kind.isPublic h src
  let h1 := h.back back c.1
  match c.2 with
  | some e => (h1, some e)
  | none =>
      let r := assignAll l.kind h1 0 (h1.lists l.weights) c.1
      match r.2 with
      | some e => (r.1, some e)
      | none => (l.kind.finish r.1, none)

/-- `if len(weight) == 0: continue` (sequential.py 161-164). -/
noncomputable def WLayer.setIf (l : WLayer) (h : Heap) (src : List Obj) (back : Option ℕ) : Heap × Option WErr :=
  if src.isEmpty then (h, none) else l.set h src back

/-- `Sequential.set_weights` with a flat list (sequential.py 154-164). The slices are new lists; the
lengths of the layers' lists do not change while they are set. -/
noncomputable def setSlices : Heap → List WLayer → List Obj → Heap × Option WErr
  | h, [], _ => (h, none)
  | h, l :: m, ws =>
      let r := l.setIf h (ws.take (h.lists l.weights).length) none
      match r.2 with
      | some e => (r.1, some e)
      | none => setSlices r.1 m (ws.drop (h.lists l.weights).length)

/-- `Sequential.set_weights` with a list of lists (sequential.py 160-164). -/
noncomputable def setLists : Heap → List WLayer → List ℕ → Heap × Option WErr
  | h, _, [] => (h, none)
  | h, [], a :: r => if (h.lists a).isEmpty then setLists h [] r else (h, some .index)
  | h, l :: m, a :: r =>
      let s := l.setIf h (h.lists a) (some a)
      match s.2 with
      | some e => (s.1, some e)
      | none => setLists s.1 m r

/-- The argument of `Sequential.set_weights`. -/
inductive Given
  | flat (ws : List Obj)
  | nested (ls : List ℕ)

/-- `Sequential.set_weights` (sequential.py 146-164): looks at the first entry to tell the two forms
apart. -/
noncomputable def setWeights (m : List WLayer) (h : Heap) : Given → Heap × Option WErr
  | .flat [] => (h, some .index)
  | .nested [] => (h, some .index)
  | .flat ws => setSlices h m ws
  | .nested ls => setLists h m ls

/-- `model.weights` (sequential.py 94): the layers' own lists. -/
def modelWeights (m : List WLayer) : Given := .nested (m.map (·.weights))

/-- `optimizer.apply_gradients(W, G)` (optimizers.py 35-44, 96-116, 168-191) as far as the weights go:
each is read and assigned; `f i` is what the optimizer makes of the `i`-th. -/
def applyAll (f : ℕ → Ten ℝ → Ten ℝ) : Heap → ℕ → List Obj → Heap × Option WErr
  | h, _, [] => (h, none)
  | h, i, w :: ws =>
      match readValue h w with
      | .error e => (h, some e)
      | .ok v =>
          let v' := match v with
            | .priv t => Obj.priv (f i t)
            | .pub t => Obj.priv (f i t)
            | o => o
          match assignObj h w v' with
          | .error e => (h, some e)
          | .ok h' => applyAll f h' (i + 1) ws

end Verif.Keras
