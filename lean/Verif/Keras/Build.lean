import Mathlib.Logic.Function.Basic
import Mathlib.Data.List.Basic
import Mathlib.Data.List.Range

/-!
# Building a layer

`__call__` and `add_weight` (`tf_encrypted/keras/engine/base_layer.py`) and `build` of the layers with weights
(`dense.py` 79-99, `convolutional.py` 144-169 and 465-491, `normalization.py` 155-188 in
`tf_encrypted/keras/layers`): test the input shape; then, weight after weight, call the initializer, make the
variable, append it to `self.weights` and keep it as an attribute (`self.kernel`, `self.bias`, ...).

Variables are numbered in the order in which they are made. The attributes of the `n` weights of a layer are
numbered from 0 to `n - 1`.
-/

namespace Verif.Keras.Build

/-- A layer, and the number of the next variable. -/
structure Layer where
  /-- `self.built` -/
  built : Bool := false
  /-- `self.weights` -/
  weights : List ℕ := []
  /-- `self.kernel`, `self.bias`, ... -/
  attrs : ℕ → Option ℕ := fun _ => none
  /-- the next new variable -/
  next : ℕ := 0

/-- How an execution of `build` goes: it succeeds, it refuses the input shape, or the initializer or the
variable of weight `j` raises. -/
inductive Attempt
  | fine
  | badShape
  | failsAt (j : ℕ)
deriving DecidableEq

/-- `self.attribute = self.add_weight(value)` for attribute `i` (base_layer.py:114-122). -/
def Layer.addWeight (l : Layer) (i : ℕ) : Layer :=
  { l with weights := l.weights ++ [l.next], attrs := Function.update l.attrs i (some l.next)
           next := l.next + 1 }

/-- The weights from number `i` on, `todo` of them; the second part says whether all were made. -/
def create (a : Attempt) : ℕ → ℕ → Layer → Layer × Bool
  | 0, _, l => (l, true)
  | todo + 1, i, l => if a = .failsAt i then (l, false) else create a todo (i + 1) (l.addWeight i)

/-- `build` of a layer with `n` weights (dense.py 79-99 and the like). -/
def Layer.build (n : ℕ) (l : Layer) (a : Attempt) : Layer × Bool :=
  if a = .badShape then (l, false)
  else match create a n 0 l with
    | (l', true) => ({ l' with built := true }, true)
    | (l', false) => (l', false)

/-- `__call__` up to the call of `call` (base_layer.py:94-108). -/
def Layer.call (n : ℕ) (l : Layer) (a : Attempt) : Layer × Bool :=
  if l.built then (l, true)
  else match l.build n a with
    | (l', true) => ({ l' with built := true }, true)
    | (l', false) => (l', false)

/-- The layer after calls, each of which may raise. -/
def Layer.calls (n : ℕ) (l : Layer) (h : List Attempt) : Layer :=
  h.foldl (fun l a => (l.call n a).1) l

end Verif.Keras.Build
