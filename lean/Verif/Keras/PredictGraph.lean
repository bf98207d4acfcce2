import Mathlib.Logic.Function.Basic
import Mathlib.Data.List.Basic

/-!
# Prediction with a model that grows

`Sequential.add` and `call` (`tf_encrypted/keras/models/sequential.py`), and the functions that `predict` and
`evaluate` make once and then keep (`tf_encrypted/keras/models/base_model.py`), with `tfe.function`
(`protocol.py`). Observed is which layers a batch goes through; layers are given by numbers and do not raise.
The batches and the flag `reveal` are `Keras/Fit.lean`. The configuration's debug flag stays the same.
-/

namespace Verif.Keras.PredictGraph

/-- A model: its layers, and `self.predict_function` with the graphs it has been traced to. `σ` stands for
what `tf.function` tells apart: the shapes and types of the tensors. `self.test_function` is alike. -/
structure Model (σ : Type) where
  layers : List ℕ := []
  fn : Option (σ → Option (List ℕ)) := none

variable {σ : Type}

/-- The end of `Sequential.add` (sequential.py:86-92), for a layer that is accepted. -/
def Model.add (m : Model σ) (l : ℕ) : Model σ := { m with layers := m.layers ++ [l] }

/-- `Sequential.call` (sequential.py:94-113): the layers in the order in which they are applied. -/
def through : List ℕ → List ℕ
  | [] => []
  | l :: ls => l :: through ls

/-- One batch of `predict` (base_model.py:126-137, 142-146) or `evaluate` (base_model.py:165-170, 174-175,
193) with `tfe.function` (protocol.py:165-193): the layers the batch goes through. -/
def Model.predict (debug : Bool) (dec : DecidableEq σ) (m : Model σ) (s : σ) : Model σ × List ℕ :=
  let traces := m.fn.getD fun _ => none
  let m' := { m with fn := some traces }
  if debug then (m', through m.layers)
  else match traces s with
    | some t => (m', t)
    | none =>
      ({ m' with fn := some (Function.update traces s (some (through m.layers))) }, through m.layers)

/-- A call of the user. -/
inductive Call (σ : Type)
  | add (l : ℕ)
  | predict (s : σ)
deriving DecidableEq

/-- The model after a call. -/
def Model.call (debug : Bool) (dec : DecidableEq σ) (m : Model σ) : Call σ → Model σ
  | .add l => m.add l
  | .predict s => (m.predict debug dec s).1

/-- The model after a history. -/
def Model.calls (debug : Bool) (dec : DecidableEq σ) (m : Model σ) (h : List (Call σ)) : Model σ :=
  h.foldl (fun m c => m.call debug dec c) m

end Verif.Keras.PredictGraph
