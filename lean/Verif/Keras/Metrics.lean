import Verif.Keras.Fit

/-!
# The metrics of `evaluate`

`evaluate` with its argument `metrics` (`tf_encrypted/keras/models/base_model.py` 172-204). `Keras/Fit.lean` has
the loop over the data. What a metric computes (`tf.keras.metrics`) is a parameter.
-/

namespace Verif.Keras.Metrics

/-- `result[metric] = ...`: a key that is there already keeps its place. -/
def setKey (keys : List String) (m : String) : List String := if m ∈ keys then keys else keys ++ [m]

/-- The loop `for metric in metrics` (base_model.py:180-188): the keys of `result`. -/
def collectKeys (ms : List String) : List String :=
  ms.foldl (fun keys m =>
    let keys := if m = "categorical_accuracy" then setKey keys m else keys
    if m = "binary_accuracy" then setKey keys m else keys) []

/-- `evaluate(x, y, batch_size, steps, metrics)` (base_model.py:172-204): the dictionary it returns, as a
list of pairs with distinct keys. Without metrics the data is not looked at. -/
def evaluateAll {X Y R : Type} (call : List X → List Y) (metric : String → List Y → List Y → R)
    (x : Data X) (y : Data Y) (size steps : Option ℕ) (metrics : Option (List String)) (fuel : ℕ) :
    Option (Except LoopErr (List (String × R))) :=
  match metrics with
  | none => some (.ok [])
  | some ms =>
    evaluate call (fun t p => (collectKeys ms).map fun k => (k, metric k t p)) x y size steps fuel

end Verif.Keras.Metrics
