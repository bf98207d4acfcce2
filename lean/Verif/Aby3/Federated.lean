import Verif.Aby3.AverageProps

/-!
# Federated learning with secure aggregation (ABY3)

Model of `examples/application/federated-learning/run.py` (lines 14-191): in every round the owner of the
model sends its weights to the owners of the data (`share_weights`, `update_model`), every owner of data
computes a gradient on its own batch and shares it (`compute_gradient`, a local computation), the servers
add the gradients up and divide by their number (`federated_training`), and the owner of the model
decrypts the result and takes a step (`update_func`, a local computation).

The code pairs the gradients of `trainable_variables` (run.py:157) with `model.weights` (run.py:58); they
correspond only for models all of whose weights are trainable, which is assumed here.

Simplifications: the weights are one vector (`add_n` and `/` work entry by entry on each of the weight
tensors), floats are exact rationals, a gradient is any function of the weights; it may differ from round
to round, as the batches do.
-/

namespace Verif.Aby3

open Verif

variable {n : ℕ}

/-- The gradient that one owner of data computes in one round, given the weights (run.py:149-161). -/
abbrev Grad (n : ℕ) : Type := (Fin n → ℚ) → Fin n → ℚ

/-- What the owners of data share: their encoded gradients. -/
def shared (w frac : ℕ) (owners : List (Grad n)) (θ : Fin n → ℚ) : List (T (.arith w n)) :=
  owners.map fun g => fun i => constWord w frac (g θ i)

/-- One call of `federated_training` (run.py:176-191): what the owner of the model receives is decoded,
multiplied by the learning rate and subtracted (run.py:55-64). Without owners `zip` (run.py:183) is empty:
nothing is averaged and no weight is assigned. -/
def fedRound (w frac : ℕ) (lr : ℚ) (owners : List (Grad n)) (θ : Fin n → ℚ) :
    M (Except Err (Fin n → ℚ)) :=
  match owners with
  | [] => return .ok θ
  | g :: gs =>
    match average frac (shared w frac (g :: gs) θ) with
    | .error e => return .error e
    | .ok p => do
      let z ← p
      return .ok fun i => θ i - real frac (reconstruct z none i) * lr

/-- The loop over rounds (run.py:283-286). -/
def fedTrain (w frac : ℕ) (lr : ℚ) : List (List (Grad n)) → (Fin n → ℚ) → M (Except Err (Fin n → ℚ))
  | [], θ => return .ok θ
  | r :: rs, θ => do
    let θ' ← fedRound w frac lr r θ
    match θ' with
    | .error e => return .error e
    | .ok θ' => fedTrain w frac lr rs θ'

/-! ## Specification -/

/-- The average of the gradients of all owners. -/
def meanGrad (owners : List (Grad n)) (θ : Fin n → ℚ) (i : Fin n) : ℚ :=
  (owners.map fun g => g θ i).sum / owners.length

/-- Gradient descent along the average gradient. -/
def descend (lr : ℚ) : List (List (Grad n)) → (Fin n → ℚ) → Fin n → ℚ
  | [], θ => θ
  | r :: rs, θ => descend lr rs fun i => θ i - lr * meanGrad r θ i

/-- Gradient descent where every entry of every average gradient is off by at most `ε`. -/
def Descends (lr ε : ℚ) : List (List (Grad n)) → (Fin n → ℚ) → (Fin n → ℚ) → Prop
  | [], θ, θ' => θ' = θ
  | r :: rs, θ, θ' => ∃ e : Fin n → ℚ, (∀ i, |e i| ≤ ε) ∧
      Descends lr ε rs (fun i => θ i - lr * (meanGrad r θ i + e i)) θ'

/-- The gradients of all owners and rounds are bounded by `G`. -/
def Bounded (G : ℚ) (rounds : List (List (Grad n))) : Prop :=
  ∀ r ∈ rounds, ∀ g ∈ r, ∀ θ i, |g θ i| ≤ G

/-- The gradients change by at most `L` times the largest change of a weight. -/
def Smooth (L : ℚ) (rounds : List (List (Grad n))) : Prop :=
  ∀ r ∈ rounds, ∀ g ∈ r, ∀ θ θ' d, (∀ j, |θ j - θ' j| ≤ d) → ∀ i, |g θ i - g θ' i| ≤ L * d

end Verif.Aby3
