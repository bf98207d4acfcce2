import Verif.Aby3.Average
import Verif.Aby3.Sigmoid
import Mathlib.Logic.Equiv.Fin.Basic

/-!
# Private training of a logistic regression (ABY3)

`examples/models/logistic_regression.py`: one `Dense(1, lazy_normalization=True)` layer with a bias, trained
by `fit` (`keras/models/base_model.py` 51-67, `keras/models/sequential.py` 125-130) with
`BinaryCrossentropy(from_logits=True, lazy_normalization=True)` (`keras/losses.py` 33-58) and
`SGD(learning_rate, momentum)` (`keras/optimizers.py` 8-42). A batch has `p` samples with `k` features; data,
labels and weights are private.

Simplifications: the kernel of shape `[k, 1]` is a vector; the loss that `fit_batch` reveals at the end is not
computed here; a product that is written twice is computed once, as `memoize` has it
(`protocol/protocol.py` 94-122); the exceptions of all steps are raised at the beginning.
-/

namespace Verif.Aby3

open Verif

variable {w p k m a b n : ℕ}

/-- A tensor of sums of products: element `j` is the sum of `x[s] * y[t]` over the pairs `(s, t)` in
`taps j`. -/
def tapT (taps : Fin m → List (Fin a × Fin b)) (x : T (.arith w a)) (y : T (.arith w b)) : T (.arith w m) :=
  fun j => ((taps j).map fun st => (x st.1 * y st.2 : BitVec w)).sum

/-- `_matmul_private_private` (aby3.py:2619-2670), with the products as in `tapT`. -/
def tapS (frac : ℕ) (plan : Option (BitVec w × BitVec w)) (taps : Fin m → List (Fin a × Fin b))
    (x : Shares (T (.arith w a))) (y : Shares (T (.arith w b))) : M (Shares (T (.arith w m))) := do
  let z ← Aby3.bilin (zs := .arith w m) (tapT taps) (spreadA id) x y
  mulRound frac plan z

/-- `matmul(x, kernel)` with `x` of shape `[p, k]` and `kernel` of shape `[k, 1]`. -/
def fwdTaps (p k : ℕ) (i : Fin p) : List (Fin (p * k) × Fin k) :=
  (List.finRange k).map fun t => (finProdFinEquiv (i, t), t)

/-- `matmul(d_y, kernel.transpose())` with `d_y` of shape `[p, 1]`. -/
def outTaps (p k : ℕ) (j : Fin (p * k)) : List (Fin p × Fin k) :=
  [((finProdFinEquiv.symm j).1, (finProdFinEquiv.symm j).2)]

/-- `matmul(x.transpose(), d_y)`. -/
def bwdTaps (p k : ℕ) (t : Fin k) : List (Fin (p * k) × Fin p) :=
  (List.finRange p).map fun i => (finProdFinEquiv (i, t), i)

/-- The bias of shape `[1]`, broadcast over the batch. -/
def spreadBias (p : ℕ) (v : T (.arith w 1)) : T (.arith w p) := fun _ => v 0

/-- `d_y.reduce_sum(axis=0)`. -/
def sumBatch (d : T (.arith w p)) : T (.arith w 1) := fun _ => ((List.finRange p).map fun i => (d i : BitVec w)).sum

/-- The private variables of the model and of the optimizer. -/
structure LogReg (w k : ℕ) where
  /-- the kernel -/
  kernel : Shares (T (.arith w k))
  /-- the bias -/
  bias : Shares (T (.arith w 1))
  /-- what `SGD` keeps for the kernel -/
  vKernel : Shares (T (.arith w k))
  /-- what `SGD` keeps for the bias -/
  vBias : Shares (T (.arith w 1))

/-- The constants that the steps need. -/
structure TrainPlan (w : ℕ) where
  /-- truncation after a product -/
  mul : Option (BitVec w × BitVec w)
  /-- division by the size of the batch -/
  div : DivPlan w
  /-- product with the momentum -/
  mom : DivPlan w
  /-- product with the learning rate -/
  rate : DivPlan w

/-- `SGD.apply_gradients` for one weight (optimizers.py:33-42): the new weight and the new `V`. -/
def sgd (frac : ℕ) (mom rate : DivPlan w) (W V G : Shares (T (.arith w n))) :
    M (Shares (T (.arith w n)) × Shares (T (.arith w n))) := do
  let diff ← divRun frac mom V
  let g ← divRun frac rate G
  let v := Shares.map₂ (· + ·) diff g
  return (Shares.map₂ (· - ·) W v, v)

/-- `fit_batch` (base_model.py:51-67) up to the loss: `Dense.call` (dense.py:98-117),
`BinaryCrossentropy.grad` (losses.py:49-58), `Dense.backward` (dense.py:119-145) and the update. -/
def fitBatch (frac : ℕ) (pc : Pieces) (plan : TrainPlan w) (X : Shares (T (.arith w (p * k))))
    (Y : Shares (T (.arith w p))) (s : LogReg w k) : M (Except Err (LogReg w k)) := do
  let z ← tapS frac plan.mul (fwdTaps p k) X s.kernel
  let z := Shares.map₂ (· + ·) z (s.bias.map (spreadBias p))
  match sigmoid frac z pc with
  | .error e => return .error e
  | .ok f => do
    let y ← f
    let d := Shares.map₂ (· - ·) y Y
    let _ ← tapS frac plan.mul (outTaps p k) d s.kernel
    let g ← tapS frac plan.mul (bwdTaps p k) X d
    let g ← divRun frac plan.div g
    let h ← divRun frac plan.div (d.map sumBatch)
    let (W, VW) ← sgd frac plan.mom plan.rate s.kernel s.vKernel g
    let (B, VB) ← sgd frac plan.mom plan.rate s.bias s.vBias h
    return .ok ⟨W, B, VW, VB⟩

/-- A batch of samples with their labels. -/
abbrev Batch (w p k : ℕ) : Type := T (.arith w (p * k)) × T (.arith w p)

/-- `fit` (base_model.py:76-125) over a list of batches, each shared by its owner. -/
def fitAll (frac : ℕ) (pc : Pieces) (plan : TrainPlan w) :
    List (Batch w p k) → LogReg w k → M (Except Err (LogReg w k))
  | [], s => return .ok s
  | d :: ds, s => do
    let X ← share d.1
    let Y ← share d.2
    let r ← fitBatch frac pc plan X Y s
    match r with
    | .error e => return .error e
    | .ok s' => fitAll frac pc plan ds s'

/-- The plan for batches of `p` samples. -/
def trainPlan (w frac p : ℕ) (lr mom : ℚ) : Except Err (TrainPlan w) :=
  match mulPlan w frac true true, divPlan w frac true (p : ℚ), numPlan w frac mom, numPlan w frac lr with
  | .ok a, .ok b, .ok c, .ok d => .ok ⟨a, b, c, d⟩
  | .error e, _, _, _ => .error e
  | _, .error e, _, _ => .error e
  | _, _, .error e, _ => .error e
  | _, _, _, .error e => .error e

/-- The whole training, from the weights in words; `V` starts with zeros (optimizers.py:23-31). -/
def train (frac : ℕ) (pc : Pieces) (lr mom : ℚ) (batches : List (Batch w p k)) (W : T (.arith w k))
    (B : T (.arith w 1)) : Except Err (M (Except Err (LogReg w k))) :=
  match trainPlan w frac p lr mom with
  | .error e => .error e
  | .ok plan => .ok do
    let W ← share W
    let B ← share B
    let VW ← share 0
    let VB ← share 0
    fitAll frac pc plan batches ⟨W, B, VW, VB⟩

end Verif.Aby3
