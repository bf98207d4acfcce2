import Mathlib.Analysis.SpecialFunctions.Log.Deriv
import Mathlib.Analysis.SpecialFunctions.Trigonometric.DerivHyp
import Mathlib.Analysis.SpecialFunctions.ExpDeriv
import Mathlib.Analysis.Calculus.Deriv.Inv
import Mathlib.Logic.Equiv.Fin.Basic
import Verif.Aby3.SigmoidReal

/-!
# Keras layers, losses and the backward pass

`tf_encrypted/keras/layers/{dense,relu,activation,flatten,reshape,pooling}.py`, `activations.py`,
`losses.py` and `models/sequential.py`, in exact real arithmetic: what private arithmetic makes of the
operations is the subject of other areas. A tensor is a real function on a finite index type; a batch of
`n` samples has the index type `Fin n × …`. Reshaping keeps the row-major order.
-/

namespace Verif.Keras

open Verif.Aby3 (logistic)

/-- The exceptions that layers raise. -/
inductive LayerErr
  | notImplemented
  | typeError
  | assertion
  /-- a TensorFlow operation that rejects the shapes of its arguments -/
  | shape
  deriving DecidableEq, Repr

/-! ## Activations -/

/-- What can be given as `activation`: `None`, one of the names, or a function. -/
inductive Act
  | none
  | linear
  | relu
  | sigmoid
  | tanh
  | softmax
  | fn (f : ℝ → ℝ)

/-- `activations.get(identifier)` applied to a batch (activations.py:5-59). -/
noncomputable def Act.apply {n : ℕ} {κ : Type} [Fintype κ] (a : Act) (x : Fin n × κ → ℝ) : Fin n × κ → ℝ :=
  match a with
  | .none | .linear => x
  | .relu => fun i => max (x i) 0
  | .sigmoid => fun i => logistic (x i)
  | .tanh => fun i => Real.tanh (x i)
  | .softmax => fun i => Real.exp (x i) / ∑ k, Real.exp (x (i.1, k))
  | .fn f => fun i => f (x i)

/-- `activations.get_deriv(identifier)` applied to the output of the activation and the gradient
(activations.py:10-87). `select(c, a, b)` is `b` where `c` holds. For `None` the function found is
`linear`, which takes one argument and is given two. -/
noncomputable def Act.deriv {κ : Type} (a : Act) (y d : κ → ℝ) : Except LayerErr (κ → ℝ) :=
  match a with
  | .none => .error .typeError
  | .fn _ => .error .notImplemented
  | .tanh | .softmax => .error .notImplemented
  | .linear => .ok d
  | .relu => .ok fun i => if y i ≤ 0 then 0 else d i
  | .sigmoid => .ok fun i => d i * y i * (-y i + 1)

/-! ## Layers -/

/-- A layer from tensors with index type `ι` to tensors with index type `κ`. `W` indexes its weights.
`backward` is given the flag `lazy_normalization`, the weights, the stored input and the gradient by the
output; the stored output is
`call` of the stored input. `trainable` is the constructor's argument. -/
structure Layer (ι κ : Type) where
  W : Type
  [fintype : Fintype W]
  trainable : Bool := true
  call : (W → ℝ) → (ι → ℝ) → κ → ℝ
  backward : Bool → (W → ℝ) → (ι → ℝ) → (κ → ℝ) → Except LayerErr ((W → ℝ) × (ι → ℝ))

attribute [instance] Layer.fintype

section
variable {n : ℕ} {δ κ : Type} [Fintype δ] [Fintype κ]

/-- `tfe.matmul(inputs, kernel) + bias` (dense.py:105-110). The bias is there if `use_bias`. -/
def affine (bias : Bool) (w : δ × κ ⊕ {_j : κ // bias = true} → ℝ) (x : Fin n × δ → ℝ) : Fin n × κ → ℝ :=
  fun i => (∑ j, x (i.1, j) * w (.inl (j, i.2))) + if h : bias = true then w (.inr ⟨i.2, h⟩) else 0

/-- The gradients of `affine` (dense.py:131-142), divided by the size of the batch if
`lazy_normalization` is set. -/
noncomputable def affineBack (bias lazy : Bool) (w : δ × κ ⊕ {_j : κ // bias = true} → ℝ) (x : Fin n × δ → ℝ)
    (d : Fin n × κ → ℝ) : (δ × κ ⊕ {_j : κ // bias = true} → ℝ) × (Fin n × δ → ℝ) :=
  (fun i => match i with
    | .inl (j, k) => (∑ b, x (b, j) * d (b, k)) / if lazy then (n : ℝ) else 1
    | .inr ⟨k, _⟩ => (∑ b, d (b, k)) / if lazy then (n : ℝ) else 1,
   fun i => ∑ k, d (i.1, k) * w (.inl (i.2, k)))

/-- `Dense` (dense.py:101-144). -/
noncomputable def dense (n : ℕ) (δ κ : Type) [Fintype δ] [Fintype κ] (act : Act) (bias : Bool)
    (trainable : Bool := true) : Layer (Fin n × δ) (Fin n × κ) where
  W := δ × κ ⊕ {_j : κ // bias = true}
  fintype := inferInstance
  trainable := trainable
  call w x :=
    match act with
    | .none => affine bias w x
    | a => a.apply (affine bias w x)
  backward lazy w x d :=
    match act with
    | .none => .ok (affineBack bias lazy w x d)
    | a => (a.deriv (a.apply (affine bias w x)) d).map (affineBack bias lazy w x)

/-- `ReLU` (relu.py:37-48): `select(x > 0, 0, x)`, and the same selection of the gradient. -/
noncomputable def reluLayer (ι : Type) : Layer ι ι where
  W := Empty
  call _ x := fun i => if x i > 0 then x i else 0
  backward _ _ x d := .ok (fun i => i.elim, fun i => if x i > 0 then d i else 0)

/-- `Activation` (activation.py:27-41). -/
noncomputable def activation (n : ℕ) (κ : Type) [Fintype κ] (act : Act) : Layer (Fin n × κ) (Fin n × κ) where
  W := Empty
  call _ x := act.apply x
  backward _ _ x d := (act.deriv (act.apply x) d).map fun d => (fun i => i.elim, d)

end

/-- `Flatten` of channels-last data (flatten.py:31-58): `s` positions with `c` channels each. -/
def flattenLast (n s c : ℕ) : Layer (Fin n × Fin s × Fin c) (Fin n × Fin (s * c)) where
  W := Empty
  call _ x := fun i => x (i.1, finProdFinEquiv.symm i.2)
  backward _ _ _ d := .ok (fun i => i.elim, fun i => d (i.1, finProdFinEquiv i.2))

/-- `Flatten` of channels-first data: the channels are moved to the end (flatten.py:36-40) and then the
data is reshaped. `backward` only reshapes (line 57). -/
def flattenFirst (n c s : ℕ) : Layer (Fin n × Fin c × Fin s) (Fin n × Fin (s * c)) where
  W := Empty
  call _ x := fun i => x (i.1, (finProdFinEquiv.symm i.2).swap)
  backward _ _ _ d := .ok (fun i => i.elim, fun i => d (i.1, Fin.cast (Nat.mul_comm c s) (finProdFinEquiv i.2)))

/-- `Reshape` (reshape.py:90-97): the row-major order of the entries stays as it is. -/
def reshape {ι κ : Type} {size : ℕ} (e : ι ≃ Fin size) (f : κ ≃ Fin size) : Layer ι κ where
  W := Empty
  call _ x := fun i => x (e.symm (f i))
  backward _ _ _ d := .ok (fun i => i.elim, fun i => d (f.symm (e i)))

/-- `GlobalAveragePooling2D` without `keepdims` (pooling.py:350-387), both data formats; `place` puts a
sample, a position and a channel where the format has them. -/
noncomputable def globalAverage {ι : Type} (n h w c : ℕ) (place : ι ≃ Fin n × (Fin h × Fin w) × Fin c) :
    Layer ι (Fin n × Fin c) where
  W := Empty
  call _ x := fun i => (∑ p, ∑ q, x (place.symm (i.1, (p, q), i.2))) * (1 / ((h * w : ℕ) : ℝ))
  backward _ _ _ d := .ok (fun i => i.elim, fun i => d ((place i).1, (place i).2.2) * (1 / ((h * w : ℕ) : ℝ)))

/-- The shape that `GlobalAveragePooling2D.backward` returns (pooling.py:371-387): `expand_dims` at 2 and
at 3 unless `keepdims`, `tile` by `[1, 1, h, w]`, and for channels-last data `transpose` by
`[0, 2, 3, 1]`. -/
def gapBackShape (last keepdims : Bool) (h w : ℕ) (dy : List ℕ) : List ℕ :=
  let e := if keepdims then dy else (dy.insertIdx 2 1).insertIdx 3 1
  let t := List.zipWith (· * ·) [1, 1, h, w] e
  if last then [t.getD 0 0, t.getD 2 0, t.getD 3 0, t.getD 1 0] else t

/-! ## Models -/

/-- A stack of layers (sequential.py:14-94). -/
inductive Seq : Type → Type → Type 1
  | nil {ι : Type} : Seq ι ι
  | cons {ι κ μ : Type} (hκ : Fintype κ) (l : Layer ι κ) (rest : Seq κ μ) : Seq ι μ

/-- The weights of all layers. -/
def Seq.W {ι μ : Type} : Seq ι μ → Type
  | .nil => Empty
  | .cons _ l rest => l.W ⊕ rest.W

instance Seq.fintypeW {ι μ : Type} : (m : Seq ι μ) → Fintype m.W
  | .nil => @Fintype.ofIsEmpty Empty _
  | .cons _ l rest => @instFintypeSum l.W rest.W l.fintype rest.fintypeW

/-- `Sequential.call` (sequential.py:96-117). -/
def Seq.call {ι μ : Type} : (m : Seq ι μ) → (m.W → ℝ) → (ι → ℝ) → μ → ℝ
  | .nil, _, x => x
  | .cons _ l rest, w, x => rest.call (fun i => w (.inr i)) (l.call (fun i => w (.inl i)) x)

/-- `Sequential.backward` (sequential.py:129-134), from the last layer to the first: the optimizer is
applied to each layer's weights as soon as its gradients are known. `apply` is
`optimizer.apply_gradients`; the layers are all made with the same flag `lazy`. -/
def Seq.backward {ι μ : Type} (apply : ℝ → ℝ → ℝ) (lazy : Bool) :
    (m : Seq ι μ) → (m.W → ℝ) → (ι → ℝ) → (μ → ℝ) → Except LayerErr ((m.W → ℝ) × (ι → ℝ))
  | .nil, w, _, d => .ok (w, d)
  | .cons _ l rest, w, x, d =>
    match rest.backward apply lazy (fun i => w (.inr i)) (l.call (fun i => w (.inl i)) x) d with
    | .error e => .error e
    | .ok (wr, d) =>
      match l.backward lazy (fun i => w (.inl i)) x d with
      | .error e => .error e
      | .ok (g, d) => .ok (Sum.elim (fun i => apply (w (.inl i)) (g i)) wr, d)

/-! ## Losses -/

section
variable {n : ℕ} {κ : Type} [Fintype κ]

/-- `mean_squared_error` (losses.py:88-94): one number per output. -/
noncomputable def mse (y p : Fin n × κ → ℝ) : κ → ℝ := fun k => (∑ b, (y (b, k) - p (b, k)) ^ 2) * (1 / (n : ℝ))

/-- `MeanSquaredError.grad` (losses.py:82-85). -/
noncomputable def mseGrad (y p : Fin n × κ → ℝ) : Fin n × κ → ℝ := fun i => 2 * (p i - y i) * (1 / (n : ℝ))

/-- `binary_crossentropy` (losses.py:61-68). -/
noncomputable def bce (y p : Fin n × κ → ℝ) : κ → ℝ := fun k =>
  (∑ b, -(y (b, k) * Real.log (p (b, k)) + (1 - y (b, k)) * Real.log (1 - p (b, k)))) * (1 / (n : ℝ))

/-- `binary_crossentropy_from_logits` (losses.py:71-73). -/
noncomputable def bceLogits (y p : Fin n × κ → ℝ) : κ → ℝ := bce y (Act.sigmoid.apply p)

/-- `BinaryCrossentropy.grad` (losses.py:50-58). -/
noncomputable def bceGrad (fromLogits lazy : Bool) (y p : Fin n × κ → ℝ) : Fin n × κ → ℝ :=
  let q := if fromLogits then Act.sigmoid.apply p else p
  fun i => if lazy then q i - y i else (q i - y i) * (1 / (n : ℝ))

/-- `categorical_crossentropy` (losses.py:127-132). -/
noncomputable def cce (y p : Fin n × κ → ℝ) : ℝ := (∑ i, -y i * Real.log (p i)) * (1 / (n : ℝ))

/-- `categorical_crossentropy_from_logits` (losses.py:135-137). -/
noncomputable def cceLogits (y p : Fin n × κ → ℝ) : ℝ := cce y (Act.softmax.apply p)

/-- `CategoricalCrossentropy.grad` (losses.py:112-124). -/
noncomputable def cceGrad (fromLogits lazy : Bool) (y p : Fin n × κ → ℝ) : Fin n × κ → ℝ :=
  let q := if fromLogits then Act.softmax.apply p else p
  fun i => if lazy then q i - y i else (q i - y i) * (1 / (n : ℝ))

end

/-- `fit_batch` with plain gradient descent (base_model.py:53-66, optimizers.py:35-44 with no momentum): forward, gradient of
the loss, backward with an update of every layer. -/
noncomputable def Seq.fitBatch {ι μ : Type} (m : Seq ι μ) (lossGrad : (μ → ℝ) → μ → ℝ) (lazy : Bool) (rate : ℝ) (w : m.W → ℝ)
    (x : ι → ℝ) : Except LayerErr (m.W → ℝ) :=
  (m.backward (fun w g => w - g * rate) lazy w x (lossGrad (m.call w x))).map Prod.fst

end Verif.Keras
