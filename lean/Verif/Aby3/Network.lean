import Verif.Aby3.Average
import Verif.Aby3.Compare
import Mathlib.Logic.Equiv.Fin.Basic

/-!
# Private prediction with feed-forward networks (ABY3)

A `Sequential` model whose layers are `Dense` or `Conv2D`, with `relu` or no activation, `MaxPooling2D`
or `AveragePooling2D` (`keras/layers/dense.py` 75-115, `keras/layers/convolutional.py`,
`keras/activations.py`, `keras/layers/pooling.py`), applied to a batch of private inputs with private weights. A batch of `p` samples with `k` features is a tensor with
`p * k` elements in row-major order.

Simplifications: a linear layer is given by the list of the products (input element, weight element)
that are summed for each output element of a sample; `denseTaps` is this list for
`matmul(inputs, kernel)`. A pooling layer is given by the elements in each window. The three steps of a layer (product, bias, activation) are three entries of
the network.
-/

namespace Verif.Aby3

open Verif

variable {w p k l m q : ℕ}

/-- The layers of a model, from `k` features to `l` features. -/
inductive Arch : ℕ → ℕ → Type
  /-- no layer left -/
  | nil {k : ℕ} : Arch k k
  /-- the linear part of a layer (`tfe.matmul(inputs, kernel)`, dense.py:81-86, or `tfe.conv2d`) with
  `q` weights: output element `j` is the sum of `x[t] * weight[s]` over the pairs `(t, s)` in
  `taps j` -/
  | lin {k m q l : ℕ} (taps : Fin m → List (Fin k × Fin q)) (rest : Arch m l) : Arch k l
  /-- `+ self.bias` (dense.py:83) with `q` biases; element `j` gets the bias `r j` -/
  | bias {k q l : ℕ} (r : Fin k → Fin q) (rest : Arch k l) : Arch k l
  /-- `activation="relu"` (activations.py: `tfe.relu`) -/
  | relu {k l : ℕ} (rest : Arch k l) : Arch k l
  /-- `MaxPooling2D` (pooling.py:142-158): element `j` is the maximum over the `s + 1` positions `t` of
  the window; `win t j` is the input at this position, `none` if it lies in the padding -/
  | maxpool {k m s l : ℕ} (win : Fin (s + 1) → Fin m → Option (Fin k)) (rest : Arch m l) : Arch k l
  /-- `AveragePooling2D` (pooling.py:57-69): element `j` is `scalar` times the sum over the elements
  `win j` of the window -/
  | avgpool {k m l : ℕ} (scalar : ℚ) (win : Fin m → List (Fin k)) (rest : Arch m l) : Arch k l

/-- The weights of a model; a tensor with `q` elements is a `τ q`. -/
def Arch.Params (τ : ℕ → Type) {k l : ℕ} : Arch k l → Type
  | .nil => Unit
  | .lin (q := q) _ rest => τ q × rest.Params τ
  | .bias (q := q) _ rest => τ q × rest.Params τ
  | .relu rest => rest.Params τ
  | .maxpool _ rest => rest.Params τ
  | .avgpool _ _ rest => rest.Params τ

/-- Weights as words of `w` bits. -/
abbrev Words (w : ℕ) (q : ℕ) : Type := T (.arith w q)

/-- Weights as private tensors. -/
abbrev Secrets (w : ℕ) (q : ℕ) : Type := Shares (T (.arith w q))

/-- The products of `matmul(inputs, kernel)` for a kernel of shape `[k, m]`. -/
def denseTaps (k m : ℕ) (j : Fin m) : List (Fin k × Fin (k * m)) :=
  (List.finRange k).map fun t => (t, finProdFinEquiv (t, j))

/-- A `Dense` layer (dense.py:75-97) followed by `rest`. -/
def Arch.dense (k m : ℕ) (useBias activation : Bool) (rest : Arch m l) : Arch k l :=
  .lin (denseTaps k m) <|
    (fun r => if useBias then .bias (id : Fin m → Fin m) r else r) <|
      if activation then .relu rest else rest

/-- The local product of a linear layer for a batch of `p` samples. -/
def linT (p : ℕ) (taps : Fin m → List (Fin k × Fin q)) (x : T (.arith w (p * k)))
    (v : T (.arith w q)) : T (.arith w (p * m)) := fun i =>
  ((taps (finProdFinEquiv.symm i).2).map fun ts =>
    (x (finProdFinEquiv ((finProdFinEquiv.symm i).1, ts.1)) * v ts.2 : BitVec w)).sum

/-- The linear part of a layer: `_matmul_private_private` (aby3.py:2619-2670) or
`_conv2d_private_private` (aby3.py:4964-4991). The zero sharing has the shape of the result. -/
def linS (frac : ℕ) (plan : Option (BitVec w × BitVec w)) (taps : Fin m → List (Fin k × Fin q))
    (x : Shares (T (.arith w (p * k)))) (v : Secrets w q) : M (Shares (T (.arith w (p * m)))) := do
  let z ← Aby3.bilin (zs := .arith w (p * m)) (linT p taps) (spreadA id) x v
  mulRound frac plan z

/-- The broadcast of the biases over the batch. -/
def biasT (p : ℕ) (r : Fin k → Fin q) (b : T (.arith w q)) : T (.arith w (p * k)) := fun i =>
  b (r (finProdFinEquiv.symm i).2)

/-- `x + bias` (`_add_private_private`, aby3.py:2189-2216). -/
def biasS (r : Fin k → Fin q) (x : Shares (T (.arith w (p * k)))) (b : Secrets w q) :
    Shares (T (.arith w (p * k))) :=
  Shares.map₂ (· + ·) x (b.map (biasT p r))

/-- `relu` of a private tensor (aby3.py:4240-4256): see `relu_run`. -/
def reluS {n : ℕ} (x : Shares (T (.arith w n))) : M (Shares (T (.arith w n))) := do
  let c ← msb (pubSub (fun _ => (0 : T (.arith w n))) x)
  selectA c (.pub fun _ => (0 : T (.arith w n))) (.priv x)

/-- One position of all windows: a slice of `im2patches` along the axis of the patches; the padding is
zero. -/
def sliceT (p : ℕ) (win : Fin m → Option (Fin k)) (x : T (.arith w (p * k))) : T (.arith w (p * m)) :=
  fun i => match win (finProdFinEquiv.symm i).2 with
    | some t => x (finProdFinEquiv ((finProdFinEquiv.symm i).1, t))
    | none => 0

/-- `maxpool2d_with_argmax` (aby3.py:5285-5308) without the index, which only `backward` uses. The index
tensor has one element for every position of every window. -/
def maxpoolS {s : ℕ} (win : Fin (s + 1) → Fin m → Option (Fin k)) (x : Shares (T (.arith w (p * k)))) :
    M (Shares (T (.arith w (p * m)))) := do
  let r ← argmaxOnehot (m := (s + 1) * (p * m)) (fun i => (finProdFinEquiv.symm i).2)
    (fun i => (finProdFinEquiv.symm i).1) (List.ofFn fun t : Fin (s + 1) => x.map (sliceT p (win t)))
    (by rw [List.ofFn_succ]; exact List.cons_ne_nil _ _)
  return r.1

/-- The sums over the windows (`im2col` and `reduce_sum`, aby3.py:5347-5348). -/
def sumT (p : ℕ) (win : Fin m → List (Fin k)) (x : T (.arith w (p * k))) : T (.arith w (p * m)) := fun i =>
  ((win (finProdFinEquiv.symm i).2).map fun t => (x (finProdFinEquiv ((finProdFinEquiv.symm i).1, t)) : BitVec w)).sum

/-- `avgpool2d` (aby3.py:5333-5352). -/
def avgpoolS (frac : ℕ) (plan : DivPlan w) (win : Fin m → List (Fin k)) (x : Shares (T (.arith w (p * k)))) :
    M (Shares (T (.arith w (p * m)))) := divRun frac plan (x.map (sumT p win))

/-- The constants that the layers need: for the truncation after a product, for the product with a
number. -/
def Arch.Plan (w : ℕ) {k l : ℕ} : Arch k l → Type
  | .nil => Unit
  | .lin _ rest => Option (BitVec w × BitVec w) × rest.Plan w
  | .bias _ rest => rest.Plan w
  | .relu rest => rest.Plan w
  | .maxpool _ rest => rest.Plan w
  | .avgpool _ _ rest => DivPlan w × rest.Plan w

/-- The call of the model on a batch of private inputs (`Sequential.call`,
keras/models/sequential.py). -/
def Arch.run (frac : ℕ) {k l : ℕ} :
    (a : Arch k l) → a.Plan w → a.Params (Secrets w) → Shares (T (.arith w (p * k))) →
      M (Shares (T (.arith w (p * l))))
  | .nil, _, _, x => return x
  | .lin taps rest, plan, θ, x => do
    let y ← linS frac plan.1 taps x θ.1
    rest.run frac plan.2 θ.2 y
  | .bias r rest, plan, θ, x => rest.run frac plan θ.2 (biasS r x θ.1)
  | .relu rest, plan, θ, x => do
    let y ← reluS x
    rest.run frac plan θ y
  | .maxpool win rest, plan, θ, x => do
    let y ← maxpoolS win x
    rest.run frac plan θ y
  | .avgpool _ win rest, plan, θ, x => do
    let y ← avgpoolS frac plan.1 win x
    rest.run frac plan.2 θ y

/-- The owner of the model shares the weights (`define_private_variable`, aby3.py). -/
def Arch.shareParams {k l : ℕ} : (a : Arch k l) → a.Params (Words w) → M (a.Params (Secrets w))
  | .nil, _ => return ()
  | .lin _ rest, θ => do
    let v ← share θ.1
    let r ← rest.shareParams θ.2
    return (v, r)
  | .bias _ rest, θ => do
    let v ← share θ.1
    let r ← rest.shareParams θ.2
    return (v, r)
  | .relu rest, θ => rest.shareParams θ
  | .maxpool _ rest, θ => rest.shareParams θ
  | .avgpool _ _ rest, θ => rest.shareParams θ

/-- The products of scaled tensors are truncated; `prot.truncate` raises for too many fractional bits
(aby3.py:2673-2691). -/
def Arch.plan (w frac : ℕ) {k l : ℕ} : (a : Arch k l) → Except Err (a.Plan w)
  | .nil => .ok ()
  | .lin _ rest =>
    match mulPlan w frac true true, rest.plan w frac with
    | .error e, _ => .error e
    | .ok _, .error e => .error e
    | .ok p, .ok r => .ok (p, r)
  | .bias _ rest => rest.plan w frac
  | .relu rest => rest.plan w frac
  | .maxpool _ rest => rest.plan w frac
  | .avgpool c _ rest =>
    match numPlan w frac c, rest.plan w frac with
    | .error e, _ => .error e
    | .ok _, .error e => .error e
    | .ok p, .ok r => .ok (p, r)

/-- A private prediction: the owner of the model shares the weights, the owner of the data shares the
inputs, the servers run the model. -/
def predict (frac : ℕ) (a : Arch k l) (θ : a.Params (Words w)) (x : T (.arith w (p * k))) :
    Except Err (M (Shares (T (.arith w (p * l))))) :=
  match a.plan w frac with
  | .error e => .error e
  | .ok plan => .ok do
    let v ← a.shareParams θ
    let X ← share x
    a.run frac plan v X

/-- The encoding of the weights (`_encode`, aby3.py). -/
def Arch.encode (w frac : ℕ) {k l : ℕ} :
    (a : Arch k l) → a.Params (fun q => Fin q → ℚ) → a.Params (Words w)
  | .nil, _ => ()
  | .lin _ rest, θ => (fun i => constWord w frac (θ.1 i), rest.encode w frac θ.2)
  | .bias _ rest, θ => (fun i => constWord w frac (θ.1 i), rest.encode w frac θ.2)
  | .relu rest, θ => rest.encode w frac θ
  | .maxpool _ rest, θ => rest.encode w frac θ
  | .avgpool _ _ rest, θ => rest.encode w frac θ

/-- The encoding of a batch of inputs. -/
def encodeBatch (w frac : ℕ) (x : Fin p → Fin k → ℚ) : T (.arith w (p * k)) := fun i =>
  constWord w frac (x (finProdFinEquiv.symm i).1 (finProdFinEquiv.symm i).2)

end Verif.Aby3
