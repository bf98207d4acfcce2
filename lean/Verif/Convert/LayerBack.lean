import Verif.Convert.StructBack
import Verif.Convert.Nodes
import Verif.Keras.Layers

/-!
# Backward passes of the nodes that wrap a layer

`tf_encrypted/convert/nodes.py`: `MatmulNode`, `GemmNode`, `Conv2dNode`, `BatchnormalizationNode`, `AvgpoolNode`,
`GlobalAvgpoolNode`, `GlobalMaxPoolNode`, `ReluNode`, `SigmoidNode`, `SoftmaxNode` and `MaxPoolNode`. Each calls `self.layer.backward`. The layers are built
without `lazy_normalization`, so nothing is divided by the batch size. A backward pass returns the gradients of
the layer's weights and of the input. What a layer has stored during `forward` is computed here from the input.
-/

namespace Verif.Convert

open Verif.Tensor Verif.Keras
open Verif.Aby3 (logistic)

/-- An exception of a layer, as an exception of the node. -/
def ofLayer {β : Type} : Except LayerErr β → Except NErr β
  | .ok b => .ok b
  | .error .notImplemented => .error .notImplemented
  | .error .typeError => .error .type
  | .error .assertion => .error .assertion
  | .error .shape => .error .shape

/-! ## Matrix products -/

/-- `forward` of `MatmulNode` and `GemmNode` (nodes.py 211-212, 249-254) with the weights of the layer. -/
noncomputable def denseForward (flip : Bool) (k : Ten ℝ) (b : Option (Ten ℝ)) (xs : List (Ten ℝ)) :
    Except NErr (List (Ten ℝ)) := do
  let x ← argAt xs 0
  let x ← flipIf flip x
  let y ← denseCall k b x
  .ok [y]

/-- The gradient of the bias, if there is one (dense.py 137-138). -/
def biasGrads (bias : Bool) (d : Ten ℝ) : Except NErr (List (Ten ℝ)) :=
  if bias then (sumBatch d).map fun b => [b] else .ok []

/-- `Dense.backward` without activation (dense.py 126-144). -/
noncomputable def denseBackward (k : Ten ℝ) (bias : Bool) (x d : Ten ℝ) : Except NErr (List (Ten ℝ) × Ten ℝ) := do
  let kt ← flipIf true k
  let dx ← orShape (Tensor.matmul d kt)
  let xt ← flipIf true x
  let dk ← orShape (Tensor.matmul xt d)
  let db ← biasGrads bias d
  .ok (dk :: db, dx)

/-- `backward` of `MatmulNode` and `GemmNode` (nodes.py 214-216, 256-260). -/
noncomputable def denseBack (flip : Bool) (k : Ten ℝ) (bias : Bool) (x : Ten ℝ) (dys : List (Ten ℝ)) :
    Except NErr (List (Ten ℝ) × List (Ten ℝ)) := do
  let d ← argAt dys 0
  let x ← flipIf flip x
  let r ← denseBackward k bias x d
  let dx ← flipIf flip r.2
  .ok (r.1, [dx])

/-! ## Convolution -/

/-- `forward` of `Conv2dNode` (nodes.py 324-336) with the weights of the layer. -/
noncomputable def convNodeForward (cfg : ConvCfg) (p : Option Pads) (k : Ten ℝ) (b : Option (Ten ℝ)) (xs : List (Ten ℝ)) :
    Except NErr (List (Ten ℝ)) := do
  let x ← argAt xs 0
  let x ← padImage p x
  let y ← orShape (convForward cfg x k b)
  .ok [y]

/-- The slice `[:, :, padding[2] : h - padding[0], padding[1] : w - padding[3]]` (nodes.py 341-348). -/
def cutImage (p : Option Pads) (t : Ten ℝ) : Ten ℝ :=
  match p with
  | none => t
  | some p => crop t p.p2 p.p0 p.p1 p.p3

/-- `backward` of `Conv2dNode` with groups (nodes.py 338-340): `DepthwiseConv2D.backward` raises (convolutional.py 566-567). -/
def depthNodeBack (_x : Ten ℝ) (dys : List (Ten ℝ)) : Except NErr (List (Ten ℝ) × List (Ten ℝ)) := do
  let _ ← argAt dys 0
  .error .notImplemented

/-- `backward` of `Conv2dNode` without groups (nodes.py 338-349). -/
noncomputable def convNodeBack (cfg : ConvCfg) (p : Option Pads) (k : Ten ℝ) (bias : Bool) (x : Ten ℝ) (dys : List (Ten ℝ)) :
    Except NErr (List (Ten ℝ) × List (Ten ℝ)) := do
  let d ← argAt dys 0
  let x ← padImage p x
  let r ← ofLayer (convBackward cfg false x k d)
  .ok (r.1 :: (if bias then [r.2.1] else []), [cutImage p r.2.2])

/-! ## Pooling -/

/-- `backward` of `AvgpoolNode` (nodes.py 416-418). -/
noncomputable def avgBack (cfg : PoolCfg) (x : Ten ℝ) (dys : List (Ten ℝ)) : Except NErr (List (Ten ℝ) × List (Ten ℝ)) := do
  let d ← argAt dys 0
  let dx ← orShape (avgBackward cfg x d)
  .ok ([], [dx])

/-- `backward` of `MaxPoolNode` (nodes.py 551-553). The indices are those that `forward` has stored. -/
noncomputable def maxBack (cfg : PoolCfg) (x : Ten ℝ) (dys : List (Ten ℝ)) : Except NErr (List (Ten ℝ) × List (Ten ℝ)) := do
  let d ← argAt dys 0
  let y ← orShape (maxForward cfg x)
  let dx ← orShape (maxBackward cfg x y.2 d)
  .ok ([], [dx])

/-- `tfe.tile`. -/
def tile (t : Ten ℝ) (m : List ℕ) : Option (Ten ℝ) :=
  if m.length = t.shape.length then
    some ⟨List.zipWith (· * ·) t.shape m, fun i => t.get (List.zipWith (fun q d => q % d) i t.shape)⟩
  else none

/-- Two dimensions of size 1 at positions 2 and 3, unless they are there already (pooling.py 378-379). -/
def spread (keep : Bool) (t : Ten ℝ) : Option (Ten ℝ) :=
  if keep then some t
  else if 2 ≤ t.shape.length then
    some ⟨(t.shape.insertIdx 2 1).insertIdx 3 1, fun i => t.get ((i.eraseIdx 3).eraseIdx 2)⟩
  else none

/-- `GlobalAveragePooling2D.backward` (pooling.py 371-387). -/
noncomputable def globalAvgBackward (last keep : Bool) (scalar : ℝ) (x d : Ten ℝ) : Option (Ten ℝ) := do
  let d ← spread keep (scale d scalar)
  let r ← tile d [1, 1, x.shape.getD (if last then 1 else 2) 0, x.shape.getD (if last then 2 else 3) 0]
  if last then Tensor.transpose r [0, 2, 3, 1] else some r

/-- `backward` of `GlobalAvgpoolNode` (nodes.py 456-458). -/
noncomputable def globalAvgBack (last keep : Bool) (scalar : ℝ) (x : Ten ℝ) (dys : List (Ten ℝ)) :
    Except NErr (List (Ten ℝ) × List (Ten ℝ)) := do
  let d ← argAt dys 0
  let dx ← orShape (globalAvgBackward last keep scalar x d)
  .ok ([], [dx])

/-- `tfe.expand_dims(t, axis=2)`. -/
def expand2 (t : Ten ℝ) : Option (Ten ℝ) :=
  if 2 ≤ t.shape.length then some ⟨t.shape.insertIdx 2 1, fun i => t.get (i.eraseIdx 2)⟩ else none

/-- The indicator of the largest entry in the last of three axes, the second result of `reduce_max_with_argmax` (pooling.py 427). -/
noncomputable def largestAt (y : Ten ℝ) (m : ℕ) : Ten ℝ :=
  ⟨y.shape, fun i => if i.getD 2 0 = lastArg (fun q => y.get (i.take 2 ++ [q])) (m - 1) then 1 else 0⟩

/-- The part of `GlobalMaxPooling2D.backward` (pooling.py 432-449) after the channels of the input were moved to the
front; the indicator is computed by `call` (424-427). -/
noncomputable def globalMaxRest (last : Bool) (d x : Ten ℝ) : Option (Ten ℝ) :=
  match x.shape with
  | [n, c, h, w] =>
      if h * w = 0 then none else do
        let y ← Tensor.reshape x [n, c, h * w]
        let d ← expand2 d
        let t ← tile d [1, 1, h * w]
        let g ← (bcastOp (fun a b => a * b) t (largestAt y (h * w))).toOption
        let z ← Tensor.reshape g [n, c, h, w]
        if last then Tensor.transpose z [0, 2, 3, 1] else some z
  | _ => none

/-- `GlobalMaxPooling2D.backward` (pooling.py 432-449). -/
noncomputable def globalMaxBackward (last : Bool) (x d : Ten ℝ) : Option (Ten ℝ) :=
  (if last then Tensor.transpose x [0, 3, 1, 2] else some x).bind (globalMaxRest last d)

/-- `backward` of `GlobalMaxPoolNode` (nodes.py 591-593). -/
noncomputable def globalMaxBack (last : Bool) (x : Ten ℝ) (dys : List (Ten ℝ)) : Except NErr (List (Ten ℝ) × List (Ten ℝ)) := do
  let d ← argAt dys 0
  let dx ← orShape (globalMaxBackward last x d)
  .ok ([], [dx])

/-! ## Activations -/

/-- `backward` of `ReluNode` (nodes.py 478-480, relu.py 43-48): `select(x > 0, 0, d_y)`. -/
noncomputable def reluBack (x : Ten ℝ) (dys : List (Ten ℝ)) : Except NErr (List (Ten ℝ) × List (Ten ℝ)) := do
  let d ← argAt dys 0
  let dx ← orShape (bcastOp (fun x d => if x > 0 then d else 0) x d).toOption
  .ok ([], [dx])

/-- `SigmoidNode` (nodes.py 484-499). -/
noncomputable def sigmoidNode (ins : List Inp) : Except NErr Built := mapNode logistic ins

/-- `backward` of `SigmoidNode` (nodes.py 500-502, activation.py 34-41, activations.py 20-22): `d_y * y * (1 - y)`. -/
noncomputable def sigmoidBack (x : Ten ℝ) (dys : List (Ten ℝ)) : Except NErr (List (Ten ℝ) × List (Ten ℝ)) := do
  let d ← argAt dys 0
  let dx ← orShape (bcastOp (fun x d => d * logistic x * (-logistic x + 1)) x d).toOption
  .ok ([], [dx])

/-- `backward` of `SoftmaxNode` (nodes.py 522-524): there is no derivative (activations.py 59-83). -/
def softmaxBack (_x : Ten ℝ) (_dys : List (Ten ℝ)) : Except NErr (List (Ten ℝ) × List (Ten ℝ)) := .error .notImplemented

/-- `backward` of `BatchnormalizationNode` (nodes.py 387-389, normalization.py 212-213). -/
def normNodeBack (_x : Ten ℝ) (_dys : List (Ten ℝ)) : Except NErr (List (Ten ℝ) × List (Ten ℝ)) := .error .notImplemented

/-! ## As functions of the weights -/

/-- `forward` of a node with a kernel, maybe a bias, and one input, as a function of all of them. -/
def ofWeights (f : Ten ℝ → Option (Ten ℝ) → List (Ten ℝ) → Except NErr (List (Ten ℝ))) (bias : Bool) :
    List (Ten ℝ) → Except NErr (List (Ten ℝ))
  | K :: B :: [X] => if bias then f K (some B) [X] else .error .index
  | [K, X] => if bias then .error .index else f K none [X]
  | _ => .error .index

end Verif.Convert
