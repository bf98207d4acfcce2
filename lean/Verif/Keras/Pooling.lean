import Verif.Tensor.Patches
import Verif.Keras.Conv

/-!
# Pooling layers: forward and backward pass

`tf_encrypted/keras/layers/pooling.py` (`AveragePooling2D`, `MaxPooling2D`, `GlobalMaxPooling2D`), with
ABY3's `maxpool2d_with_argmax` and the shared `patches2im`. Arithmetic is exact; the operations are
followed step by step, with their shapes. An operation that raises because of the shapes of its arguments
is `none`.
-/

namespace Verif.Keras

open Verif.Tensor

variable {α : Type}

/-- The arguments of the constructors (pooling.py 33-53): size of the pool, strides, padding, format. -/
structure PoolCfg where
  ph : ℕ
  pw : ℕ
  s0 : ℕ
  s1 : ℕ
  pad : Padding
  last : Bool

/-- The data format, for the transpositions to and from channel-first that all layers for images share. -/
def PoolCfg.fmt (cfg : PoolCfg) : ConvCfg := ⟨1, 1, 1, .valid, cfg.last⟩

/-- `strides=None` means the size of the pool (pooling.py 46-47). -/
def PoolCfg.default (ph pw : ℕ) (pad : Padding) (last : Bool) : PoolCfg := ⟨ph, pw, ph, pw, pad, last⟩

/-- Every entry multiplied by a number. -/
def scale [Mul α] (t : Ten α) (a : α) : Ten α := ⟨t.shape, fun idx => t.get idx * a⟩

/-- `tile(expand_dims(d, axis=4), [1, 1, 1, 1, m])` (pooling.py 168, 262). -/
def tile4 (d : Ten α) (m : ℕ) : Ten α := ⟨d.shape ++ [m], fun idx => d.get (idx.take 4)⟩

/-- The product of two tensors of the same shape. -/
def times [Mul α] (a b : Ten α) : Option (Ten α) :=
  if a.shape = b.shape then some ⟨a.shape, fun idx => a.get idx * b.get idx⟩ else none

/-- The second half of both `backward` functions (pooling.py 170-185, 264-279): the gradients of the
window entries, `[batch, channels, h_y, w_y, pool_len]`, are reshaped, reassembled to images by
`patches2im`, reshaped and put into the format of the layer. -/
def poolBack [AddCommMonoid α] (cfg : PoolCfg) (n c ho wo h w : ℕ) (t : Ten α) : Option (Ten α) := do
  let r ← Tensor.reshape t [n * c, ho, wo, cfg.ph * cfg.pw]
  let z ← patches2im r cfg.ph cfg.pw cfg.s0 cfg.s1 (some (h, w)) .nhwc
  let z ← Tensor.reshape z [n, c, h, w]
  cfg.fmt.layout z

/-- The height and width of the stored input (pooling.py 160-163, 255-258). -/
def PoolCfg.imgSize (cfg : PoolCfg) (x : Ten α) : ℕ × ℕ :=
  if cfg.last then (x.shape.getD 1 0, x.shape.getD 2 0) else (x.shape.getD 2 0, x.shape.getD 3 0)

/-! ## Average pooling -/

/-- `AveragePooling2D.call` (pooling.py 233-247) with ABY3's `avgpool2d` (aby3.py 5333-5352). -/
def avgForward [Field α] (cfg : PoolCfg) (x : Ten α) : Option (Ten α) := do
  let x ← cfg.fmt.nchw x
  let z ← avgpoolSums x cfg.ph cfg.pw cfg.s0 cfg.s1 cfg.pad
  cfg.fmt.layout (scale z (1 / ((cfg.ph * cfg.pw : ℕ) : α)))

/-- `AveragePooling2D.backward` (pooling.py 249-281). -/
def avgBackward [Field α] (cfg : PoolCfg) (x d : Ten α) : Option (Ten α) := do
  let len := cfg.ph * cfg.pw
  let d ← cfg.fmt.nchw d
  match d.shape with
  | [n, c, ho, wo] =>
      poolBack cfg n c ho wo (cfg.imgSize x).1 (cfg.imgSize x).2 (scale (tile4 d len) (1 / (len : α)))
  | _ => none

/-! ## Max pooling -/

/-- The index of the last of the largest of `f 0, …, f k`: what `reduce_max_with_argmax` selects (C29,
`argmax_onehot_value`). -/
def lastArg [LT α] [DecidableLT α] (f : ℕ → α) : ℕ → ℕ
  | 0 => 0
  | k + 1 => if f (k + 1) < f (lastArg f k) then lastArg f k else k + 1

/-- The one-hot index along axis 1 of `reduce_max_with_argmax(axis=1)` (aby3.py 5104-5167). -/
def argmax1 [Zero α] [One α] [LT α] [DecidableLT α] (t : Ten α) : Option (Ten α) :=
  match t.shape with
  | [n, k + 1, h, w] => some ⟨[n, k + 1, h, w], fun idx =>
      match idx with
      | [b, q, i, j] => if q = lastArg (fun q => t.get [b, q, i, j]) k then 1 else 0
      | _ => 0⟩
  | _ => none

/-- The second result of `__maxpool2d_with_argmax_computation` (aby3.py 5285-5308); the first is that of
`__maxpool2d_computation`, computed in the same way (`Tensor.maxpool`). -/
def maxpoolArg [Zero α] [One α] [LT α] [DecidableLT α] (x : Ten α) (ph pw s0 s1 : ℕ) (p : Padding) :
    Option (Ten α) :=
  match x.shape with
  | [n, c, h, w] => do
      let ho ← (outSize h ph s0 p).bind dim
      let wo ← (outSize w pw s1 p).bind dim
      let split ← Tensor.reshape x [n * c, 1, h, w]
      let patches ← im2patches split ph pw s0 s1 p .nchw
      let arg ← argmax1 patches
      let arg ← transpose arg [0, 2, 3, 1]
      reshapeInfer arg [n, c, ho, wo]
  | _ => none

/-- The stored indices in the layer's data format (pooling.py 146-150). -/
def PoolCfg.argOut (cfg : PoolCfg) (a : Ten α) : Option (Ten α) :=
  if cfg.last then transpose a [0, 2, 3, 1, 4] else some a

/-- The stored indices channels-first again (pooling.py 158-160). -/
def PoolCfg.argIn (cfg : PoolCfg) (a : Ten α) : Option (Ten α) :=
  if cfg.last then transpose a [0, 3, 1, 2, 4] else some a

/-- `MaxPooling2D.call` (pooling.py 136-152): the output and the stored indices. -/
def maxForward [Zero α] [One α] [LinearOrder α] (cfg : PoolCfg) (x : Ten α) : Option (Ten α × Ten α) := do
  let x ← cfg.fmt.nchw x
  let y ← maxpool x cfg.ph cfg.pw cfg.s0 cfg.s1 cfg.pad
  let a ← maxpoolArg x cfg.ph cfg.pw cfg.s0 cfg.s1 cfg.pad
  let y ← cfg.fmt.layout y
  let a ← cfg.argOut a
  some (y, a)

/-- `MaxPooling2D.backward` (pooling.py 154-187), from the stored input, the stored indices and the
gradient. -/
def maxBackward [Field α] (cfg : PoolCfg) (x arg d : Ten α) : Option (Ten α) := do
  let d ← cfg.fmt.nchw d
  let arg ← cfg.argIn arg
  match arg.shape with
  | [n, c, ho, wo, len] => do
      let t ← times (tile4 d len) arg
      poolBack cfg n c ho wo (cfg.imgSize x).1 (cfg.imgSize x).2 t
  | _ => none

/-- `compute_output_shape` (pooling.py 72-88), for positive output sizes. -/
def poolShape (cfg : PoolCfg) (input : List ℕ) : Option (List ℕ) :=
  match (if cfg.last then (match input with | [n, h, w, c] => [n, c, h, w] | s => s) else input) with
  | [n, c, h, w] =>
      match outSize h cfg.ph cfg.s0 cfg.pad, outSize w cfg.pw cfg.s1 cfg.pad with
      | some ho, some wo =>
          some (if cfg.last then [n, ho.toNat, wo.toNat, c] else [n, c, ho.toNat, wo.toNat])
      | _, _ => none
  | _ => none

/-! ## The layers -/

/-- `AveragePooling2D` on batches of `n` images with `c` channels of size `h × w`. Where `call` raises the
value is 0; the theorems are about arguments for which it does not (`avg_forward`). -/
noncomputable def avgPool (cfg : PoolCfg) (n c h w : ℕ) :
    Layer (Fin n × Fin c × Fin h × Fin w)
      (Fin n × Fin c × Fin (outputs h cfg.ph cfg.s0 cfg.pad) × Fin (outputs w cfg.pw cfg.s1 cfg.pad)) where
  W := Empty
  call _ x := fun i =>
    match avgForward cfg (cfg.fmt.tensor x) with
    | some y => cfg.fmt.entry y i.1 i.2.1 i.2.2.1 i.2.2.2
    | none => 0
  backward _ _ x d :=
    match avgBackward cfg (cfg.fmt.tensor x) (cfg.fmt.tensor d) with
    | some g => .ok (fun i => i.elim, fun i => cfg.fmt.entry g i.1 i.2.1 i.2.2.1 i.2.2.2)
    | none => .error .shape

/-- `MaxPooling2D`. -/
noncomputable def maxPool (cfg : PoolCfg) (n c h w : ℕ) :
    Layer (Fin n × Fin c × Fin h × Fin w)
      (Fin n × Fin c × Fin (outputs h cfg.ph cfg.s0 cfg.pad) × Fin (outputs w cfg.pw cfg.s1 cfg.pad)) where
  W := Empty
  call _ x := fun i =>
    match maxForward cfg (cfg.fmt.tensor x) with
    | some y => cfg.fmt.entry y.1 i.1 i.2.1 i.2.2.1 i.2.2.2
    | none => 0
  backward _ _ x d :=
    match (maxForward cfg (cfg.fmt.tensor x)).bind fun y =>
        maxBackward cfg (cfg.fmt.tensor x) y.2 (cfg.fmt.tensor d) with
    | some g => .ok (fun i => i.elim, fun i => cfg.fmt.entry g i.1 i.2.1 i.2.2.1 i.2.2.2)
    | none => .error .shape

/-! ## Global max pooling -/

/-- The row-major list of the pixels of channel `k` of image `b` (pooling.py 423-425). -/
def pixels {n c h w : ℕ} (x : Fin n × Fin c × Fin h × Fin w → ℝ) (b : Fin n) (k : Fin c) (q : ℕ) : ℝ :=
  at4 x b k (q / w) (q % w)

/-- `GlobalMaxPooling2D` (pooling.py 419-449) for images of at least one pixel, both data formats: the
tensors are indexed by image, channel, row and column; transposing to channel-first and back is not visible. -/
noncomputable def globalMax (n c h w : ℕ) : Layer (Fin n × Fin c × Fin h × Fin w) (Fin n × Fin c) where
  W := Empty
  call _ x := fun i => maxUpTo (pixels x i.1 i.2) (h * w - 1)
  backward _ _ x d := .ok (fun i => i.elim, fun i =>
    d (i.1, i.2.1) * if i.2.2.1 * w + i.2.2.2 = lastArg (pixels x i.1 i.2.1) (h * w - 1) then 1 else 0)

/-- The shape that `GlobalPooling2D.compute_output_shape` reports (pooling.py 292-304). -/
def globalShape (last keepdims : Bool) (n c : ℕ) : List ℕ :=
  if last then (if keepdims then [n, 1, 1, c] else [n, c])
  else if keepdims then [n, c, 1, 1] else [n, c]

/-- The shape that `GlobalMaxPooling2D.call` returns (pooling.py 419-431): `reduce_max_with_argmax`
removes the axis; `keepdims` is not looked at. -/
def globalMaxShape (last : Bool) (input : List ℕ) : Option (List ℕ) :=
  match (if last then (match input with | [n, h, w, c] => [n, c, h, w] | s => s) else input) with
  | [n, c, _, _] => some [n, c]
  | _ => none

end Verif.Keras
