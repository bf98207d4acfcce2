import Verif.Tensor.Pool
import Verif.Tensor.Spec
import Verif.Keras.Layers

/-!
# `Conv2D`: forward and backward pass

`tf_encrypted/keras/layers/convolutional.py` (`Conv2D`), with the operations it uses: `conv2d`, `pad`
(`Verif.Tensor`), and `expand` and `reverse` of ABY3. Arithmetic is exact; the operations are followed
step by step, with their shapes. An operation that raises because of the shapes of its arguments is
`none`.
-/

namespace Verif.Keras

open Verif.Tensor

variable {α : Type}

/-- `_expand_private` (aby3.py 5435-5456): `stride - 1` zeros between neighbouring rows and columns
(dimensions 0 and 1). A dimension of size zero gives a negative size for other strides than 1 and is
not modelled. -/
def expand [Zero α] (t : Ten α) (s : ℕ) : Option (Ten α) :=
  match t.shape with
  | h :: w :: rest =>
      if h = 0 ∨ w = 0 then none else
        some ⟨((h - 1) * s + 1) :: ((w - 1) * s + 1) :: rest, fun idx =>
          match idx with
          | i :: j :: r => if i % s = 0 ∧ j % s = 0 then t.get (i / s :: j / s :: r) else 0
          | _ => 0⟩
  | _ => none

/-- `_reverse_private` (aby3.py 5459-5468) along dimensions 0 and 1. -/
def reverse01 (t : Ten α) : Ten α :=
  ⟨t.shape, fun idx =>
    match idx with
    | i :: j :: r => t.get ((t.shape.getD 0 0 - 1 - i) :: (t.shape.getD 1 0 - 1 - j) :: r)
    | _ => t.get idx⟩

/-- `t[:, :, top : H - bottom, left : W - right]` (convolutional.py 243-248) for paddings that are not
larger than the tensor. -/
def crop (t : Ten α) (top bottom left right : ℕ) : Ten α :=
  ⟨match t.shape with
    | [n, c, h, w] => [n, c, h - bottom - top, w - right - left]
    | s => s,
   fun idx =>
    match idx with
    | [b, c, y, x] => t.get [b, c, y + top, x + left]
    | _ => t.get idx⟩

/-- The arguments of the constructor that matter here: the size of the (square) kernel, the two strides,
the padding and the data format (convolutional.py 85-143). Only the two sizes of the kernel are required
to be equal (113-118). -/
structure ConvCfg where
  k : ℕ
  s0 : ℕ
  s1 : ℕ
  pad : Padding
  last : Bool

/-- The shape of a batch of `n` images with `c` channels in the format of the layer. -/
def ConvCfg.shape (cfg : ConvCfg) (n c h w : ℕ) : List ℕ := if cfg.last then [n, h, w, c] else [n, c, h, w]

/-- Channel `c` of pixel `(y, x)` of image `b`, in the format of the layer. -/
def ConvCfg.entry (cfg : ConvCfg) (t : Ten α) (b c y x : ℕ) : α :=
  if cfg.last then t.get [b, y, x, c] else t.get [b, c, y, x]

/-- To channel-first, if necessary (convolutional.py 176, 203). -/
def ConvCfg.nchw (cfg : ConvCfg) (t : Ten α) : Option (Ten α) :=
  if cfg.last then transpose t [0, 3, 1, 2] else some t

/-- From channel-first to the format of the layer (convolutional.py 185, 254). -/
def ConvCfg.layout (cfg : ConvCfg) (t : Ten α) : Option (Ten α) :=
  if cfg.last then transpose t [0, 2, 3, 1] else some t

/-- The padding of the input for SAME (convolutional.py 249-251). -/
def ConvCfg.padInput [Zero α] (cfg : ConvCfg) (x : Ten α) (ph pw : ℕ × ℕ) : Option (Ten α) :=
  if cfg.pad = .same then padLoop x 0 [(0, 0), (0, 0), ph, pw] else some x

/-- `outputs + bias` for a bias of shape `[filters, 1, 1]` (convolutional.py 161, 182). -/
def addBias [Add α] (y : Ten α) : Option (Ten α) → Ten α
  | none => y
  | some b => ⟨y.shape, fun idx => y.get idx + b.get [idx.getD 1 0, 0, 0]⟩

/-- `Conv2D.call` (convolutional.py 172-191) without the activation. -/
def convForward [Ring α] (cfg : ConvCfg) (x kernel : Ten α) (bias : Option (Ten α)) : Option (Ten α) := do
  let x ← cfg.nchw x
  let y ← conv2d x kernel cfg.s0 cfg.s1 cfg.pad .nchw
  cfg.layout (addBias y bias)

/-- The gradients by the kernel, the bias and the input, before the assertions of `Conv2D.backward`
(convolutional.py 193-270), from the gradient `d` by the output before the activation. -/
def convBackCore [Field α] (cfg : ConvCfg) (lazy : Bool) (x kernel d : Ten α) :
    Option (Ten α × Ten α × Ten α) := do
  let x1 ← cfg.nchw x
  let d1 ← transpose d (if cfg.last then [1, 2, 0, 3] else [2, 3, 0, 1])
  let e ← expand d1 cfg.s0
  let pd ← padLoop e 0 [(cfg.k - 1, cfg.k - 1), (cfg.k - 1, cfg.k - 1)]
  let pd ← transpose pd [2, 3, 0, 1]
  let flipped ← transpose (reverse01 kernel) [0, 1, 3, 2]
  let dx0 ← conv2d pd flipped 1 1 .valid .nchw
  let ph := padSize (x1.shape.getD 2 0) cfg.k cfg.s0
  let pw := padSize (x1.shape.getD 3 0) cfg.k cfg.s1
  let dx1 := if cfg.pad = .same then crop dx0 ph.1 ph.2 pw.1 pw.2 else dx0
  let x2 ← cfg.padInput x1 ph pw
  let dx ← cfg.layout dx1
  let xt ← transpose x2 [1, 0, 2, 3]
  let dk0 ← conv2d xt e 1 1 .valid .nchw
  let dk1 ← transpose dk0 [2, 3, 0, 1]
  let n : α := if lazy then (x1.shape.getD 0 0 : ℕ) else 1
  let dk : Ten α := ⟨dk1.shape, fun idx => dk1.get idx / n⟩
  let db : Ten α := ⟨[d1.shape.getD 3 0, 1, 1], fun idx =>
    (∑ i ∈ Finset.range (d1.shape.getD 0 0), ∑ j ∈ Finset.range (d1.shape.getD 1 0),
      ∑ b ∈ Finset.range (d1.shape.getD 2 0), d1.get [i, j, b, idx.getD 0 0]) / n⟩
  some (dk, db, dx)

/-- `Conv2D.backward` (convolutional.py 193-286): the gradients, if the two assertions hold. -/
def convBackward [Field α] (cfg : ConvCfg) (lazy : Bool) (x kernel d : Ten α) :
    Except LayerErr (Ten α × Ten α × Ten α) :=
  match convBackCore cfg lazy x kernel d with
  | none => .error .shape
  | some r => if r.2.2.shape = x.shape ∧ r.1.shape = kernel.shape then .ok r else .error .assertion

/-- `compute_output_shape` (convolutional.py 306-325), for positive output sizes. -/
def convShape (cfg : ConvCfg) (filters : ℕ) (input : List ℕ) : Option (List ℕ) :=
  match (if cfg.last then (match input with | [n, h, w, c] => [n, c, h, w] | s => s) else input) with
  | [n, _, h, w] =>
      match outSize h cfg.k cfg.s0 cfg.pad, outSize w cfg.k cfg.s0 cfg.pad with
      | some ho, some wo =>
          some (if cfg.last then [n, ho.toNat, wo.toNat, filters] else [n, filters, ho.toNat, wo.toNat])
      | _, _ => none
  | _ => none

/-! ## The layer -/

/-- The entry of a four-dimensional tensor at natural indices. -/
def at4 {β γ δ ε : ℕ} (f : Fin β × Fin γ × Fin δ × Fin ε → ℝ) (a b c d : ℕ) : ℝ :=
  if h : a < β ∧ b < γ ∧ c < δ ∧ d < ε then f (⟨a, h.1⟩, ⟨b, h.2.1⟩, ⟨c, h.2.2.1⟩, ⟨d, h.2.2.2⟩) else 0

/-- A batch of images, indexed by image, channel, row and column, as a tensor in the format of the layer. -/
def ConvCfg.tensor (cfg : ConvCfg) {n c h w : ℕ} (f : Fin n × Fin c × Fin h × Fin w → ℝ) : Ten ℝ :=
  ⟨cfg.shape n c h w, fun idx =>
    match idx with
    | [p, q, r, s] => if cfg.last then at4 f p s q r else at4 f p q r s
    | _ => 0⟩

/-- The kernel (convolutional.py 155-158). -/
def kernelTensor {k c o : ℕ} {β : Type} (w : (Fin k × Fin k × Fin c × Fin o) ⊕ β → ℝ) : Ten ℝ :=
  ⟨[k, k, c, o], fun idx =>
    match idx with
    | [p, q, r, s] => at4 (fun i => w (.inl i)) p q r s
    | _ => 0⟩

/-- The bias (convolutional.py 160-168). -/
def biasTensor {ω : Type} {o : ℕ} (bias : Bool) (w : ω ⊕ {_j : Fin o // bias = true} → ℝ) : Option (Ten ℝ) :=
  if hb : bias = true then
    some ⟨[o, 1, 1], fun idx => if h : idx.getD 0 0 < o then w (.inr ⟨⟨_, h⟩, hb⟩) else 0⟩
  else none

/-- `Conv2D.call` before the activation, as a function of weights and images. Where `call` raises the
value is 0; the theorems are about arguments for which it does not (`conv_call`). -/
def convCall (cfg : ConvCfg) {n c h w o m m' : ℕ} (bias : Bool)
    (ws : (Fin cfg.k × Fin cfg.k × Fin c × Fin o) ⊕ {_j : Fin o // bias = true} → ℝ)
    (x : Fin n × Fin c × Fin h × Fin w → ℝ) : Fin n × Fin o × Fin m × Fin m' → ℝ := fun i =>
  match convForward cfg (cfg.tensor x) (kernelTensor ws) (biasTensor bias ws) with
  | some y => cfg.entry y i.1 i.2.1 i.2.2.1 i.2.2.2
  | none => 0

/-- `Conv2D.backward` from the gradient before the activation. -/
noncomputable def convBack (cfg : ConvCfg) {n c h w o m m' : ℕ} (bias lazy : Bool)
    (ws : (Fin cfg.k × Fin cfg.k × Fin c × Fin o) ⊕ {_j : Fin o // bias = true} → ℝ)
    (x : Fin n × Fin c × Fin h × Fin w → ℝ) (d : Fin n × Fin o × Fin m × Fin m' → ℝ) :
    Except LayerErr (((Fin cfg.k × Fin cfg.k × Fin c × Fin o) ⊕ {_j : Fin o // bias = true} → ℝ) ×
      (Fin n × Fin c × Fin h × Fin w → ℝ)) :=
  (convBackward cfg lazy (cfg.tensor x) (kernelTensor ws) (cfg.tensor d)).map fun r =>
    (fun i => match i with
      | .inl i => r.1.get [i.1, i.2.1, i.2.2.1, i.2.2.2]
      | .inr ⟨q, _⟩ => r.2.1.get [q, 0, 0],
     fun i => cfg.entry r.2.2 i.1 i.2.1 i.2.2.1 i.2.2.2)

/-- `Conv2D` (convolutional.py 172-286) on batches of `n` images with `c` channels of size `h × w`, with
`o` filters. An image is indexed by channel, row and column in both data formats; the layout in memory is
that of `ConvCfg.shape`. `softmax` normalises over the last dimension only, which is not modelled here: it
has no backward pass. -/
noncomputable def conv2D (cfg : ConvCfg) (n c h w o : ℕ) (act : Act) (bias : Bool) :
    Layer (Fin n × Fin c × Fin h × Fin w)
      (Fin n × Fin o × Fin (outputs h cfg.k cfg.s0 cfg.pad) × Fin (outputs w cfg.k cfg.s1 cfg.pad)) where
  W := (Fin cfg.k × Fin cfg.k × Fin c × Fin o) ⊕ {_j : Fin o // bias = true}
  fintype := inferInstance
  call ws x :=
    match act with
    | .none => convCall cfg bias ws x
    | a => a.apply (convCall cfg bias ws x)
  backward lazy ws x d :=
    match act with
    | .none => convBack cfg bias lazy ws x d
    | a => (a.deriv (a.apply (convCall cfg bias ws x)) d).bind (convBack cfg bias lazy ws x)

end Verif.Keras
