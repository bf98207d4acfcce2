import Verif.Keras.Conv

/-!
# `DepthwiseConv2D`

`tf_encrypted/keras/layers/convolutional.py` 325-634. The layer keeps the kernel of an ordinary
convolution, in which all but one input channel of every filter is masked out, and calls the ordinary
convolution. Arithmetic is exact; an operation that raises because of the shapes of its arguments is
`none`.
-/

namespace Verif.Keras

open Verif.Tensor

variable {α : Type}

/-- Broadcasting of two dimensions: equal, or one of them is 1. -/
def bcastDim (a b : ℕ) : Option ℕ :=
  if a = b then some a else if a = 1 then some b else if b = 1 then some a else none

/-- Broadcasting of two shapes, aligned at the last dimension. -/
def bcastShape (a b : List ℕ) : Option (List ℕ) :=
  let r := max a.length b.length
  ((List.replicate (r - a.length) 1 ++ a).zip (List.replicate (r - b.length) 1 ++ b)).mapM
    fun (d : ℕ × ℕ) => bcastDim d.1 d.2

/-- The entry of a tensor that broadcasting puts at an index of the result. -/
def Ten.bget (t : Ten α) (idx : List ℕ) : α :=
  t.get ((t.shape.zip (idx.drop (idx.length - t.shape.length))).map fun d => if d.1 = 1 then 0 else d.2)

/-- `tf.multiply`, `np.multiply` and `tfe.mul` with broadcasting (convolutional.py 520, 530, 541). -/
def bcastMul [Mul α] (a b : Ten α) : Option (Ten α) :=
  (bcastShape a.shape b.shape).map fun s => ⟨s, fun idx => Ten.bget a idx * Ten.bget b idx⟩

/-- `get_mask` (convolutional.py 587-599): zeros, and the loops over `d` and `i` write a one at
`[:, :, i, d + i * depth_multiplier]`. -/
def dwMask [Zero α] [One α] (cfg : ConvCfg) (m c : ℕ) : Ten α :=
  ⟨[cfg.k, cfg.k, c, c * m], fun idx =>
    if (List.range m).any (fun d => (List.range c).any fun i =>
        idx.getD 2 0 == i && idx.getD 3 0 == d + i * m) then 1 else 0⟩

/-- `rearrange_kernel` (convolutional.py 493-545). The three branches, for TensorFlow tensors, numpy
arrays and private tensors, do the same. -/
def rearrange [Ring α] (cfg : ConvCfg) (m c : ℕ) (kernel : Ten α) : Option (Ten α) := do
  let kernel ← if m > 1 then Tensor.reshape kernel [cfg.k, cfg.k, 1, c * m] else some kernel
  bcastMul kernel (dwMask cfg m c)

/-- The state of the layer: its kernel and its bias. -/
structure DwState (α : Type) where
  kernel : Ten α
  bias : Option (Ten α)

/-- `build` (convolutional.py 463-491) from the values of the initialisers: `kernel` of shape
`[k, k, channels, depth_multiplier]`, and `bias` of shape `[channels * depth_multiplier, 1, 1]` if the
layer has one. -/
def dwBuild [Ring α] (cfg : ConvCfg) (m c : ℕ) (kernel : Ten α) (bias : Option (Ten α)) : Option (DwState α) :=
  (rearrange cfg m c kernel).map fun k => ⟨k, bias⟩

/-- `tfe.assign` raises if the shapes differ. -/
def assignTo (v t : Ten α) : Option (Ten α) := if v.shape = t.shape then some t else none

/-- `set_weights` (convolutional.py 601-634) for numpy arrays or private tensors. -/
def dwSetWeights [Ring α] (cfg : ConvCfg) (m c : ℕ) (st : DwState α) (ws : List (Ten α)) : Option (DwState α) := do
  let w0 ← ws[0]?
  let k ← rearrange cfg m c w0
  let k ← assignTo st.kernel k
  match st.bias with
  | none => some ⟨k, none⟩
  | some b =>
      let w1 ← ws[1]?
      let t ← Tensor.reshape w1 b.shape
      let t ← assignTo b t
      some ⟨k, some t⟩

/-- `call` (convolutional.py 547-565) without the activation: the text of `Conv2D.call`. -/
def dwForward [Ring α] (cfg : ConvCfg) (st : DwState α) (x : Ten α) : Option (Ten α) :=
  convForward cfg x st.kernel st.bias

/-- `compute_output_shape` (convolutional.py 570-585), for positive output sizes. The list is always
`[n, filters, rows, columns]`, with the depth multiplier for the number of filters. -/
def dwShape (cfg : ConvCfg) (m : ℕ) (input : List ℕ) : Option (List ℕ) :=
  match (if cfg.last then (match input with | [n, h, w, c] => [n, c, h, w] | s => s) else input) with
  | [n, _, h, w] =>
      match outSize h cfg.k cfg.s0 cfg.pad, outSize w cfg.k cfg.s0 cfg.pad with
      | some ho, some wo => some [n, m, ho.toNat, wo.toNat]
      | _, _ => none
  | _ => none

end Verif.Keras
