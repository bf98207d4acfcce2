import Verif.Convert.Nodes
import Verif.Tensor.Spec

/-!
# What the ONNX operators compute

Written from the ONNX operator documentation, without reference to the layers that the converter builds:
attributes are looked up by name and have the documented default values. Images are
`[batch, channels, rows, columns]`.
-/

namespace Verif.Convert.Onnx

open Verif.Tensor Verif.Keras

/-- The value of the attribute with the given name. -/
def attr (as : List Attr) (name : String) : Option AVal := (as.find? fun a => a.name = name).map (·.val)

def intAttr (as : List Attr) (name : String) (d : ℤ) : ℤ := match attr as name with | some (.int i) => i | _ => d
noncomputable def floatAttr (as : List Attr) (name : String) (d : ℝ) : ℝ :=
  match attr as name with | some (.float f) => f | _ => d
def intsAttr (as : List Attr) (name : String) (d : List ℤ) : List ℤ := match attr as name with | some (.ints l) => l | _ => d
def strAttr (as : List Attr) (name : String) (d : String) : String := match attr as name with | some (.other s) => s | _ => d

/-- The entry of an optional vector, 0 if there is none. -/
def vecAt (b : Option (Ten ℝ)) (j : ℕ) : ℝ := match b with | some t => t.get [j] | none => 0

/-- `MatMul` of two matrices. -/
def IsMatMul (A B Y : Ten ℝ) : Prop := ∃ m k n, A.shape = [m, k] ∧ B.shape = [k, n] ∧ Y.shape = [m, n] ∧
  ∀ i j, i < m → j < n → Y.get [i, j] = ∑ l ∈ Finset.range k, A.get [i, l] * B.get [l, j]

/-- `Gemm`: `alpha * A' * B' + beta * C`, where `A'` is `A`, or its transpose if `transA` is not 0; `C` is
broadcast to the result. -/
def IsGemm (as : List Attr) (A B C Y : Ten ℝ) : Prop :=
  let ta := intAttr as "transA" 0 ≠ 0
  let tb := intAttr as "transB" 0 ≠ 0
  ∃ m k n, (ta ∧ A.shape = [k, m] ∨ ¬ta ∧ A.shape = [m, k]) ∧ (tb ∧ B.shape = [n, k] ∨ ¬tb ∧ B.shape = [k, n]) ∧
    bcastShape C.shape [m, n] = some [m, n] ∧ Y.shape = [m, n] ∧
    ∀ i j, i < m → j < n → ∃ f g : ℕ → ℝ, (ta → ∀ l, f l = A.get [l, i]) ∧ (¬ta → ∀ l, f l = A.get [i, l]) ∧
      (tb → ∀ l, g l = B.get [j, l]) ∧ (¬tb → ∀ l, g l = B.get [l, j]) ∧
      Y.get [i, j] = floatAttr as "alpha" 1 * ∑ l ∈ Finset.range k, f l * g l + floatAttr as "beta" 1 * Ten.bget C [i, j]

/-! ## Windows -/

/-- The stride along spatial axis `d` (0: rows, 1: columns). -/
def stride (as : List Attr) (d : ℕ) : ℕ := ((intsAttr as "strides" [1, 1]).getD d 1).toNat

/-- The dilation of the kernel. -/
def dilation (as : List Attr) (d : ℕ) : ℕ := ((intsAttr as "dilations" [1, 1]).getD d 1).toNat

/-- The extent of a kernel with `k` taps. -/
def extent (as : List Attr) (d k : ℕ) : ℕ := (k - 1) * dilation as d + 1

/-- The padding that `SAME_UPPER` and `SAME_LOWER` need so that there are `ceil(size / stride)` outputs. -/
def samePad (as : List Attr) (d size k : ℕ) : ℕ :=
  ((size + stride as d - 1) / stride as d - 1) * stride as d + extent as d k - size

/-- The padding in front. `pads` lists the beginnings of all axes, then the ends. -/
def before (as : List Attr) (d size k : ℕ) : ℕ :=
  match strAttr as "auto_pad" "NOTSET" with
  | "SAME_UPPER" => samePad as d size k / 2
  | "SAME_LOWER" => samePad as d size k - samePad as d size k / 2
  | "VALID" => 0
  | _ => ((intsAttr as "pads" [0, 0, 0, 0]).getD d 0).toNat

/-- The padding behind. -/
def after (as : List Attr) (d size k : ℕ) : ℕ :=
  match strAttr as "auto_pad" "NOTSET" with
  | "SAME_UPPER" => samePad as d size k - samePad as d size k / 2
  | "SAME_LOWER" => samePad as d size k / 2
  | "VALID" => 0
  | _ => ((intsAttr as "pads" [0, 0, 0, 0]).getD (d + 2) 0).toNat

/-- How far the kernel can move. -/
def span (as : List Attr) (d size k : ℕ) : ℤ := (size : ℤ) + before as d size k + after as d size k - extent as d k

/-- The number of outputs along a spatial axis. `ceil_mode` (only for pooling) rounds up. -/
def outDim (as : List Attr) (d size k : ℕ) : ℕ :=
  if intAttr as "ceil_mode" 0 = 0 then (span as d size k / (stride as d : ℤ) + 1).toNat
  else (-(-span as d size k / (stride as d : ℤ)) + 1).toNat

/-- The row (column) of the image that tap `a` of output `i` looks at; it can be outside the image. -/
def pixel (as : List Attr) (d size k i a : ℕ) : ℤ := (i * stride as d + a * dilation as d : ℕ) - (before as d size k : ℤ)

/-- `Conv`: the filters are divided into `group` groups, and filter `q` sees only the channels of its
group. -/
def IsConv (as : List Attr) (X W : Ten ℝ) (B : Option (Ten ℝ)) (Y : Ten ℝ) : Prop :=
  let g := (intAttr as "group" 1).toNat
  ∃ n c h w o ci kh kw, X.shape = [n, c, h, w] ∧ W.shape = [o, ci, kh, kw] ∧ g * ci = c ∧ g ∣ o ∧
    (∀ b, B = some b → b.shape = [o]) ∧ Y.shape = [n, o, outDim as 0 h kh, outDim as 1 w kw] ∧
    ∀ b q i j, b < n → q < o → i < outDim as 0 h kh → j < outDim as 1 w kw →
      Y.get [b, q, i, j] = (∑ r ∈ Finset.range ci, ∑ a ∈ Finset.range kh, ∑ a' ∈ Finset.range kw,
        extend h w (fun y x => X.get [b, q / (o / g) * ci + r, y, x]) (pixel as 0 h kh i a) (pixel as 1 w kw j a') *
          W.get [q, r, a, a']) + vecAt B q

/-- A tap of a window that lies in the image. -/
def Inside (as : List Attr) (h w kh kw i j a a' : ℕ) : Prop :=
  0 ≤ pixel as 0 h kh i a ∧ pixel as 0 h kh i a < h ∧ 0 ≤ pixel as 1 w kw j a' ∧ pixel as 1 w kw j a' < w

instance (as : List Attr) (h w kh kw i j a a' : ℕ) : Decidable (Inside as h w kh kw i j a a') := by
  unfold Inside; infer_instance

/-- `AveragePool`: the average of the pixels in the window, or of the padded window if
`count_include_pad` is set. -/
def IsAveragePool (as : List Attr) (X Y : Ten ℝ) : Prop :=
  let kh := ((intsAttr as "kernel_shape" []).getD 0 0).toNat
  let kw := ((intsAttr as "kernel_shape" []).getD 1 0).toNat
  ∃ n c h w, X.shape = [n, c, h, w] ∧ Y.shape = [n, c, outDim as 0 h kh, outDim as 1 w kw] ∧
    ∀ b r i j, b < n → r < c → i < outDim as 0 h kh → j < outDim as 1 w kw →
      Y.get [b, r, i, j] = (∑ a ∈ Finset.range kh, ∑ a' ∈ Finset.range kw,
          extend h w (fun y x => X.get [b, r, y, x]) (pixel as 0 h kh i a) (pixel as 1 w kw j a')) /
        (∑ a ∈ Finset.range kh, ∑ a' ∈ Finset.range kw,
          if intAttr as "count_include_pad" 0 ≠ 0 ∨ Inside as h w kh kw i j a a' then (1 : ℝ) else 0)

/-- `MaxPool`: the largest of the pixels in the window. -/
def IsMaxPool (as : List Attr) (X Y : Ten ℝ) : Prop :=
  let kh := ((intsAttr as "kernel_shape" []).getD 0 0).toNat
  let kw := ((intsAttr as "kernel_shape" []).getD 1 0).toNat
  ∃ n c h w, X.shape = [n, c, h, w] ∧ Y.shape = [n, c, outDim as 0 h kh, outDim as 1 w kw] ∧
    ∀ b r i j, b < n → r < c → i < outDim as 0 h kh → j < outDim as 1 w kw →
      IsGreatest {v | ∃ a a', a < kh ∧ a' < kw ∧ Inside as h w kh kw i j a a' ∧
        v = X.get [b, r, (pixel as 0 h kh i a).toNat, (pixel as 1 w kw j a').toNat]} (Y.get [b, r, i, j])

/-- `GlobalAveragePool`: the average over rows and columns, which remain as dimensions of size 1. -/
def IsGlobalAveragePool (X Y : Ten ℝ) : Prop := ∃ n c h w, X.shape = [n, c, h, w] ∧ Y.shape = [n, c, 1, 1] ∧
  ∀ b r, b < n → r < c →
    Y.get [b, r, 0, 0] = (∑ y ∈ Finset.range h, ∑ x ∈ Finset.range w, X.get [b, r, y, x]) / ((h * w : ℕ) : ℝ)

/-- `GlobalMaxPool`. -/
def IsGlobalMaxPool (X Y : Ten ℝ) : Prop := ∃ n c h w, X.shape = [n, c, h, w] ∧ Y.shape = [n, c, 1, 1] ∧
  ∀ b r, b < n → r < c → IsGreatest {v | ∃ y x, y < h ∧ x < w ∧ v = X.get [b, r, y, x]} (Y.get [b, r, 0, 0])

/-- The axes of `ReduceMean` and `ReduceMax`; without the attribute all axes are reduced. Negative axes count
from the end. -/
def reduced (as : List Attr) (rank a : ℕ) : Prop :=
  match attr as "axes" with
  | some (.ints l) => (a : ℤ) ∈ l.map fun d : ℤ => if d < 0 then d + (rank : ℤ) else d
  | _ => a < rank

/-- The result shape: reduced axes become 1, or disappear if `keepdims` is 0. -/
def reducedShape (as : List Attr) (s t : List ℕ) : Prop := ∃ f : ℕ → Bool, (∀ a, f a = true ↔ reduced as s.length a) ∧
  t = ((List.range s.length).filterMap fun a =>
    if f a then (if intAttr as "keepdims" 1 ≠ 0 then some 1 else none) else some (s.getD a 0))

/-- Entry `j` of the input belongs to entry `i` of the result (of which only the axes that are not reduced
count). -/
def Over (as : List Attr) (s : List ℕ) (i j : List ℕ) : Prop := InShape s j ∧ ∃ f : ℕ → Bool, (∀ a, f a = true ↔ reduced as s.length a) ∧
  i = ((List.range s.length).filterMap fun a =>
    if f a then (if intAttr as "keepdims" 1 ≠ 0 then some 0 else none) else some (j.getD a 0))

/-- `ReduceMax`. -/
def IsReduceMax (as : List Attr) (X Y : Ten ℝ) : Prop := reducedShape as X.shape Y.shape ∧
  ∀ i, InShape Y.shape i → IsGreatest {v | ∃ j, Over as X.shape i j ∧ v = X.get j} (Y.get i)

/-- `ReduceMean`: the entries that belong to one entry of the result, in any order, have that mean. -/
def IsReduceMean (as : List Attr) (X Y : Ten ℝ) : Prop := reducedShape as X.shape Y.shape ∧
  ∀ i, InShape Y.shape i → ∀ l : List (List ℕ), l.Nodup → (∀ j, j ∈ l ↔ Over as X.shape i j) →
    Y.get i * l.length = (l.map X.get).sum

/-- `BatchNormalization` in inference mode: per channel, which is axis 1. -/
def IsBatchNorm (as : List Attr) (X γ β μ v Y : Ten ℝ) : Prop := ∃ n c r, X.shape = n :: c :: r ∧
  γ.shape = [c] ∧ β.shape = [c] ∧ μ.shape = [c] ∧ v.shape = [c] ∧ Y.shape = X.shape ∧
  ∀ b q p, InShape (n :: c :: r) (b :: q :: p) → Y.get (b :: q :: p) =
    γ.get [q] * (X.get (b :: q :: p) - μ.get [q]) / Real.sqrt (v.get [q] + floatAttr as "epsilon" (1 / 100000)) + β.get [q]

/-- A declared shape agrees with an actual one: the first dimension is the unknown size of the batch. -/
def Declares (d : List ℤ) (s : List ℕ) : Prop := ∃ b r, s = b :: r ∧ d = -1 :: r.map fun n : ℕ => (n : ℤ)

end Verif.Convert.Onnx
