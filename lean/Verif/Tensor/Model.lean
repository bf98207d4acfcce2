import Mathlib.Algebra.BigOperators.Group.Finset.Basic
import Mathlib.Algebra.Ring.Defs
import Mathlib.Data.Int.Order.Basic

/-!
# Tensors with shapes, and the im2col convolution

Models `tf_encrypted/tensor/shared.py` (`im2patches`, `im2col`, `out_size`, `pad_size`, `conv2d`,
`patches2im`), `conv2d` of `tensor/int100.py`, and the pooling and padding functions of Pond and
ABY3 that are built on them.

A tensor is a shape together with a function from index lists to entries. TensorFlow's own
operations (`tf.reshape`, `tf.transpose`, `tf.image.extract_patches`, `tf.concat`, `tf.reduce_sum`,
`tf.matmul`) are modelled from their documentation: row-major order for `reshape`, and the
documented SAME/VALID windows for `extract_patches`. An operation that raises is `none`.
-/

namespace Verif.Tensor

/-- A tensor: its shape, and its entries by index list. Entries outside the shape are not
meaningful and no statement refers to them. -/
structure Ten (α : Type) where
  shape : List ℕ
  get : List ℕ → α

/-- The position of an index list in row-major order (TensorFlow's layout). -/
def flat : List ℕ → List ℕ → ℕ
  | _ :: ds, i :: is => i * ds.prod + flat ds is
  | _, _ => 0

/-- The index list at a row-major position. -/
def unflat : List ℕ → ℕ → List ℕ
  | [], _ => []
  | _ :: ds, k => (k / ds.prod) :: unflat ds (k % ds.prod)

/-- An index list is inside a shape. -/
def InShape : List ℕ → List ℕ → Prop
  | [], [] => True
  | d :: ds, i :: is => i < d ∧ InShape ds is
  | _, _ => False

/-- `tf.reshape` to a fully known shape; raises unless the number of entries is the same. -/
def reshape {α : Type} (t : Ten α) (s : List ℕ) : Option (Ten α) :=
  if s.prod = t.shape.prod then
    some ⟨s, fun idx => t.get (unflat t.shape (flat s idx))⟩
  else none

/-- `tf.reshape(t, pre + [-1])`: the last dimension is inferred; raises if the known dimensions
do not divide the number of entries (or are zero). -/
def reshapeInfer {α : Type} (t : Ten α) (pre : List ℕ) : Option (Ten α) :=
  if pre.prod ≠ 0 ∧ t.shape.prod % pre.prod = 0 then
    reshape t (pre ++ [t.shape.prod / pre.prod])
  else none

/-- `tf.transpose(t, perm)`: dimension `k` of the result is dimension `perm[k]` of `t`; raises
unless `perm` is a permutation of the dimensions. -/
def transpose {α : Type} (t : Ten α) (perm : List ℕ) : Option (Ten α) :=
  if perm.length = t.shape.length ∧ ∀ a ∈ List.range t.shape.length, a ∈ perm then
    some ⟨perm.map fun a => t.shape.getD a 0,
      fun idx => t.get ((List.range t.shape.length).map fun a => idx.getD (perm.idxOf a) 0)⟩
  else none

/-- `tf.matmul` of two matrices; raises on a shape mismatch. -/
def matmul {α : Type} [Ring α] (a b : Ten α) : Option (Ten α) :=
  match a.shape, b.shape with
  | [m, k], [k', n] =>
      if k = k' then
        some ⟨[m, n], fun idx =>
          match idx with
          | [i, j] => ∑ q ∈ Finset.range k, a.get [i, q] * b.get [q, j]
          | _ => 0⟩
      else none
  | _, _ => none

/-- The padding argument of convolutions and poolings. -/
inductive Padding
  | same
  | valid
  | other (s : String)
  deriving DecidableEq

/-- `math.ceil(a / b)` for integers, `b > 0` (exact here; Python goes through a float, which is
exact below `2^53`). -/
def ceilDiv (a : ℤ) (b : ℕ) : ℤ := -((-a) / (b : ℤ))

/-- One coordinate of `out_size` (shared.py 248-258). `none` is the `ValueError`. -/
def outSize (size pool stride : ℕ) : Padding → Option ℤ
  | .same => some (ceilDiv size stride)
  | .valid => some (ceilDiv ((size : ℤ) - pool + 1) stride)
  | .other _ => none

/-- One coordinate of `pad_size` (shared.py 192-209): padding before and after. -/
def padSize (size kernel stride : ℕ) : ℕ × ℕ :=
  let total := if size % stride = 0 then max ((kernel : ℤ) - stride) 0
    else max ((kernel : ℤ) - (size % stride : ℕ)) 0
  (total.toNat / 2, total.toNat - total.toNat / 2)

/-- The window geometry of TensorFlow's `extract_patches` along one dimension: number of windows
and padding before the first entry. SAME: `ceil(size/stride)` windows and
`max((windows-1)*stride + kernel - size, 0)` of padding, the smaller half in front. VALID: no
padding and as many windows as fit; negative sizes raise. Not in /repo: TensorFlow's documented
behaviour (`GetWindowedOutputSize`). -/
def window (size kernel stride : ℕ) : Padding → Option (ℕ × ℕ)
  | .same =>
      let n := (size + stride - 1) / stride
      some (n, (((n : ℤ) - 1) * stride + kernel - size).toNat / 2)
  | .valid => if kernel ≤ size + stride then some ((size + stride - kernel) / stride, 0) else none
  | .other _ => none

/-- `tf.image.extract_patches` on an NHWC tensor (as called by `im2patches`, shared.py 54-61). The
last dimension of the result runs over the window rows, the window columns and the channels, in
row-major order. -/
def extractPatches {α : Type} [Zero α] (x : Ten α) (kh kw s0 s1 : ℕ) (p : Padding) :
    Option (Ten α) :=
  match x.shape, window (x.shape.getD 1 0) kh s0 p, window (x.shape.getD 2 0) kw s1 p with
  | [n, h, w, c], some (ho, pt), some (wo, pl) =>
      some ⟨[n, ho, wo, kh * kw * c], fun idx =>
        match idx with
        | [b, i, j, q] =>
            let yy := i * s0 + q / (kw * c)
            let xx := j * s1 + q / c % kw
            if pt ≤ yy ∧ yy < pt + h ∧ pl ≤ xx ∧ xx < pl + w then
              x.get [b, yy - pt, xx - pl, q % c]
            else 0
        | _ => 0⟩
  | _, _, _ => none

/-- The two data formats. -/
inductive Format
  | nchw
  | nhwc
  deriving DecidableEq

/-- `im2patches` (shared.py 44-67). -/
def im2patches {α : Type} [Zero α] (x : Ten α) (kh kw s0 s1 : ℕ) (p : Padding) (f : Format) :
    Option (Ten α) := do
  let x ← if f = .nchw then transpose x [0, 2, 3, 1] else some x
  let patches ← extractPatches x kh kw s0 s1 p
  if f = .nchw then transpose patches [0, 3, 1, 2] else some patches

/-- `im2col` (shared.py 212-245). -/
def im2col {α : Type} [Zero α] (x : Ten α) (kh kw s0 s1 : ℕ) (p : Padding) (f : Format) :
    Option (Ten α) := do
  let x ← if f = .nchw then transpose x [0, 2, 3, 1] else some x
  let channels := x.shape.getD 3 0
  let patches ← im2patches x kh kw s0 s1 p .nhwc
  let patches ← transpose patches [3, 1, 2, 0]
  let patches ← reshapeInfer patches [kh, kw, channels]
  let patches ← if f = .nchw then transpose patches [2, 0, 1, 3] else some patches
  reshapeInfer patches [channels * kh * kw]

/-- A Python integer used as a dimension of `reshape`: negative ones raise (`-1` would be inferred,
but no dimension here can be `-1` without another being inferred already or the tensor being
empty). -/
def dim (a : ℤ) : Option ℕ := if a < 0 then none else some a.toNat

/-- `conv2d` (shared.py 261-289), the convolution of native and int128 tensors. -/
def conv2d {α : Type} [Ring α] (x y : Ten α) (s0 s1 : ℕ) (p : Padding) (f : Format) :
    Option (Ten α) := do
  let x ← if f = .nchw then transpose x [0, 2, 3, 1] else some x
  match x.shape, y.shape with
  | [n, h, w, _], [kh, kw, _, o] =>
      let ho ← (outSize h kh s0 p).bind dim
      let wo ← (outSize w kw s1 p).bind dim
      let xcol ← im2col x kh kw s0 s1 p .nhwc
      let wt ← transpose y [3, 0, 1, 2]
      let wcol ← reshapeInfer wt [o]
      let out ← matmul wcol xcol
      let out ← reshape out [o, ho, wo, n]
      if f = .nchw then transpose out [3, 0, 1, 2] else transpose out [3, 1, 2, 0]
  | _, _ => none

/-- `conv2d` of int100 tensors (tensor/int100.py 690-723): NCHW only, the filters laid out with the
channel first, and a special case when the channel counts differ. -/
def crtConv2d {α : Type} [Ring α] (x y : Ten α) (s0 s1 : ℕ) (p : Padding) : Option (Ten α) :=
  match x.shape, y.shape with
  | [n, c, h, w], [kh, kw, ci, co] => do
      let o := if c ≠ ci then ci else co
      let ho ← (outSize h kh s0 p).bind dim
      let wo ← (outSize w kw s1 p).bind dim
      let xcol ← im2col x kh kw s0 s1 p .nchw
      let wt ← transpose y [3, 2, 0, 1]
      let wcol ← reshapeInfer wt [o]
      let out ← matmul wcol xcol
      let out ← reshape out [o, ho, wo, n]
      transpose out [3, 0, 1, 2]
  | _, _ => none

end Verif.Tensor
