import Verif.Tensor.Model
import Mathlib.Order.Lattice

/-!
# Pooling and padding

Models `pad` of Pond (pond.py 1470-1533) and ABY3 (aby3.py 1918-1966), average pooling of Pond
(pond.py 3319-3428) and ABY3 (aby3.py 5333-5352), max pooling of ABY3 (aby3.py 5254-5273) and
SecureNN (securenn.py 792-851).

The entries `α` of a tensor are whatever one position of the distributed tensor consists of: a
ring element for a public tensor, a pair of shares for Pond, the replicated shares for ABY3. Every
operation here moves or adds entries share by share, so it is stated once for all of them.
-/

namespace Verif.Tensor

/-- `tf.concat([a, b], axis)`: raises unless the shapes agree away from `axis`. -/
def concat {α : Type} (a b : Ten α) (axis : ℕ) : Option (Ten α) :=
  if axis < a.shape.length ∧ a.shape.set axis 0 = b.shape.set axis 0 then
    some ⟨a.shape.set axis (a.shape.getD axis 0 + b.shape.getD axis 0), fun idx =>
      if idx.getD axis 0 < a.shape.getD axis 0 then a.get idx
      else b.get (idx.set axis (idx.getD axis 0 - a.shape.getD axis 0))⟩
  else none

/-- A tensor of zeros (`zeros(padshape)`; every share of a private zero is zero). -/
def zeros {α : Type} [Zero α] (s : List ℕ) : Ten α := ⟨s, fun _ => 0⟩

/-- `append_zeros` (pond.py 1516-1527, aby3.py 1948-1959). -/
def appendZeros {α : Type} [Zero α] (t : Ten α) (amt axis : ℕ) : Option (Ten α) :=
  if amt = 0 then some t else concat t (zeros (t.shape.set axis amt)) axis

/-- `prepend_zeros` (pond.py 1503-1514, aby3.py 1935-1946). -/
def prependZeros {α : Type} [Zero α] (t : Ten α) (amt axis : ℕ) : Option (Ten α) :=
  if amt = 0 then some t else concat (zeros (t.shape.set axis amt)) t axis

/-- The loop `for axis, (pad_before, pad_after) in enumerate(paddings)` (pond.py 1529-1531). -/
def padLoop {α : Type} [Zero α] : Ten α → ℕ → List (ℕ × ℕ) → Option (Ten α)
  | t, _, [] => some t
  | t, axis, (before, after) :: ps => do
      let t1 ← appendZeros t after axis
      let t2 ← prependZeros t1 before axis
      padLoop t2 (axis + 1) ps

/-- Errors of the padding functions. -/
inductive PadErr
  | assertion
  | typeError
  | shape
  deriving DecidableEq

/-- `Pond.pad` (pond.py 1470-1533) of a public or private tensor. The zeros are made with
`is_scaled = True`, and `concat` asserts that the flags agree (pond.py 3988, 4010). -/
def pondPad {α : Type} [Zero α] (t : Ten α) (scaled : Bool) (ps : List (ℕ × ℕ)) :
    Except PadErr (Ten α × Bool) :=
  if scaled = false ∧ ps.any (fun q => q.1 ≠ 0 ∨ q.2 ≠ 0) then .error .assertion
  else match padLoop t 0 ps with
    | some z => .ok (z, scaled)
    | none => .error .shape

/-- `ABY3.pad` (aby3.py 1918-1966). For a private tensor the zeros carry the tensor's own flag. For
a public tensor `_zeros_public` passes four arguments to a constructor that takes three
(aby3.py 5431, aby3_tensors.py 405): a `TypeError`, whenever any padding is asked for. -/
def aby3Pad {α : Type} [Zero α] (isPublic : Bool) (t : Ten α) (scaled : Bool)
    (ps : List (ℕ × ℕ)) : Except PadErr (Ten α × Bool) :=
  if isPublic = true ∧ ps.any (fun q => q.1 ≠ 0 ∨ q.2 ≠ 0) then .error .typeError
  else match padLoop t 0 ps with
    | some z => .ok (z, scaled)
    | none => .error .shape

/-- `reduce_sum(axis=0)` of a matrix. -/
def reduceSum0 {α : Type} [AddCommMonoid α] (t : Ten α) : Option (Ten α) :=
  match t.shape with
  | [k, m] => some ⟨[m], fun idx => ∑ q ∈ Finset.range k, t.get (q :: idx)⟩
  | _ => none

/-- The window sums of `_avgpool2d_im2col_reduce` (pond.py 3346-3369) and of ABY3's
`__avgpool2d_computation` (aby3.py 5333-5352), before the multiplication by `1/(ph*pw)`. -/
def avgpoolSums {α : Type} [AddCommMonoid α] (x : Ten α) (ph pw s0 s1 : ℕ) (p : Padding) :
    Option (Ten α) :=
  match x.shape with
  | [n, c, h, w] => do
      let ho ← (outSize h ph s0 p).bind dim
      let wo ← (outSize w pw s1 p).bind dim
      let split ← reshape x [n * c, 1, h, w]
      let cols ← im2col split ph pw s0 s1 p .nchw
      let sums ← reduceSum0 cols
      let out ← reshape sums [ho, wo, n, c]
      transpose out [2, 3, 0, 1]
  | _ => none

/-- Pond's `_avgpool2d_core` (pond.py 3319-3343). Square pools with equal strides that divide the
image go to `_avgpool2d_reshape_reduce` (3372-3382), whose first line uses `tf.Dimension`, a name
that TensorFlow 2 does not have: an `AttributeError`. -/
def pondAvgpoolSums {α : Type} [AddCommMonoid α] (x : Ten α) (ph pw s0 s1 : ℕ) (p : Padding) :
    Option (Ten α) :=
  match x.shape with
  | [_, _, h, w] =>
      if (ph = s0 ∧ pw = s1 ∧ ph = pw) ∧ h % ph = 0 ∧ w % pw = 0 then none
      else avgpoolSums x ph pw s0 s1 p
  | _ => none

/-- The largest of `f 0, …, f k` (`reduce_max` over `k + 1` entries; C29 proves the protocols
compute it). -/
def maxUpTo {α : Type} [Max α] (f : ℕ → α) : ℕ → α
  | 0 => f 0
  | k + 1 => max (maxUpTo f k) (f (k + 1))

/-- `reduce_max(axis=1)` of a four-dimensional tensor. -/
def reduceMax1 {α : Type} [Max α] (t : Ten α) : Option (Ten α) :=
  match t.shape with
  | [n, k + 1, h, w] => some ⟨[n, h, w], fun idx =>
      maxUpTo (fun q => t.get [idx.getD 0 0, q, idx.getD 1 0, idx.getD 2 0]) k⟩
  | _ => none

/-- ABY3's `__maxpool2d_computation` (aby3.py 5254-5273). -/
def maxpool {α : Type} [Zero α] [Max α] (x : Ten α) (ph pw s0 s1 : ℕ) (p : Padding) :
    Option (Ten α) :=
  match x.shape with
  | [n, c, h, w] => do
      let ho ← (outSize h ph s0 p).bind dim
      let wo ← (outSize w pw s1 p).bind dim
      let split ← reshape x [n * c, 1, h, w]
      let patches ← im2patches split ph pw s0 s1 p .nchw
      let maxes ← reduceMax1 patches
      reshape maxes [n, c, ho, wo]
  | _ => none

/-- The strides as Python passes them: a pair, or a single number. -/
inductive Strides
  | pair (s0 s1 : ℕ)
  | int (s : ℕ)

/-- `strides[0], strides[1]` inside `im2patches` (shared.py 57): a number cannot be indexed. -/
def Strides.unpack : Strides → Option (ℕ × ℕ)
  | .pair a b => some (a, b)
  | .int _ => none

/-- SecureNN's `_im2col` (securenn.py 792-822): it passes `strides[0]` where `im2col` expects the
pair. -/
def secureNNIm2col {α : Type} [Zero α] (x : Ten α) (ph pw s0 s1 : ℕ) (p : Padding) :
    Option (Ten α) :=
  let _ := s1
  match x.shape with
  | [n, c, h, w] => do
      let split ← reshape x [n * c, 1, h, w]
      let st ← (Strides.int s0).unpack
      im2col split ph pw st.1 st.2 p .nchw
  | _ => none

end Verif.Tensor
