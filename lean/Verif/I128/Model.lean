import Verif.Tensor.Lemmas
import Verif.Bits.Int
import Mathlib.Data.BitVec
import Mathlib.Data.Nat.Log
import Mathlib.Algebra.Order.Field.Basic

/-!
# 128-bit words as pairs of 64-bit limbs

Models `tf_encrypted/operations/tf_i128/tf_i128.py`, `operations/tf_i128/int128_tensor.cc`,
`operations/tf_i128/int128_kernels.cc` and `tf_encrypted/tensor/int128.py`.

A 128-bit tensor of shape `s` is stored as a tensor of 64-bit words of shape `s ++ [2]`, low limb
first. The C++ kernels reinterpret the memory as `__int128`; this is the little-endian reading
`load`. Signed overflow in C++ is taken to wrap (two's complement), as the library relies on.
-/

namespace Verif.I128

open Verif.Tensor

/-! ## One word -/

/-- The two limbs of a word: low, high. -/
abbrev Limbs := BitVec 64 × BitVec 64

/-- Reading two consecutive 64-bit words as an `__int128` on a little-endian machine
(int128_tensor.cc:57, `data_ = (Scalar*) ...`). -/
def load (p : Limbs) : BitVec 128 := p.2 ++ p.1

/-- Writing an `__int128`: int128_tensor.cc:794-796 writes `(uint64) v` and `(uint64) (v >> 64)`; a
store through a `Scalar*` writes the same two words. -/
def store (v : BitVec 128) : Limbs := (v.setWidth 64, (v.sshiftRight 64).setWidth 64)

/-- `int.to_bytes(16, "little")` for a number below `2^128`. -/
def toBytes (k : ℕ) : List ℕ := (List.range 16).map fun i => k / 256 ^ i % 256

/-- The number whose little-endian bytes are given. -/
def ofBytes (bs : List ℕ) : ℕ := bs.foldr (fun b acc => b + 256 * acc) 0

/-- `np.frombuffer(bytes, dtype=np.int64)` on sixteen bytes. -/
def fromBuffer (bs : List ℕ) : Limbs :=
  (BitVec.ofNat 64 (ofBytes (bs.take 8)), BitVec.ofNat 64 (ofBytes (bs.drop 8)))

/-- `encode` of one entry (tf_i128.py:76-78): `int & (2^128 - 1)`, sixteen bytes, two words. -/
def encode (z : ℤ) : Limbs := fromBuffer (toBytes (z % 2 ^ 128).toNat)

/-- `decode` of one entry (tf_i128.py:102-105), before the conversion to a float (`Float.lean`):
`(uint64(lo) + (int64(hi) << 64)) / scale`. -/
def decode (scale : ℕ) (p : Limbs) : ℚ := (((p.1.toNat : ℤ) + p.2.toInt * 2 ^ 64 : ℤ) : ℚ) / scale

/-- Conversion of an integer to a double (TensorFlow's `cast` and C++'s conversion from `__int128`):
53 significant bits, round to nearest, ties to even. -/
def toDouble (z : ℤ) : ℤ :=
  let u : ℕ := 2 ^ (Nat.log 2 z.natAbs - 52)
  let q := z / u
  let r := z % u
  if 2 * r < u then q * u
  else if 2 * r = u then (if q % 2 = 0 then q * u else (q + 1) * u)
  else (q + 1) * u

/-- `to_i128` with scale 1 on an integer tensor (tf_i128.py:157-168, int128_tensor.cc:778-799): the
entries go through a double. -/
def toI128 (z : ℤ) : Limbs := store (BitVec.ofInt 128 (toDouble z))

/-- `from_i128` with scale 1 (tf_i128.py:172-182, int128_tensor.cc:801-818): the word goes through a
double. -/
def fromI128 (p : Limbs) : ℤ := toDouble (load p).toInt

/-- `CwiseNegate` (int128_tensor.cc:261-266). -/
def neg (p : Limbs) : Limbs := store (-load p)

/-- `CwiseAbs` (int128_tensor.cc:268-279). -/
def abs128 (p : Limbs) : Limbs := store (if (load p).toInt < 0 then -load p else load p)

/-- `BroadcastAdd`, `BroadcastSub`, `BroadcastMul` on one entry (int128_tensor.cc:189-212). -/
def add (p q : Limbs) : Limbs := store (load p + load q)
@[inherit_doc add] def sub (p q : Limbs) : Limbs := store (load p - load q)
@[inherit_doc add] def mul (p q : Limbs) : Limbs := store (load p * load q)

/-- `BroadcastRightShift` on one entry (int128_tensor.cc:214-231); the amount is an `int64`. -/
def sar (p : Limbs) (step : BitVec 64) : Limbs :=
  if step.toInt ≤ 0 then p
  else if 128 ≤ step.toInt then store (if (load p).toInt < 0 then -1 else 0)
  else store ((load p).sshiftRight step.toNat)

/-- `BroadcastLogicalRightShift` on one entry (int128_tensor.cc:233-245). -/
def shr (p : Limbs) (step : BitVec 64) : Limbs :=
  if step.toInt ≤ 0 then p
  else if 128 ≤ step.toInt then store 0
  else store (load p >>> step.toNat)

/-- `BroadcastLeftShift` on one entry (int128_tensor.cc:247-259). -/
def shl (p : Limbs) (step : BitVec 64) : Limbs :=
  if step.toInt ≤ 0 then p
  else if 128 ≤ step.toInt then store 0
  else store (load p <<< step.toNat)

/-- `cast` to the boolean factory (int128.py:517-522): the limbs are cast and or-ed. -/
def castBool (p : Limbs) : Bool := (p.1 ≠ 0) || (p.2 ≠ 0)

/-- `cast` to the native 64-bit factory (int128.py:523-524): the low limb. -/
def castInt64 (p : Limbs) : BitVec 64 := p.1

/-! ## TensorFlow's structural operations

From TensorFlow's documentation, for tensors of any entry type; `none` is a raised error. -/

section TF

variable {α β γ : Type}

/-- Two tensors are the same: equal shape and equal entries inside it. -/
def Same (t u : Ten α) : Prop := t.shape = u.shape ∧ ∀ idx, InShape t.shape idx → t.get idx = u.get idx

/-- Normalising a possibly negative axis. -/
def normAxis (axis : ℤ) (rank : ℕ) : Option ℕ :=
  if -(rank : ℤ) ≤ axis ∧ axis < rank then
    some (if axis < 0 then (axis + rank).toNat else axis.toNat)
  else none

/-- `tf.stack`. -/
def stackT (xs : List (Ten α)) (axis : ℤ) : Option (Ten α) :=
  match xs with
  | [] => none
  | x :: _ =>
      if ∀ y ∈ xs, y.shape = x.shape then
        (normAxis axis (x.shape.length + 1)).map fun a =>
          ⟨x.shape.insertIdx a xs.length, fun idx => (xs.getD (idx.getD a 0) x).get (idx.eraseIdx a)⟩
      else none

/-- Which part of a concatenation a position falls in, and where. -/
def locate : List ℕ → ℕ → ℕ × ℕ
  | [], i => (0, i)
  | d :: ds, i => if i < d then (0, i) else ((locate ds (i - d)).1 + 1, (locate ds (i - d)).2)

/-- `tf.concat`. -/
def concatT (xs : List (Ten α)) (axis : ℤ) : Option (Ten α) :=
  match xs with
  | [] => none
  | x :: _ => do
      let a ← normAxis axis x.shape.length
      if ∀ y ∈ xs, y.shape.length = x.shape.length ∧ y.shape.eraseIdx a = x.shape.eraseIdx a then
        some ⟨x.shape.set a (xs.map fun y => y.shape.getD a 0).sum, fun idx =>
          let p := locate (xs.map fun y => y.shape.getD a 0) (idx.getD a 0)
          (xs.getD p.1 x).get (idx.set a p.2)⟩
      else none

/-- `tf.expand_dims`. -/
def expandT (t : Ten α) (axis : ℤ) : Option (Ten α) :=
  (normAxis axis (t.shape.length + 1)).map fun a =>
    ⟨t.shape.insertIdx a 1, fun idx => t.get (idx.eraseIdx a)⟩

/-- `tf.gather` with a list of positions; positions outside the axis raise. -/
def gatherT (t : Ten α) (ks : List ℕ) (axis : ℤ) : Option (Ten α) := do
  let a ← normAxis axis t.shape.length
  if ∀ k ∈ ks, k < t.shape.getD a 0 then
    some ⟨t.shape.set a ks.length, fun idx => t.get (idx.set a (ks.getD (idx.getD a 0) 0))⟩
  else none

/-- `tf.reduce_sum` over one axis, without `keepdims`. -/
def sumT [AddCommMonoid α] (t : Ten α) (axis : ℤ) : Option (Ten α) :=
  (normAxis axis t.shape.length).map fun a =>
    ⟨t.shape.eraseIdx a, fun idx => ∑ k ∈ Finset.range (t.shape.getD a 0), t.get (idx.insertIdx a k)⟩

/-- Broadcasting two dimension lists, last dimension first (numpy's rule). -/
def bcastRev : List ℕ → List ℕ → Option (List ℕ)
  | [], b => some b
  | a, [] => some a
  | x :: a, y :: b =>
      if x = y ∨ x = 1 ∨ y = 1 then (bcastRev a b).map ((if x = 1 then y else x) :: ·) else none

/-- The shape of a broadcast operation. -/
def bcast (a b : List ℕ) : Option (List ℕ) := (bcastRev a.reverse b.reverse).map List.reverse

/-- The entry of a tensor of shape `s` that a broadcast reads for an index of the result. -/
def bcastIdx (s idx : List ℕ) : List ℕ :=
  ((idx.drop (idx.length - s.length)).zip s).map fun p => if p.2 = 1 then 0 else p.1

/-- An element-wise operation with broadcasting. -/
def map2T (f : α → β → γ) (x : Ten α) (y : Ten β) : Option (Ten γ) :=
  (bcast x.shape y.shape).map fun s =>
    ⟨s, fun idx => f (x.get (bcastIdx x.shape idx)) (y.get (bcastIdx y.shape idx))⟩

/-- One component of a basic Python index. -/
inductive Item
  | int (k : ℕ)
  | slice (lo hi : ℕ)
  | ellipsis

/-- Basic indexing without an ellipsis: each item consumes one leading dimension. -/
def indexT (t : Ten α) : List Item → Option (Ten α)
  | [] => some t
  | .int k :: items =>
      match t.shape with
      | d :: ds => if k < d then indexT ⟨ds, fun idx => t.get (k :: idx)⟩ items else none
      | [] => none
  | .slice lo hi :: items =>
      match t.shape with
      | d :: ds =>
          -- the rest of the index applies to each row of the slice
          match indexT ⟨ds, fun idx => t.get (0 :: idx)⟩ items with
          | none => none
          | some r => some ⟨(min hi d - lo) :: r.shape, fun idx =>
              match idx with
              | [] => t.get []
              | i :: idx => match indexT ⟨ds, fun idx => t.get ((lo + i) :: idx)⟩ items with
                | some r => r.get idx
                | none => t.get []⟩
      | [] => none
  | .ellipsis :: _ => none

/-- The item is not an ellipsis. -/
def Item.plain : Item → Bool
  | .ellipsis => false
  | _ => true

/-- Basic indexing: an ellipsis stands for as many full slices as the rank leaves. -/
def getitemT (t : Ten α) (items : List Item) : Option (Ten α) :=
  let pre := items.takeWhile Item.plain
  if pre.length = items.length then indexT t items
  else
    let post := items.drop (pre.length + 1)
    if pre.length + post.length ≤ t.shape.length then
      indexT t (pre ++ ((t.shape.drop pre.length).take (t.shape.length - pre.length - post.length)).map
        (Item.slice 0) ++ post)
    else none

end TF

/-! ## Tensors of 128-bit words -/

/-- A stored 128-bit tensor: 64-bit words with a last dimension of two. -/
abbrev Store := Ten (BitVec 64)

/-- A tensor that can be read as 128-bit words (int128_kernels.cc:9-11). -/
def Valid (t : Store) : Prop := ∃ s, t.shape = s ++ [2]

/-- The 128-bit words of a stored tensor. `words_memory` shows that this is the view that the C++
kernels have of the memory. -/
def words (t : Store) : Ten (BitVec 128) :=
  ⟨t.shape.dropLast, fun idx => load (t.get (idx ++ [0]), t.get (idx ++ [1]))⟩

/-- Storing a tensor of 128-bit words. -/
def limbs (u : Ten (BitVec 128)) : Store :=
  ⟨u.shape ++ [2], fun idx =>
    if idx.getLastD 0 = 0 then (store (u.get idx.dropLast)).1 else (store (u.get idx.dropLast)).2⟩

/-- An element-wise kernel on two stored tensors (int128_kernels.cc:104-119, int128_tensor.cc:308-323):
at most five dimensions, and dimensions that cannot be broadcast abort. Dimensions of size zero are
outside the model. -/
def binary (f : BitVec 128 → BitVec 128 → BitVec 128) (x y : Store) : Option Store := do
  let r ← map2T f (words x) (words y)
  if r.shape.length ≤ 5 then some (limbs r) else none

/-- The bitwise operations (int128.py:529-558) act on the stored words. -/
def bitwise (f : BitVec 64 → BitVec 64 → BitVec 64) (x y : Store) : Option Store := map2T f x y

/-- `invert` (int128.py:556-558). -/
def invert (x : Store) : Store := ⟨x.shape, fun idx => ~~~x.get idx⟩

/-- `equal` (int128_kernels.cc:234-251, int128_tensor.cc:544-566, 820-831): the result has the shape of
the operand with more dimensions (the second one if they have equally many); an operand with one
entry is compared with all the others; anything else needs equal shapes. A failed `CHECK` is `none`. -/
def equal (x y : Store) : Option (Ten Bool) :=
  let xs := (words x).shape
  let ys := (words y).shape
  let out := if ys.length < xs.length then xs else ys
  let zero (s : List ℕ) : List ℕ := s.map fun _ => 0
  if xs.prod = 1 ∧ ys.prod = 1 then
    some ⟨out, fun _ => (words x).get (zero xs) == (words y).get (zero ys)⟩
  else if xs.prod = 1 then
    if out = ys then some ⟨out, fun idx => (words y).get idx == (words x).get (zero xs)⟩ else none
  else if ys.prod = 1 then
    if out = xs then some ⟨out, fun idx => (words x).get idx == (words y).get (zero ys)⟩ else none
  else if xs = ys ∧ out = xs then
    some ⟨out, fun idx => (words x).get idx == (words y).get idx⟩
  else none

/-- `matmul` of two matrices (int128_kernels.cc:186-203, int128_tensor.cc:568-580). -/
def matmul (x y : Store) : Option Store := (Tensor.matmul (words x) (words y)).map limbs

/-- `reduce_sum` over one axis (int128.py:490-493, tf_i128.py:127-154, int128_tensor.cc:650-776); a
negative axis reaches the kernel as an index out of range. -/
def reduceSum (t : Store) (axis : ℤ) : Option Store :=
  let dims := t.shape.length - 1
  let axis := if axis = -1 then (dims : ℤ) - 1 else axis
  if 0 ≤ axis ∧ axis < dims ∧ dims ≤ 6 then (sumT (words t) axis).map limbs else none

/-- `_lift_axis` for one axis (int128.py:245-259); `none` is the `AssertionError`. -/
def liftAxis (axis : ℤ) (dims : ℕ) : Option ℤ :=
  if axis = -1 then some ((dims : ℤ) - 1) else if axis < dims then some axis else none

/-- `stack` (int128.py:160-165). -/
def stack (xs : List Store) (axis : ℤ) : Option Store :=
  match xs with
  | [] => none
  | x :: _ => (liftAxis axis (x.shape.length - 1)).bind (stackT xs)

/-- `concat` (int128.py:167-172). -/
def concat (xs : List Store) (axis : ℤ) : Option Store :=
  match xs with
  | [] => none
  | x :: _ => (liftAxis axis (x.shape.length - 1)).bind (concatT xs)

/-- `expand_dims` (int128.py:506-508). -/
def expandDims (t : Store) (axis : ℤ) : Option Store :=
  (liftAxis axis (t.shape.length - 1 + 1)).bind (expandT t)

/-- `gather` (int128.py:450-455). -/
def gather (t : Store) (ks : List ℕ) (axis : ℤ) : Option Store :=
  (liftAxis axis (t.shape.length - 1)).bind (gatherT t ks)

/-- `reshape` to a known shape (int128.py:475-484). -/
def reshape (t : Store) (s : List ℕ) : Option Store := Tensor.reshape t (s ++ [2])

/-- `transpose` (int128.py:439-445). -/
def transpose (t : Store) (perm : Option (List ℕ)) : Option Store :=
  let n := t.shape.length - 1
  match perm with
  | none => Tensor.transpose t ((List.range n).reverse ++ [n])
  | some p => Tensor.transpose t (p ++ [n])

/-- `__getitem__` (int128.py:346-347): the index is applied to the stored words. -/
def getitem (t : Store) (items : List Item) : Option Store := getitemT t items

/-- `where` on a condition of the shape of the operands (int128.py:201-208). -/
def select (c : Ten Bool) (x y : Store) : Store :=
  ⟨x.shape, fun idx => if c.get idx.dropLast then x.get idx else y.get idx⟩

/-- `ones` (int128.py:174-180): low limbs one, high limbs zero. -/
def ones (s : List ℕ) : Store := ⟨s ++ [2], fun idx => if idx.getLastD 0 = 0 then 1 else 0⟩

/-- `zeros` (int128.py:182-189). -/
def zeros (s : List ℕ) : Store := ⟨s ++ [2], fun _ => 0⟩

/-- `min_as_int64` and `max_as_int64` (int128.py:87-93), the bounds given to the sampler. -/
def minLimbs : Limbs := (0, BitVec.intMin 64)
@[inherit_doc minLimbs] def maxLimbs : Limbs := (-1, BitVec.intMax 64)

end Verif.I128
