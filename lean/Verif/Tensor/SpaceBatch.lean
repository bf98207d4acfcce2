import Verif.Tensor.Model

/-!
# `space_to_batch` and `batch_to_space`

Model of the two operations of Pond (pond.py 1437-1441, 3436-3537) on its three kinds of tensors, over the
backing tensors (native.py 425-431, int128.py 431-437, int100.py 725-739), which call TensorFlow's
`tf.space_to_batch` and `tf.batch_to_space`. TensorFlow's operations are modelled from their documentation:
which entry of the input every entry of the output is. `none` is an exception.
-/

namespace Verif.Tensor.SpaceBatch

open Verif.Tensor

/-- Where the entries of an output come from: its shape, and for every index that of an input entry, or
`none` for padding. -/
structure Plan where
  shape : List ℕ
  source : List ℕ → Option (List ℕ)

/-- The entries of an output. -/
def fill {α : Type} [Zero α] (p : Plan) (t : Ten α) (idx : List ℕ) : α :=
  match p.source idx with
  | some i => t.get i
  | none => 0

/-- The output for a plan that depends on the shape of the input only. -/
def run {α : Type} [Zero α] (plan : List ℕ → Option Plan) (t : Ten α) : Option (Ten α) :=
  (plan t.shape).map fun p => ⟨p.shape, fill p t⟩

/-- Sizes of the output of `tf.space_to_batch` after the batch: padded sizes must be multiples of the block. -/
def blocked : List ℕ → List ℕ → List (ℕ × ℕ) → Option (List ℕ)
  | ds, [], [] => some ds
  | d :: ds, b :: bs, p :: ps =>
    if 0 < b ∧ (p.1 + d + p.2) % b = 0 then
      (blocked ds bs ps).map fun es => (p.1 + d + p.2) / b :: es
    else none
  | _, _, _ => none

/-- The entry at position `js` of the block with offsets `os`, in the input without its padding. -/
def inBlock : List ℕ → List ℕ → List (ℕ × ℕ) → List ℕ → List ℕ → Option (List ℕ)
  | d :: ds, b :: bs, p :: ps, o :: os, j :: js =>
    if p.1 ≤ j * b + o ∧ j * b + o < p.1 + d then
      (inBlock ds bs ps os js).map fun is => (j * b + o - p.1) :: is
    else none
  | _, _, _, _, js => some js

/-- `tf.space_to_batch(input, block_shape, paddings)`: the block offsets go before the batch, in row-major
order. -/
def spacePlan (bs : List ℕ) (ps : List (ℕ × ℕ)) : List ℕ → Option Plan
  | [] => none
  | n :: ds => (blocked ds bs ps).map fun es => ⟨n * bs.prod :: es, fun idx =>
      match idx with
      | [] => none
      | k :: js => (inBlock ds bs ps (unflat bs (k / n)) js).map fun is => k % n :: is⟩

/-- Sizes of the output of `tf.batch_to_space` after the batch. -/
def cropped : List ℕ → List ℕ → List (ℕ × ℕ) → Option (List ℕ)
  | ds, [], [] => some ds
  | d :: ds, b :: bs, c :: cs =>
    if 0 < b ∧ c.1 + c.2 ≤ d * b then
      (cropped ds bs cs).map fun es => (d * b - c.1 - c.2) :: es
    else none
  | _, _, _ => none

/-- The block offsets and the position in its block of an entry of the cropped output. -/
def toBlock : List ℕ → List (ℕ × ℕ) → List ℕ → List ℕ × List ℕ
  | b :: bs, c :: cs, h :: hs =>
    ((h + c.1) % b :: (toBlock bs cs hs).1, (h + c.1) / b :: (toBlock bs cs hs).2)
  | _, _, hs => ([], hs)

/-- `tf.batch_to_space(input, block_shape, crops)`: the batch must be a multiple of the block volume. -/
def batchPlan (bs : List ℕ) (cs : List (ℕ × ℕ)) : List ℕ → Option Plan
  | [] => none
  | n :: ds =>
    if n % bs.prod = 0 then
      (cropped ds bs cs).map fun es => ⟨n / bs.prod :: es, fun idx =>
        match idx with
        | [] => none
        | k :: hs => some ((flat bs (toBlock bs cs hs).1 * (n / bs.prod) + k) :: (toBlock bs cs hs).2)⟩
    else none

/-- `tf.space_to_batch`. -/
def spaceToBatch {α : Type} [Zero α] (bs : List ℕ) (ps : List (ℕ × ℕ)) : Ten α → Option (Ten α) :=
  run (spacePlan bs ps)

/-- `tf.batch_to_space`. -/
def batchToSpace {α : Type} [Zero α] (bs : List ℕ) (cs : List (ℕ × ℕ)) : Ten α → Option (Ten α) :=
  run (batchPlan bs cs)

/-- Pond's tensors: the values or shares at the two servers (for a masked tensor those of `unmasked`, with the
public masked value and the shares of the mask), and `is_scaled`. -/
inductive PondTen (R : Type)
  | pub (v0 v1 : Ten R) (scaled : Bool)
  | priv (x0 x1 : Ten R) (scaled : Bool)
  | masked (x0 x1 : Ten R) (alpha0 alpha1 a0 a1 : Ten R) (scaled : Bool)

/-- `_space_to_batch_core`, `_batch_to_space_core` and the functions that wrap their results
(pond.py 3436-3537): every server applies the operation to what it holds; masked tensors give private
ones. -/
def onServers {R : Type} (f : Ten R → Option (Ten R)) : PondTen R → Option (PondTen R)
  | .pub v0 v1 sc => do
    let y0 ← f v0
    let y1 ← f v1
    return .pub y0 y1 sc
  | .priv x0 x1 sc => do
    let y0 ← f x0
    let y1 ← f x1
    return .priv y0 y1 sc
  | .masked x0 x1 _ _ _ _ sc => do
    let y0 ← f x0
    let y1 ← f x1
    return .priv y0 y1 sc

/-- `space_to_batch` (pond.py 1440-1441). -/
def space {R : Type} [Zero R] (x : PondTen R) (bs : List ℕ) (ps : List (ℕ × ℕ)) : Option (PondTen R) :=
  onServers (spaceToBatch bs ps) x

/-- `batch_to_space` (pond.py 1437-1438). -/
def batch {R : Type} [Zero R] (x : PondTen R) (bs : List ℕ) (cs : List (ℕ × ℕ)) : Option (PondTen R) :=
  onServers (batchToSpace bs cs) x

/-- The operations on int100 tensors: on every list of residues (int100.py 725-739). -/
def onResidues {ι : Type} {R : ι → Type} (f : ∀ i, Ten (R i) → Option (Ten (R i)))
    (x : ∀ i, Ten (R i)) (i : ι) : Option (Ten (R i)) := f i (x i)

/-- A 128-bit word in a backing tensor of int128 (int128.py 174-180): two 64-bit halves in a last axis. -/
def word {H : Type} (t : Ten H) (idx : List ℕ) : H × H := (t.get (idx ++ [0]), t.get (idx ++ [1]))

end Verif.Tensor.SpaceBatch
