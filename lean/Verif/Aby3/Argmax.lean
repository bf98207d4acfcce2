import Verif.Aby3.ReduceMax
import Verif.Keras.Depthwise

/-!
# The arguments of `argmax` and `reduce_max_with_argmax`

Models `tf_encrypted/protocol/aby3/aby3.py`: `argmax` and `reduce_max_with_argmax` (1865-1877, 5096-5167), and
`tf_encrypted/protocol/securenn/securenn.py`: `argmax`, `reduce_max_with_argmax` (497-559), which is the output
style "normal" without `keepdims`. As in `ReduceMax.lean` the comparisons and selections of entries are taken as
proved (C29, C36); the model is about shapes, axes and which entries meet. Constants and selections are broadcast
as numpy and TensorFlow do.
-/

namespace Verif.Aby3.ReduceMax

open Verif.Tensor Verif.Keras

variable {α : Type} [LinearOrder α] {β : Type}

/-- `greater_than(x, y)` of two tensors of one shape. -/
def greater (x y : Ten α) : Ten Bool := ⟨x.shape, fun idx => decide (y.get idx < x.get idx)⟩

/-- `select(c, x, y)` (aby3.py:1782-1811; securenn.py:295-334): `y` where the bit is set. The operands `x` and `y`
are combined first, then the bit; `x` is added to that again, which does not change the shape. -/
def select (c : Ten Bool) (x y : Ten β) : Except Err (Ten β) := do
  let s ← orValue (bcastShape x.shape y.shape)
  let s ← orValue (bcastShape s c.shape)
  return ⟨s, fun idx => if Ten.bget c idx then Ten.bget y idx else Ten.bget x idx⟩

/-- `build_comparison_tree` (aby3.py:5107-5132; securenn.py:523-547) on the slices with their indices. -/
def argTree (ts : List (Ten α × Ten β)) : Except Err (Ten α × Ten β) :=
  match ts with
  | [] => .error .recursion
  | [t] => .ok t
  | a :: b :: r => do
    let half := (a :: b :: r).length / 2
    let left ← argTree ((a :: b :: r).take half)
    let right ← argTree ((a :: b :: r).drop half)
    let g := greater left.1 right.1
    let maximum ← select g right.1 left.1
    let argmax ← select g right.2 left.2
    return (maximum, argmax)
termination_by ts.length
decreasing_by all_goals (simp only [List.length_take, List.length_drop, List.length_cons]; omega)

/-- `l[:a]` of a Python list. -/
def pyTake (l : List ℕ) (a : ℤ) : List ℕ := l.take (if a < 0 then (l.length + a).toNat else a.toNat)

/-- `l[a:]` of a Python list. -/
def pyDrop (l : List ℕ) (a : ℤ) : List ℕ := l.drop (if a < 0 then (l.length + a).toNat else a.toNat)

/-- `[1] * a + [n] + [1] * (r - a - 1)` (aby3.py:5137). A list times a negative number is empty. -/
def initShape (r : ℕ) (axis : ℤ) (n : ℕ) : List ℕ :=
  List.replicate axis.toNat 1 ++ [n] ++ List.replicate (r - axis - 1).toNat 1

/-- `x.shape[:axis] + [1] + x.shape[(axis + 1):]` (aby3.py:5138-5140). -/
def tileShape (s : List ℕ) (axis : ℤ) : List ℕ := pyTake s axis ++ [1] ++ pyDrop s (axis + 1)

/-- `np.tile`: the shorter of the two shapes gets ones in front, and the array is repeated. -/
def tile (t : Ten β) (reps : List ℕ) : Ten β :=
  let r := max t.shape.length reps.length
  let s := List.replicate (r - t.shape.length) 1 ++ t.shape
  ⟨List.zipWith (· * ·) s (List.replicate (r - reps.length) 1 ++ reps),
    fun idx => t.get ((List.zipWith (· % ·) idx s).drop (r - t.shape.length))⟩

/-- `np.tile(np.reshape(np.eye(n)[i], idx_init_shape), tile_shape)` (aby3.py:5141-5150). -/
def oneHot (s : List ℕ) (axis : ℤ) (n i : ℕ) : Except Err (Ten Bool) := do
  let row : Ten Bool := ⟨[n], fun idx => decide (idx.headD 0 = i)⟩
  let t ← orValue (reshape row (initShape s.length axis n))
  return tile t (tileShape s axis)

/-- `prot.squeeze(x, axis=(axis,))` with an axis that may count from the end. -/
def squeezeAt (x : Ten β) (axis : ℤ) : Except Err (Ten β) :=
  match axisOf x.shape.length axis with
  | none => .error .index
  | some k =>
    if x.shape.getD k 0 = 1 then .ok ⟨x.shape.eraseIdx k, fun idx => x.get (idx.insertIdx k 0)⟩
    else .error .value

/-- `if not keepdims: maximum = prot.squeeze(maximum, axis=(axis,))` (aby3.py:5162-5163). -/
def dropUnless (keepdims : Bool) (x : Ten β) (axis : ℤ) : Except Err (Ten β) :=
  if !keepdims then squeezeAt x axis else .ok x

/-- `reduce_max_with_argmax(x, axis, keepdims, output_style="onehot")` (aby3.py:5103-5167). -/
def maxOneHot (x : Ten α) (axis : ℤ) (keepdims : Bool) : Except Err (Ten α × Ten Bool) :=
  match axisOf x.shape.length axis with
  | none => .error .index
  | some k =>
    let n := x.shape.getD k 0
    if n = 0 then .error .value
    else do
      let indices ← (List.range n).mapM fun i => oneHot x.shape axis n i
      let (maximum, argmax) ← argTree ((split x k).zip indices)
      let maximum ← dropUnless keepdims maximum axis
      return (maximum, argmax)

/-- `reduce_max_with_argmax(x, axis, keepdims, output_style="normal")` (aby3.py:5103-5167; with `keepdims=False` securenn.py:520-559): the
index of a slice is a constant of shape `[1]`. -/
def maxIndex (x : Ten α) (axis : ℤ) (keepdims : Bool) : Except Err (Ten α × Ten ℕ) :=
  match axisOf x.shape.length axis with
  | none => .error .index
  | some k =>
    let n := x.shape.getD k 0
    if n = 0 then .error .value
    else do
      let indices : List (Ten ℕ) := (List.range n).map fun i => ⟨[1], fun _ => i⟩
      let (maximum, argmax) ← argTree ((split x k).zip indices)
      let maximum ← dropUnless keepdims maximum axis
      let argmax ← squeezeAt argmax axis
      return (maximum, argmax)

end Verif.Aby3.ReduceMax
