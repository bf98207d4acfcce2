import Mathlib.Order.Lattice
import Mathlib.Order.Defs.LinearOrder
import Verif.Tensor.Model

/-!
# The arguments of `reduce_max` of ABY3

Models `tf_encrypted/protocol/aby3/aby3.py`: `reduce_max` (1852-1863), `_reduce_max_private`
(5013-5028), `_reduce_max_tree_private` (5031-5071), `_reduce_max_network_private` (5074-5093) and the
handling of the axis in `_sort_private` (5840-5905), on tensors of any rank.

What C29 and C30 prove about the protocols is used here as the meaning of the operations on entries: `maximum`
is the larger of two entries and sorting along the first axis sorts every column. Entries are from
any linear order. Splitting, slicing, gathering, squeezing, reshaping and transposing act on every
share separately and so on the value; they are TensorFlow's operations, modelled from their
documentation.
-/

namespace Verif.Aby3.ReduceMax

open Verif.Tensor

variable {α : Type} [LinearOrder α]

/-- How a call can fail. -/
inductive Err
  /-- A local variable is read that was not assigned (`UnboundLocalError`). -/
  | unboundLocal
  /-- `NotImplementedError` for an unknown method. -/
  | notImplemented
  /-- An axis outside the tensor. -/
  | index
  /-- Python's limit of the depth of calls. -/
  | recursion
  /-- `ValueError` and the errors of TensorFlow about sizes. -/
  | value
  deriving DecidableEq

/-- The `method` argument. -/
inductive Method
  | tree
  | network
  | other (s : String)
  deriving DecidableEq

/-- An axis of a tensor with `rank` axes, counted from the end if negative (Python's indexing of
`x.shape`, and TensorFlow's of axes). -/
def axisOf (rank : ℕ) (axis : ℤ) : Option ℕ :=
  if -(rank : ℤ) ≤ axis ∧ axis < rank then some (axis % rank).toNat else none

/-- `prot.split(x, int(x.shape[axis]), axis=axis)` (aby3.py:5067): slices of size one. -/
def split (x : Ten α) (k : ℕ) : List (Ten α) :=
  (List.range (x.shape.getD k 0)).map fun j => ⟨x.shape.set k 1, fun idx => x.get (idx.set k j)⟩

/-- `prot.maximum` of two tensors of one shape (C29). -/
def maximum (a b : Ten α) : Ten α := ⟨a.shape, fun idx => max (a.get idx) (b.get idx)⟩

/-- `build_comparison_tree` (aby3.py:5040-5047). Of no tensors it would call itself for ever. -/
def comparisonTree (ts : List (Ten α)) : Except Err (Ten α) :=
  match ts with
  | [] => .error .recursion
  | [t] => .ok t
  | a :: b :: r => do
    let half := (a :: b :: r).length / 2
    let left ← comparisonTree ((a :: b :: r).take half)
    let right ← comparisonTree ((a :: b :: r).drop half)
    return maximum left right
termination_by ts.length
decreasing_by all_goals (simp only [List.length_take, List.length_drop, List.length_cons]; omega)

/-- `vector_max` (aby3.py:5049-5058) of `n` entries. Of no entries it calls itself for ever. -/
def vectorMax (n : ℕ) (vec : ℕ → α) : Except Err α :=
  if n = 0 then .error .recursion
  else if n = 1 then .ok (vec 0)
  else
    let halfway := n / 2
    vectorMax (halfway + n % 2) fun i => max (vec i) (vec (halfway + i))
termination_by n
decreasing_by omega

/-- An operation of TensorFlow whose only failure is a size. -/
def orValue {β : Type} : Option β → Except Err β
  | some b => .ok b
  | none => .error .value

/-- `prot.squeeze(x, axis=(axis,))`: TensorFlow raises if the axis has not size one. -/
def squeeze (x : Ten α) (k : ℕ) : Except Err (Ten α) :=
  if x.shape.getD k 0 = 1 then .ok ⟨x.shape.eraseIdx k, fun idx => x.get (idx.insertIdx k 0)⟩
  else .error .value

/-- `_reduce_max_tree_private` (aby3.py:5031-5071). -/
def treeMax (x : Ten α) (axis : Option ℤ) (keepdims : Bool) : Except Err (Ten α) :=
  match axis with
  | none => do
    let vec ← orValue (reshapeInfer x [])
    let m ← vectorMax (vec.shape.getD 0 0) fun i => vec.get [i]
    let maximum : Ten α := ⟨[], fun _ => m⟩
    if keepdims then orValue (reshape maximum (List.replicate x.shape.length 1)) else return maximum
  | some a =>
    match axisOf x.shape.length a with
    | none => .error .index
    | some k =>
      -- `tf.split` into no parts raises
      if x.shape.getD k 0 = 0 then .error .value
      else do
        let m ← comparisonTree (split x k)
        if !keepdims then squeeze m k else return m

/-- The entries of the column `idx` of a tensor whose first axis has size `n`. -/
def column (x : Ten α) (n : ℕ) (idx : List ℕ) : List α := (List.range n).map fun j => x.get (j :: idx)

/-- Sorting along the first axis (aby3.py:5852-5897; C30): every column is sorted, in ascending or
descending order. Of one row or none, building the list of steps raises. -/
def sortRows (acc : Bool) (x : Ten α) : Except Err (Ten α) :=
  match x.shape with
  | [] => .error .value
  | n :: _ =>
    if n ≤ 1 then .error .value
    else .ok ⟨x.shape, fun idx =>
      ((column x n idx.tail).mergeSort fun a b => if acc then decide (a ≤ b) else decide (b ≤ a)).getD
        (idx.headD 0) (x.get idx)⟩

/-- `sort(x, axis, acc)` (aby3.py:5840-5905): the axis is moved to the front, the rows are sorted, and
the axis is moved back. An axis outside the tensor is taken modulo the number of axes; without axes
that is a division by zero. -/
def sort (x : Ten α) (axis : ℤ) (acc : Bool) : Except Err (Ten α) :=
  let r := x.shape.length
  if r = 0 then .error .value
  else do
    let k := (axis % r).toNat
    let x ← if k ≠ 0 then
        orValue (transpose x ([k] ++ List.range k ++ List.range' (k + 1) (r - (k + 1)))) else .ok x
    let x ← sortRows acc x
    if k ≠ 0 then
      orValue (transpose x (List.range' 1 k ++ [0] ++ List.range' (k + 1) (r - (k + 1)))) else return x

/-- `prot.gather(y, [0], axis)` keeps the axis, `prot.gather(y, 0, axis)` drops it. -/
def gatherFirst (y : Ten α) (axis : ℤ) (keepdims : Bool) : Except Err (Ten α) :=
  match axisOf y.shape.length axis with
  | none => .error .index
  | some k =>
    if y.shape.getD k 0 = 0 then .error .value
    else if keepdims then .ok ⟨y.shape.set k 1, fun idx => y.get (idx.set k 0)⟩
    else .ok ⟨y.shape.eraseIdx k, fun idx => y.get (idx.insertIdx k 0)⟩

/-- `_reduce_max_network_private` (aby3.py:5074-5093). Without an axis `x` is replaced by the vector, so
the shape of the result with `keepdims` has one axis; without `keepdims`, `maximum` is never
assigned. -/
def networkMax (x : Ten α) (axis : Option ℤ) (keepdims : Bool) : Except Err (Ten α) :=
  match axis with
  | none => do
    let x ← orValue (reshapeInfer x [])
    let y ← sort x 0 false
    if keepdims then
      orValue (reshape (⟨[], fun _ => y.get [0]⟩ : Ten α) (List.replicate x.shape.length 1))
    else .error .unboundLocal
  | some a => do
    let y ← sort x a false
    gatherFirst y a keepdims

/-- `reduce_max(x, axis, keepdims, method)` of a private tensor (aby3.py:1852-1863, 5013-5028). -/
def reduceMax (x : Ten α) (axis : Option ℤ) (keepdims : Bool) : Method → Except Err (Ten α)
  | .tree => treeMax x axis keepdims
  | .network => networkMax x axis keepdims
  | .other _ => .error .notImplemented

end Verif.Aby3.ReduceMax
