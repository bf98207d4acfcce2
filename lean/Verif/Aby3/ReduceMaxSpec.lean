import Verif.Tensor.Model
import Mathlib.Order.Defs.LinearOrder

/-!
# What `tf.reduce_max` returns

Shape and entries of the largest elements of a tensor, over all axes or along one (the documentation
of `tf.reduce_max`). Stated without reference to the model of the protocol.
-/

namespace Verif.Aby3.ReduceMax

open Verif.Tensor

/-- Axis `a` of a tensor with `rank` axes is its axis number `k`, counted from the front or the end. -/
def IsAxis (rank : ℕ) (a : ℤ) (k : ℕ) : Prop := k < rank ∧ (a = k ∨ a = (k : ℤ) - rank)

/-- The shape of the result. -/
def resultShape (s : List ℕ) : Option ℕ → (keepdims : Bool) → List ℕ
  | none, false => []
  | none, true => List.replicate s.length 1
  | some k, false => s.eraseIdx k
  | some k, true => s.set k 1

/-- The position `src` of the argument is one of those the entry `idx` of the result is about. -/
def Feeds (s : List ℕ) (axis : Option ℕ) (keepdims : Bool) (idx src : List ℕ) : Prop :=
  InShape s src ∧ match axis, keepdims with
    | none, _ => True
    | some k, false => src.eraseIdx k = idx
    | some k, true => src.set k 0 = idx

/-- `y` is `tf.reduce_max(x, axis, keepdims)`: it has the documented shape, and every entry is the largest of the
entries of `x` it is about. -/
def IsReduceMax {α : Type} [LinearOrder α] (x : Ten α) (axis : Option ℕ) (keepdims : Bool) (y : Ten α) : Prop :=
  y.shape = resultShape x.shape axis keepdims ∧
  ∀ idx, InShape y.shape idx →
    (∃ src, Feeds x.shape axis keepdims idx src ∧ y.get idx = x.get src) ∧
    ∀ src, Feeds x.shape axis keepdims idx src → x.get src ≤ y.get idx

end Verif.Aby3.ReduceMax
