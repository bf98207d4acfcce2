import Verif.Keras.Conv

/-!
# `Reshape` and `Flatten`: declared and actual shapes

`tf_encrypted/keras/layers/reshape.py` and `flatten.py`.
-/

namespace Verif.Keras

open Verif.Tensor

variable {α : Type}

/-- The shape that `tf.reshape` gives a tensor with `total` entries: at most one dimension may be -1 and
is inferred, which is impossible if the others multiply to zero; other negative numbers raise. Not in
/repo: TensorFlow's documented behaviour. -/
def inferShape (total : ℕ) (s : List ℤ) : Option (List ℕ) :=
  if s.any (· < -1) then none
  else if s.count (-1) = 0 then
    if (s.map Int.toNat).prod = total then some (s.map Int.toNat) else none
  else if s.count (-1) = 1 then
    let known := ((s.filter (· ≠ -1)).map Int.toNat).prod
    if known = 0 ∨ total % known ≠ 0 then none
    else some (s.map fun d => if d = -1 then total / known else d.toNat)
  else none

/-- `tf.reshape(t, s)`. -/
def tfReshape (t : Ten α) (s : List ℤ) : Option (Ten α) :=
  (inferShape t.shape.prod s).bind (Tensor.reshape t)

/-- The two messages of the `ValueError`. -/
inductive ReErr
  | twoUnknown
  | size
  | empty
  deriving DecidableEq, Repr

/-- The loop of `_fix_unknown_dimension` (reshape.py 57-66): `known` and `unknown` as they are updated. -/
def scanDims : List ℤ → ℕ → ℕ → Option ℕ → Except ReErr (ℕ × Option ℕ)
  | [], _, known, unknown => .ok (known, unknown)
  | d :: ds, i, known, unknown =>
      if d < 0 then
        match unknown with
        | none => scanDims ds (i + 1) known (some i)
        | some _ => .error .twoUnknown
      else scanDims ds (i + 1) (known * d.toNat) unknown

/-- `_fix_unknown_dimension` (reshape.py 37-75). -/
def fixUnknown (input : List ℕ) (target : List ℤ) : Except ReErr (List ℤ) :=
  match scanDims target 0 1 none with
  | .error e => .error e
  | .ok (known, some u) =>
      if known = 0 ∨ input.prod % known ≠ 0 then .error .size
      else .ok (target.set u (input.prod / known : ℕ))
  | .ok (known, none) => if input.prod ≠ known then .error .size else .ok target

/-- `Reshape.compute_output_shape` (reshape.py 77-88) for an input whose dimensions are known. -/
def reshapeShape (batch : ℕ) (input : List ℕ) (target : List ℤ) : Except ReErr (List ℤ) :=
  (fixUnknown input target).map ((batch : ℤ) :: ·)

/-- `Reshape.call` (reshape.py 90-92). -/
def reshapeCall (target : List ℤ) (x : Ten α) : Option (Ten α) :=
  match x.shape with
  | [] => none
  | b :: _ => tfReshape x ((b : ℤ) :: target)

/-- `Reshape.backward` (reshape.py 94-97): the gradient gets the shape of the stored input. -/
def reshapeBack (x d : Ten α) : Option (Ten α) := Tensor.reshape d x.shape

/-- The permutation of `Flatten.call` (flatten.py 36-40): `[0, 2, …, rank - 1, 1]`. -/
def flattenPerm (rank : ℕ) : List ℕ := 0 :: ((List.range (rank - 2)).map (· + 2) ++ [1])

/-- `Flatten.call` (flatten.py 31-49). -/
def flattenCall (last : Bool) (x : Ten α) : Option (Ten α) :=
  match x.shape with
  | [] => none
  | [b] => tfReshape x [(b : ℤ), 1]
  | b :: _ =>
      if last then tfReshape x [(b : ℤ), -1]
      else (Tensor.transpose x (flattenPerm x.shape.length)).bind fun t => tfReshape t [(b : ℤ), -1]

/-- `Flatten.compute_output_shape` (flatten.py 60-68): `none` in the second place is the `None` for an
unknown size. -/
def flattenShape : List ℕ → Except ReErr (ℕ × Option ℕ)
  | [] => .error .empty
  | b :: rest => .ok (b, if rest.all (· ≠ 0) then some rest.prod else none)

end Verif.Keras
