import Verif.Convert.Struct
import Mathlib.Data.List.Sort

/-!
# The gradients of converted nodes without layers

The methods `backward` of `tf_encrypted/convert/nodes.py`, for the nodes in `Struct.lean`. They get the gradients of
the outputs and return those of the computed inputs; `AddNode` with a constant also returns the gradient of the
constant.
-/

namespace Verif.Convert

open Verif.Tensor Verif.Keras

/-- `AddNode.backward` with two computed inputs (nodes.py 111-115). -/
def addBack (dys : List (Ten ℝ)) : Except NErr (List (Ten ℝ)) :=
  (argAt dys 0).map fun d => [d, d]

/-- `d_y.reduce_sum(axis=0)`. -/
def sumBatch (d : Ten ℝ) : Except NErr (Ten ℝ) :=
  match d.shape with
  | [] => .error .shape
  | n :: s => .ok ⟨s, fun i => ∑ b ∈ Finset.range n, d.get (b :: i)⟩

/-- `AddNode.backward` with a constant (nodes.py 111-121). Dividing by an empty batch raises. -/
noncomputable def addBiasBack (dys : List (Ten ℝ)) : Except NErr (List (Ten ℝ) × List (Ten ℝ)) := do
  let d ← argAt dys 0
  let b ← sumBatch d
  if d.shape.headD 0 = 0 then .error .zeroDiv
  else .ok ([⟨b.shape, fun i => b.get i / (d.shape.headD 0 : ℝ)⟩], [d])

/-- `tfe.negative`. -/
def negT (x : Ten ℝ) : Ten ℝ := ⟨x.shape, fun i => -x.get i⟩

/-- `SubNode.backward` (nodes.py 138-140). -/
def subBack (dys : List (Ten ℝ)) : Except NErr (List (Ten ℝ)) :=
  (argAt dys 0).map fun d => [d, negT d]

/-- `MulNode.backward` (nodes.py 159-163), with the inputs that `forward` has stored. -/
noncomputable def mulBack (a b : Ten ℝ) (dys : List (Ten ℝ)) : Except NErr (List (Ten ℝ)) := do
  let d ← argAt dys 0
  let da ← orShape (bcastOp (· * ·) b d).toOption
  let db ← orShape (bcastOp (· * ·) a d).toOption
  .ok [da, db]

/-- `NegativeNode.backward` (nodes.py 178-179). -/
def negBack (dys : List (Ten ℝ)) : Except NErr (List (Ten ℝ)) :=
  (argAt dys 0).map fun d => [negT d]

/-- `backward` of `ReshapeNode`, `FlattenNode`, `ExpandDimsNode` and `SqueezeNode` (nodes.py 768-770, 788-790,
831-832, 858-859), for the declared shape of the input. -/
def reshapeBack (s : List ℤ) (dys : List (Ten ℝ)) : Except NErr (List (Ten ℝ)) := reshapeTo s dys

/-- `np.argsort`. -/
def argsort (p : List ℤ) : List ℕ := (List.range p.length).mergeSort fun a b => p.getD a 0 ≤ p.getD b 0

/-- `TransposeNode.backward` (nodes.py 808-809). -/
def transposeBack (p : List ℤ) (dys : List (Ten ℝ)) : Except NErr (List (Ten ℝ)) :=
  transposeBy ((argsort p).map fun k : ℕ => (k : ℤ)) dys

/-- `ConcatNode.backward` (nodes.py 709-716, 721-723) for the declared shapes of the inputs. Simplified: a single size −1, which
`tf.split` would infer, raises here; the theorems ask for known sizes. -/
def concatBack (a : ℤ) (ss : List (List ℤ)) (dys : List (Ten ℝ)) : Except NErr (List (Ten ℝ)) := do
  let d ← argAt dys 0
  let dims ← ss.mapM fun s => (axisAt s.length a).map fun k => s.getD k 0
  orShape (splitT a dims d)

/-- `SplitNode.backward` (nodes.py 697-698). -/
def splitBack (a : ℤ) (dys : List (Ten ℝ)) : Except NErr (List (Ten ℝ)) :=
  (orShape (concatT a dys)).map fun y => [y]

/-- `StackNode.backward` (nodes.py 745-750): neither protocol knows the keyword `num_or_size_splits`. -/
def stackBack (_dys : List (Ten ℝ)) : Except NErr (List (Ten ℝ)) := .error .type

/-- `StrideSliceNode.backward` and `GatherNode.backward` (nodes.py 636-638, 667-669). -/
def sliceBack (_dys : List (Ten ℝ)) : Except NErr (List (Ten ℝ)) := .error .notImplemented

/-- `PadNode.backward` (nodes.py 882-892). A list of amounts that is longer than the rank raises. -/
def padBack (p : List ℤ) (dys : List (Ten ℝ)) : Except NErr (List (Ten ℝ)) := do
  let d ← argAt dys 0
  if d.shape.length < p.length / 2 then .error .index
  else
    let ks := List.range (p.length / 2)
    let start := ks.map fun k => p.getD k 0
    let stop := ks.map fun k => (d.shape.getD k 0 : ℤ) - p.getD (k + p.length / 2) 0
    (orShape (sliceT start stop (List.replicate (p.length / 2) 1) d)).map fun y => [y]

end Verif.Convert
