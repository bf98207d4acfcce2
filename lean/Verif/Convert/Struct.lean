import Verif.Convert.Nodes
import Verif.Tensor.Pool
import Mathlib.Analysis.SpecialFunctions.Exp

/-!
# The nodes of an ONNX graph that have no layer: arithmetic, and moving entries around

`tf_encrypted/convert/nodes.py`: `AddNode`, `SubNode`, `MulNode`, `NegativeNode`, `ReluNode`, `SoftmaxNode`,
`ReshapeNode`, `FlattenNode`, `TransposeNode`, `ExpandDimsNode`, `SqueezeNode`, `ConcatNode`, `SplitNode`,
`StrideSliceNode`, `GatherNode`, `PadNode`. The TensorFlow operations are modelled from their documentation; the
protocols apply them to every share. Arithmetic is exact.
-/

namespace Verif.Convert

open Verif.Tensor Verif.Keras

/-- An axis, or an index of a Python list, that counts from the end if it is negative. -/
def axisOf (rank : ℕ) (a : ℤ) : Option ℕ :=
  if 0 ≤ a then (if a < rank then some a.toNat else none)
  else if 0 ≤ a + rank then some (a + rank).toNat else none

/-- The axis of a Python list, or `IndexError`. -/
def axisAt (rank : ℕ) (a : ℤ) : Except NErr ℕ :=
  match axisOf rank a with
  | some k => .ok k
  | none => .error .index

/-- `list(inputs[k].numpy())` of a constant vector of integers. A declared shape is a list and has no
`numpy`; real constants are rejected where the numbers are used. -/
def intsAt (ins : List Inp) (k : ℕ) : Except NErr (List ℤ) :=
  match inpAt ins k with
  | .error e => .error e
  | .ok (.shape _) => .error .attribute
  | .ok (.real _) => .error .type
  | .ok (.nums _ data) => .ok data

/-! ## Arithmetic -/

/-- `tfe.add`, `tfe.sub` and `tfe.mul` with broadcasting. -/
noncomputable def pointCall (f : ℝ → ℝ → ℝ) (a b : Ten ℝ) : Except NErr (List (Ten ℝ)) := do
  let y ← orShape (bcastOp f a b).toOption
  .ok [y]

/-- `forward` with two inputs (nodes.py 107, 136, 158). -/
noncomputable def pointBoth (f : ℝ → ℝ → ℝ) (xs : List (Ten ℝ)) : Except NErr (List (Ten ℝ)) := do
  let a ← argAt xs 0
  let b ← argAt xs 1
  pointCall f a b

/-- `AddNode` (nodes.py 86-109). -/
noncomputable def addNode (ins : List Inp) : Except NErr Built := do
  let s ← shapeAt ins 0
  match inpAt ins 1 with
  | .error e => .error e
  | .ok (.shape _) => .ok ⟨[s], pointBoth (· + ·)⟩
  | .ok _ => do
      let t ← tensorAt ins 1
      .ok ⟨[s], fun xs => (argAt xs 0).bind fun a => pointCall (· + ·) a t⟩

/-- `SubNode` and `MulNode` (nodes.py 125-136, 143-158): both inputs must be computed. -/
noncomputable def binNode (f : ℝ → ℝ → ℝ) (ins : List Inp) : Except NErr Built := do
  let s ← shapeAt ins 0
  let _ ← shapeAt ins 1
  .ok ⟨[s], pointBoth f⟩

/-- `NegativeNode` (nodes.py 166-176) and `ReluNode` (461-476): one operation on every entry. -/
def mapNode (f : ℝ → ℝ) (ins : List Inp) : Except NErr Built := do
  let s ← shapeAt ins 0
  .ok ⟨[s], fun xs => (argAt xs 0).map fun x => [⟨x.shape, fun i => f (x.get i)⟩]⟩

/-- `tfe.softmax` (aby3.py 5526-5538): along the last axis. -/
noncomputable def softmaxLast (x : Ten ℝ) : Except NErr (Ten ℝ) :=
  if x.shape = [] then .error .value
  else .ok ⟨x.shape, fun i => Real.exp (x.get i) /
    ∑ q ∈ Finset.range (x.shape.getLastD 0), Real.exp (x.get (i.dropLast ++ [q]))⟩

/-- `SoftmaxNode` (nodes.py 505-520). The attributes are not read. -/
noncomputable def softmaxNode (_as : List Attr) (ins : List Inp) : Except NErr Built := do
  let s ← shapeAt ins 0
  .ok ⟨[s], fun xs => (argAt xs 0).bind fun x => (softmaxLast x).map fun y => [y]⟩

/-! ## Shapes -/

/-- `tfe.reshape(x, s)` as `forward`. -/
def reshapeTo (s : List ℤ) (xs : List (Ten ℝ)) : Except NErr (List (Ten ℝ)) := do
  let x ← argAt xs 0
  let y ← orShape (tfReshape x s)
  .ok [y]

/-- `ReshapeNode` (nodes.py 753-766): the constant is both the argument of `reshape` and the declared shape. -/
def reshapeNode (ins : List Inp) : Except NErr Built := do
  let _ ← shapeAt ins 0
  let s ← intsAt ins 1
  .ok ⟨[s], reshapeTo s⟩

/-- `FlattenNode` (nodes.py 773-786). `reduce` of nothing raises `TypeError`. The attributes are not read. -/
def flattenNode (_as : List Attr) (ins : List Inp) : Except NErr Built := do
  let s ← shapeAt ins 0
  if s.tail = [] then .error .type else .ok ⟨[[-1, s.tail.prod]], reshapeTo [-1, s.tail.prod]⟩

/-- `np.array(inputs[0])[perm]`. -/
def permuted (s : List ℤ) : List ℤ → Except NErr (List ℤ)
  | [] => .ok []
  | a :: p =>
      match axisOf s.length a with
      | none => .error .index
      | some k => (permuted s p).map (s.getD k 0 :: ·)

/-- `tfe.transpose(x, perm=…)` as `forward`. `tf.transpose` rejects negative axes. -/
def transposeBy (p : List ℤ) (xs : List (Ten ℝ)) : Except NErr (List (Ten ℝ)) := do
  let x ← argAt xs 0
  if p.any (· < 0) then .error .shape else do
    let y ← orShape (Tensor.transpose x (p.map Int.toNat))
    .ok [y]

/-- `TransposeNode` (nodes.py 793-806). -/
def transposeNode (as : List Attr) (ins : List Inp) : Except NErr Built := do
  let s ← shapeAt ins 0
  let a ← attrAt as 0
  let out ← permuted s a.ints
  .ok ⟨[out], transposeBy a.ints⟩

/-- The loops that insert a dimension in front of position `a` (nodes.py 822-826): nothing is inserted if
there is no such position. -/
def insertAt (a d : ℤ) : ℕ → List ℤ → List ℤ
  | _, [] => []
  | i, x :: r => if (i : ℤ) = a then d :: x :: insertAt a d (i + 1) r else x :: insertAt a d (i + 1) r

/-- `tf.expand_dims`: a dimension of size 1 more. -/
def expandTo (a : ℤ) (xs : List (Ten ℝ)) : Except NErr (List (Ten ℝ)) := do
  let x ← argAt xs 0
  let y ← orShape ((axisOf (x.shape.length + 1) a).bind fun k => Tensor.reshape x (x.shape.insertIdx k 1))
  .ok [y]

/-- `inputs[1].numpy().item()` (nodes.py 820): only for a single number. -/
def itemAt (ins : List Inp) (k : ℕ) : Except NErr ℤ := do
  match ← intsAt ins k with
  | [a] => .ok a
  | _ => .error .value

/-- `ExpandDimsNode` (nodes.py 812-829), for ExpandDims and Unsqueeze. -/
def expandNode (ins : List Inp) : Except NErr Built := do
  let s ← shapeAt ins 0
  let a ← itemAt ins 1
  .ok ⟨[insertAt a 1 0 s], expandTo a⟩

/-- The axes that `tf.squeeze` removes: all of size 1, or the ones listed, which must be of size 1. -/
def squeezeAxes (s : List ℕ) : Option (List ℤ) → Option (List ℕ)
  | none => some ((List.range s.length).filter fun k => s.getD k 0 = 1)
  | some l => l.mapM fun a => (axisOf s.length a).bind fun k => if s.getD k 0 = 1 then some k else none

/-- The dimensions that are left without the axes. -/
def dropAxes {β : Type} (ks : List ℕ) : ℕ → List β → List β
  | _, [] => []
  | i, d :: r => if i ∈ ks then dropAxes ks (i + 1) r else d :: dropAxes ks (i + 1) r

/-- `tf.squeeze(x, axis)`; an empty list of axes is the same as none. -/
def squeezeBy (axes : Option (List ℤ)) (xs : List (Ten ℝ)) : Except NErr (List (Ten ℝ)) := do
  let x ← argAt xs 0
  let y ← orShape ((squeezeAxes x.shape (axes.bind fun l => if l = [] then none else some l)).bind fun ks =>
    Tensor.reshape x (dropAxes ks 0 x.shape))
  .ok [y]

/-- The declared shape of `SqueezeNode` (nodes.py 849-853). -/
def squeezeDecl (axes : Option (List ℤ)) : ℕ → List ℤ → List ℤ
  | _, [] => []
  | i, d :: r =>
      if d = 1 ∧ (∀ l, axes = some l → (i : ℤ) ∈ l) then squeezeDecl axes (i + 1) r
      else d :: squeezeDecl axes (i + 1) r

instance (axes : Option (List ℤ)) (i : ℤ) : Decidable (∀ l, axes = some l → i ∈ l) :=
  match axes with
  | none => isTrue (by simp)
  | some l => decidable_of_iff (i ∈ l) (by simp)

/-- `self.axes` (nodes.py 843-846). -/
def axesInput (ins : List Inp) : Except NErr (Option (List ℤ)) :=
  if ins.length = 2 then (intsAt ins 1).map some else .ok none

/-- `SqueezeNode` (nodes.py 835-856). The attributes are not read. -/
def squeezeNode (_as : List Attr) (ins : List Inp) : Except NErr Built := do
  let s ← shapeAt ins 0
  let axes ← axesInput ins
  .ok ⟨[squeezeDecl axes 0 s], squeezeBy axes⟩

/-! ## Parts -/

/-- The entry of a concatenation along axis `k`. -/
def concatGet (k : ℕ) : List (Ten ℝ) → List ℕ → ℝ
  | [], _ => 0
  | t :: r, i =>
      if i.getD k 0 < t.shape.getD k 0 then t.get i
      else concatGet k r (i.set k (i.getD k 0 - t.shape.getD k 0))

/-- `tf.concat`: the shapes must agree except along the axis. -/
def concatT (a : ℤ) : List (Ten ℝ) → Option (Ten ℝ)
  | [] => none
  | x :: r =>
      match axisOf x.shape.length a with
      | none => none
      | some k =>
          if ∀ y ∈ r, y.shape.set k 0 = x.shape.set k 0 then
            some ⟨x.shape.set k ((x :: r).map fun y => y.shape.getD k 0).sum, concatGet k (x :: r)⟩
          else none

/-- The declared shapes of all inputs. Constants among them are not modelled and raise here. -/
def shapesOf : List Inp → Except NErr (List (List ℤ))
  | [] => .ok []
  | .shape s :: r => (shapesOf r).map (s :: ·)
  | _ :: _ => .error .type

/-- `input_shape[self.axis]` for every input, summed (nodes.py 714-716). -/
def sumDims (a : ℤ) : List (List ℤ) → Except NErr ℤ
  | [] => .ok 0
  | s :: r =>
      match axisOf s.length a with
      | none => .error .index
      | some k => (sumDims a r).map (s.getD k 0 + ·)

/-- `ConcatNode` (nodes.py 701-720). -/
def concatNode (as : List Attr) (ins : List Inp) : Except NErr Built := do
  let s ← shapeAt ins 0
  let ax ← attrAt as 0
  let k ← axisAt s.length ax.i
  let ss ← shapesOf ins
  let d ← sumDims ax.i ss
  .ok ⟨[s.set k d], fun xs => (orShape (concatT ax.i xs)).map fun y => [y]⟩

/-- The parts of a tensor along axis `k`, from position `off` on. -/
def splitParts (k : ℕ) (x : Ten ℝ) : ℕ → List ℕ → List (Ten ℝ)
  | _, [] => []
  | off, n :: r => ⟨x.shape.set k n, fun i => x.get (i.set k (off + i.getD k 0))⟩ :: splitParts k x (off + n) r

/-- `tf.split` into parts of the given sizes, which must add up to the size of the axis. (The size -1, for the
rest, is not modelled.) -/
def splitT (a : ℤ) (sizes : List ℤ) (x : Ten ℝ) : Option (List (Ten ℝ)) :=
  match axisOf x.shape.length a with
  | none => none
  | some k =>
      if sizes.all (0 ≤ ·) ∧ (sizes.map Int.toNat).sum = x.shape.getD k 0 then
        some (splitParts k x 0 (sizes.map Int.toNat))
      else none

/-- `tf.split` into `n` equal parts. -/
def splitEven (a : ℤ) (n : ℕ) (x : Ten ℝ) : Option (List (Ten ℝ)) :=
  match axisOf x.shape.length a with
  | none => none
  | some k =>
      if n = 0 ∨ x.shape.getD k 0 % n ≠ 0 then none
      else some (splitParts k x 0 (List.replicate n (x.shape.getD k 0 / n)))

/-- `SplitNode` with sizes (nodes.py 680-685). The axis of the declared shape is used once for every size. -/
def splitSized (s : List ℤ) (a : ℤ) (sizes : List ℤ) : Except NErr Built :=
  match axisOf s.length a with
  | none => if sizes = [] then .ok ⟨[], fun xs => (argAt xs 0).bind fun x => orShape (splitT a sizes x)⟩ else .error .index
  | some k => .ok ⟨sizes.map fun d => s.set k d, fun xs => (argAt xs 0).bind fun x => orShape (splitT a sizes x)⟩

/-- `SplitNode` without sizes (nodes.py 686-692). The declared dimension is a float; one that is not a whole
number is not modelled and raises here. -/
def splitEqual (s : List ℤ) (a : ℤ) (outs : ℕ) : Except NErr Built :=
  match axisOf s.length a with
  | none => .error .index
  | some k =>
      if outs = 0 then .error .zeroDiv
      else if s.getD k 0 % outs ≠ 0 then .error .value
      else .ok ⟨List.replicate outs (s.set k (s.getD k 0 / outs)),
        fun xs => (argAt xs 0).bind fun x => orShape (splitEven a outs x)⟩

/-- `SplitNode` (nodes.py 672-695) with `outs` outputs. -/
def splitNode (as : List Attr) (outs : ℕ) (ins : List Inp) : Except NErr Built := do
  let s ← shapeAt ins 0
  let ax ← attrAt as 0
  if ins.length = 2 then do
    let sizes ← intsAt ins 1
    splitSized s ax.i sizes
  else splitEqual s ax.i outs

/-! ## Slices -/

/-- Where `tf.strided_slice` starts along an axis of size `d`, and how many entries it takes; a step of 0
raises. -/
def sliceDim (d : ℕ) (b e s : ℤ) : Option (ℤ × ℕ) :=
  let b := if b < 0 then b + d else b
  let e := if e < 0 then e + d else e
  if s = 0 then none
  else if 0 < s then
    some (min (max b 0) d, (-((min (max b 0) d - min (max e 0) d) / s)).toNat)
  else
    some (min (max b (-1)) (d - 1), (-((min (max e (-1)) (d - 1) - min (max b (-1)) (d - 1)) / -s)).toNat)

/-- All axes: shape, and the positions of an entry. -/
def sliceDims : List ℕ → List ℤ → List ℤ → List ℤ → Option (List (ℤ × ℕ × ℤ))
  | [], [], [], [] => some []
  | d :: ds, b :: bs, e :: es, s :: ss => do
      let p ← sliceDim d b e s
      let r ← sliceDims ds bs es ss
      some ((p.1, p.2, s) :: r)
  | _, _, _, _ => none

/-- `tf.strided_slice`. -/
def sliceT (b e s : List ℤ) (x : Ten ℝ) : Option (Ten ℝ) :=
  (sliceDims x.shape b e s).map fun ps =>
    ⟨ps.map fun p => p.2.1, fun i => x.get (List.zipWith (fun (p : ℤ × ℕ × ℤ) (q : ℕ) => (p.1 + q * p.2.2).toNat) ps i)⟩

/-- `target[a] = value` for every axis (nodes.py 612-618). -/
def setAxes : List ℤ → List ℤ → List ℤ → Except NErr (List ℤ)
  | t, [], _ => .ok t
  | _, _ :: _, [] => .error .shape
  | t, a :: as, v :: vs =>
      match axisOf t.length a with
      | none => .error .index
      | some k => setAxes (t.set k v) as vs

/-- `self.axes` (nodes.py 607-610). -/
def sliceAxes (ins : List Inp) (rank : ℕ) : Except NErr (List ℤ) :=
  if ins.length > 3 then intsAt ins 3 else .ok ((List.range rank).map fun k : ℕ => (k : ℤ))

/-- `self.strides` (nodes.py 606, 612-614). -/
def sliceSteps (ins : List Inp) (rank : ℕ) (axes : List ℤ) : Except NErr (List ℤ) :=
  if ins.length = 5 then (intsAt ins 4).bind fun steps => setAxes (List.replicate rank 1) axes steps
  else .ok (List.replicate rank 1)

/-- `StrideSliceNode` (nodes.py 596-634). The loop over the output shape (620-623) assigns to its own variable:
`end` is the declared shape. -/
def sliceNode (ins : List Inp) : Except NErr Built := do
  let s ← shapeAt ins 0
  let axes ← sliceAxes ins s.length
  let steps ← sliceSteps ins s.length axes
  let b ← intsAt ins 1
  let e ← intsAt ins 2
  let b ← setAxes (List.replicate s.length 0) axes b
  let e ← setAxes s axes e
  .ok ⟨[e], fun xs => (argAt xs 0).bind fun x => (orShape (sliceT b e steps x)).map fun y => [y]⟩

/-- `tf.gather(x, indices, axis)`, on the CPU: all indices must lie in the range. -/
def gatherT (dims : List ℕ) (data : List ℤ) (a : ℤ) (x : Ten ℝ) : Option (Ten ℝ) :=
  match axisOf x.shape.length a with
  | none => none
  | some k =>
      if ∀ v ∈ data, 0 ≤ v ∧ v < (x.shape.getD k 0 : ℤ) then
        some ⟨x.shape.take k ++ dims ++ x.shape.drop (k + 1), fun i =>
          x.get (i.take k ++ [(data.getD (flat dims ((i.drop k).take dims.length)) 0).toNat] ++ i.drop (k + dims.length))⟩
      else none

/-- The loop for the declared shape (nodes.py 656-660). -/
def gatherDecl (a : ℤ) (n : ℕ) : ℕ → List ℤ → List ℤ
  | _, [] => []
  | i, d :: r => (if (i : ℤ) = a then (n : ℤ) else d) :: gatherDecl a n (i + 1) r

/-- `len(self.indices)` (nodes.py 658) is only evaluated if an axis has the number `a`; a scalar has no
length. -/
def gatherLen (rank : ℕ) (a : ℤ) : List ℕ → Except NErr ℕ
  | [] => if 0 ≤ a ∧ a < rank then .error .type else .ok 0
  | n :: _ => .ok n

/-- `GatherNode` (nodes.py 641-664). Indices that another node computes, or that are real, are not modelled and
raise here. -/
def gatherNode (as : List Attr) (ins : List Inp) : Except NErr Built := do
  let s ← shapeAt ins 0
  let ax ← attrKey as "axis"
  match inpAt ins 1 with
  | .error e => .error e
  | .ok (.nums dims data) => do
      let n ← gatherLen s.length ax.i dims
      .ok ⟨[gatherDecl ax.i n 0 s], fun xs => (argAt xs 0).bind fun x => (orShape (gatherT dims data ax.i x)).map fun y => [y]⟩
  | .ok _ => .error .type

/-! ## Padding -/

/-- The amounts, first before and then behind, axis by axis (nodes.py 870-872). Negative ones raise (in
`forward`, when zeros of a negative size are made); here this happens first. -/
def padPairs (p : List ℤ) : Option (List (ℕ × ℕ)) :=
  if p.any (· < 0) then none
  else some ((List.range (p.length / 2)).map fun i => ((p.getD i 0).toNat, (p.getD (i + p.length / 2) 0).toNat))

/-- `output_shape[i] += …` (nodes.py 874-876). -/
def padDecl (p : List ℤ) (s : List ℤ) : Except NErr (List ℤ) :=
  if p.length / 2 < s.length then .error .index
  else .ok ((List.range s.length).map fun i => s.getD i 0 + p.getD i 0 + p.getD (i + p.length / 2) 0)

/-- `PadNode` (nodes.py 862-880). The attributes, and the third input, are not read. -/
def padNode (_as : List Attr) (ins : List Inp) : Except NErr Built := do
  let s ← shapeAt ins 0
  let p ← intsAt ins 1
  let out ← padDecl p s
  .ok ⟨[out], fun xs => (argAt xs 0).bind fun x => (orShape ((padPairs p).bind fun ps => padLoop x 0 ps)).map fun y => [y]⟩

end Verif.Convert
