import Verif.Keras.Pooling
import Verif.Keras.Depthwise
import Verif.Keras.Norm
import Verif.Keras.Shapes

/-!
# The layers built for the nodes of an ONNX graph: nodes with weights, and pooling

`tf_encrypted/convert/nodes.py`: `MatmulNode`, `GemmNode`, `Conv2dNode`, `BatchnormalizationNode`,
`AvgpoolNode`, `MaxPoolNode`, `GlobalAvgpoolNode`, `GlobalMaxPoolNode`. A node is built from the attributes
of the ONNX node and from its inputs: a constant, or the declared shape of what another node computes,
whose first dimension is -1. Arithmetic is exact.
-/

namespace Verif.Convert

open Verif.Tensor Verif.Keras

/-- What building or calling a node raises. `shape` is raised by TensorFlow for shapes that do not fit. -/
inductive NErr
  | assertion
  | index
  | key
  | type
  | value
  | zeroDiv
  | shape
  | unbound
  | attribute
  | notImplemented
  deriving DecidableEq, Repr

/-- The value of an attribute (`AttributeProto`). -/
inductive AVal
  | int (i : ℤ)
  | float (f : ℝ)
  | ints (l : List ℤ)
  | other (s : String)

/-- An attribute. -/
structure Attr where
  name : String
  val : AVal

/-- `attr.i`: for an attribute of another kind protobuf returns its default. -/
def Attr.i (a : Attr) : ℤ := match a.val with | .int i => i | _ => 0

/-- `attr.f`. -/
noncomputable def Attr.f (a : Attr) : ℝ := match a.val with | .float f => f | _ => 0

/-- `attr.ints`. -/
def Attr.ints (a : Attr) : List ℤ := match a.val with | .ints l => l | _ => []

/-- `node.attribute[k]`. -/
def attrAt (as : List Attr) (k : ℕ) : Except NErr Attr :=
  match as[k]? with
  | some a => .ok a
  | none => .error .index

/-- `attributes[name]` for the dictionary that is filled in the order of the attributes
(nodes.py 288-290 and elsewhere). -/
def attrOf (as : List Attr) (name : String) : Option Attr := as.reverse.find? fun a => a.name = name

/-- `attributes[name]`, or the `KeyError`. -/
def attrKey (as : List Attr) (name : String) : Except NErr Attr :=
  match attrOf as name with
  | some a => .ok a
  | none => .error .key

/-- An input of a node (convert.py 191-200): the declared shape of another node's output or of the
model's input, or a constant with real or with integer entries (in row-major order). -/
inductive Inp
  | shape (s : List ℤ)
  | real (t : Ten ℝ)
  | nums (dims : List ℕ) (data : List ℤ)

/-- `inputs[k]`. -/
def inpAt (ins : List Inp) (k : ℕ) : Except NErr Inp :=
  match ins[k]? with
  | some a => .ok a
  | none => .error .index

/-- `assert isinstance(inputs[k], list)`. -/
def shapeAt (ins : List Inp) (k : ℕ) : Except NErr (List ℤ) :=
  match inpAt ins k with
  | .error e => .error e
  | .ok (.shape s) => .ok s
  | .ok _ => .error .assertion

/-- `assert isinstance(inputs[k], tf.Tensor)`, as the private tensor that is made from it. -/
def tensorAt (ins : List Inp) (k : ℕ) : Except NErr (Ten ℝ) :=
  match inpAt ins k with
  | .error e => .error e
  | .ok (.shape _) => .error .assertion
  | .ok (.real t) => .ok t
  | .ok (.nums dims data) => .ok ⟨dims, fun idx => ((data.getD (flat dims idx) 0 : ℤ) : ℝ)⟩

/-- A node that has been built: the shapes it declares for its outputs, and `forward`. -/
structure Built where
  outShapes : List (List ℤ)
  forward : List (Ten ℝ) → Except NErr (List (Ten ℝ))

/-- `x[k]` in `forward`. -/
def argAt (xs : List (Ten ℝ)) (k : ℕ) : Except NErr (Ten ℝ) :=
  match xs[k]? with
  | some x => .ok x
  | none => .error .index

/-- An operation that raises because of shapes. -/
def orShape {β : Type} : Option β → Except NErr β
  | some b => .ok b
  | none => .error .shape

/-- A dimension of a declared shape that is used as a size. -/
def dimAt (s : List ℤ) (k : ℕ) : Except NErr ℕ :=
  match s[k]? with
  | none => .error .index
  | some d => if d < 0 then .error .value else .ok d.toNat

/-! ## Dense -/

/-- The beginning of `Dense.build` (dense.py 82-93): the rank, and `int(input_shape[1])`. -/
def denseIn (s : List ℤ) : Except NErr ℕ :=
  if s.length > 2 then .error .notImplemented else dimAt s 1

/-- `Dense.call` (dense.py 106-124) without activation. -/
noncomputable def denseCall (kernel : Ten ℝ) (bias : Option (Ten ℝ)) (x : Ten ℝ) : Except NErr (Ten ℝ) := do
  let y ← orShape (Tensor.matmul x kernel)
  match bias with
  | none => .ok y
  | some b => orShape (bcastOp (· + ·) y b).toOption

/-- A weight that `set_weights` reshapes to the shape it was built with (base_layer.py 140-142). -/
def putWeight (t : Ten ℝ) (s : List ℕ) : Except NErr (Ten ℝ) := orShape (Tensor.reshape t s)

/-- The bias of a `Dense` layer, if there is one. -/
def putBias (b : Option (Ten ℝ)) (s : List ℕ) : Except NErr (Option (Ten ℝ)) :=
  match b with
  | none => .ok none
  | some t => (putWeight t s).map some

/-- `transpose()` of all dimensions, if asked for. -/
def flipIf (b : Bool) (t : Ten ℝ) : Except NErr (Ten ℝ) :=
  if b then orShape (Tensor.transpose t (List.range t.shape.length).reverse) else .ok t

/-- `Dense(kernel.shape[1], …)`, `build` and `set_weights` (nodes.py 203-209, 241-247). `flip` transposes
the input first (nodes.py 249-254). -/
noncomputable def denseNode (s : List ℤ) (kernel : Ten ℝ) (bias : Option (Ten ℝ)) (flip : Bool) : Except NErr Built := do
  let units ← match kernel.shape[1]? with
    | some u => Except.ok u
    | none => .error NErr.index
  let unitsIn ← denseIn s
  let k ← putWeight kernel [unitsIn, units]
  let b ← putBias bias [units]
  .ok { outShapes := [[s.getD 0 0, units]]
        forward := fun xs => do
          let x ← argAt xs 0
          let x ← flipIf flip x
          let y ← denseCall k b x
          .ok [y] }

/-- The optional third input of `MatmulNode` and `Conv2dNode` (nodes.py 194-201, 277-286). -/
def thirdInput (ins : List Inp) : Except NErr (Option (Ten ℝ)) :=
  if ins.length = 3 then (tensorAt ins 2).map some else .ok none

/-- `MatmulNode` (nodes.py 182-212). -/
noncomputable def matmulNode (ins : List Inp) : Except NErr Built := do
  let s ← shapeAt ins 0
  let kernel ← tensorAt ins 1
  let bias ← thirdInput ins
  denseNode s kernel bias false

/-- `GemmNode` (nodes.py 219-254). The two flags are the first and the second attribute, whatever they
are called. -/
noncomputable def gemmNode (as : List Attr) (ins : List Inp) : Except NErr Built := do
  let s ← shapeAt ins 0
  let kernel ← tensorAt ins 1
  let bias ← tensorAt ins 2
  let flipB ← attrAt as 1
  let kernel ← flipIf (flipB.i ≠ 0) kernel
  let flipA ← attrAt as 0
  denseNode s kernel (some bias) (flipA.i ≠ 0)

/-! ## Convolution -/

/-- `conv_utils.normalize_tuple(value, 2, …)` for a list of numbers; negative numbers are not modelled
and raise here. -/
def pairOf (l : List ℤ) : Except NErr (ℕ × ℕ) :=
  match l with
  | [a, b] => if a < 0 ∨ b < 0 then .error .value else .ok (a.toNat, b.toNat)
  | _ => .error .value

/-- The paddings as ONNX lists them: rows before, columns before, rows after, columns after. Only
non-negative ones are modelled. -/
structure Pads where
  p0 : ℕ
  p1 : ℕ
  p2 : ℕ
  p3 : ℕ

/-- `self.padding` (nodes.py 294-299): the first four numbers, or `None`. -/
def padsOf (as : List Attr) : Except NErr (Option Pads) :=
  match attrOf as "pads" with
  | none => .ok none
  | some a =>
      match a.ints with
      | a0 :: a1 :: a2 :: a3 :: _ =>
          if a0 < 0 ∨ a1 < 0 ∨ a2 < 0 ∨ a3 < 0 then .error .value
          else .ok (some ⟨a0.toNat, a1.toNat, a2.toNat, a3.toNat⟩)
      | _ => .error .index

/-- `padded_shape` (nodes.py 296-297). -/
def paddedDims (s : List ℤ) (p : Option Pads) : Except NErr (List ℤ) :=
  match p with
  | none => .ok s
  | some p =>
      match s[2]?, s[3]? with
      | some h, some w => .ok ((s.set 2 (h + p.p0 + p.p2)).set 3 (w + p.p1 + p.p3))
      | _, _ => .error .index

/-- `tfe.pad` in `forward` (nodes.py 326-335): the rows get `padding[2]` before and `padding[0]` after. -/
def padImage (p : Option Pads) (x : Ten ℝ) : Except NErr (Ten ℝ) :=
  match p with
  | none => .ok x
  | some p => orShape (padLoop x 0 [(0, 0), (0, 0), (p.p2, p.p0), (p.p1, p.p3)])

/-- The bias as the node hands it to the layer: `expand_dims` at 0, -1, -1 (nodes.py 281-282). -/
def expandBias (b : Ten ℝ) : Ten ℝ := ⟨1 :: b.shape ++ [1, 1], fun idx => b.get ((idx.drop 1).take b.shape.length)⟩

/-- The four dimensions of the declared (padded) input; `build` and `compute_output_shape` read the
channels, rows and columns (convolutional.py 145-153, 306-325). -/
def imageDims (s : List ℤ) : Except NErr (ℤ × ℕ × ℕ × ℕ) := do
  let c ← dimAt s 1
  let h ← dimAt s 2
  let w ← dimAt s 3
  if s.length = 4 then .ok (s.getD 0 0, c, h, w) else .error .value

/-- What a layer reports as its output shape, from the number of filters and the two spatial dimensions;
the first dimension is passed through. -/
def declare (b : ℤ) (s : Option (List ℕ)) : Except NErr (List (List ℤ)) :=
  match s with
  | some (_ :: r) => .ok [b :: r.map fun n : ℕ => (n : ℤ)]
  | _ => .error .shape

/-- `Conv2D(…)`, `build`, `set_weights`, and `forward` (nodes.py 302-309, 319-336). `d` is the declared shape
of the padded image. -/
noncomputable def plainLayer (cfg : ConvCfg) (o : ℕ) (d : ℤ × ℕ × ℕ × ℕ) (kernel : Ten ℝ) (bias : Option (Ten ℝ))
    (pads : Option Pads) : Except NErr Built := do
  let kk ← putWeight kernel [cfg.k, cfg.k, d.2.1, o]
  let b ← putBias (bias.map expandBias) [o, 1, 1]
  let outs ← declare d.1 (convShape cfg o [0, d.2.1, d.2.2.1, d.2.2.2])
  .ok { outShapes := outs
        forward := fun xs => do
          let x ← argAt xs 0
          let x ← padImage pads x
          let y ← orShape (convForward cfg x kk b)
          .ok [y] }

/-- `DepthwiseConv2D(…)` (nodes.py 311-322) with the depth multiplier `filters // channels`. -/
noncomputable def depthLayer (cfg : ConvCfg) (o : ℕ) (d : ℤ × ℕ × ℕ × ℕ) (kernel : Ten ℝ) (bias : Option (Ten ℝ))
    (pads : Option Pads) : Except NErr Built := do
  if d.2.1 = 0 then .error .zeroDiv else
  let kk ← orShape (rearrange cfg (o / d.2.1) d.2.1 kernel)
  let kk ← orShape (assignTo (⟨[cfg.k, cfg.k, d.2.1, d.2.1 * (o / d.2.1)], fun _ => 0⟩ : Ten ℝ) kk)
  let b ← putBias (bias.map expandBias) [d.2.1 * (o / d.2.1), 1, 1]
  let outs ← declare d.1 (dwShape cfg (o / d.2.1) [0, d.2.1, d.2.2.1, d.2.2.2])
  .ok { outShapes := outs
        forward := fun xs => do
          let x ← argAt xs 0
          let x ← padImage pads x
          let y ← orShape (dwForward cfg ⟨kk, b⟩ x)
          .ok [y] }

/-- `Conv2dNode` (nodes.py 263-336). -/
noncomputable def convNode (as : List Attr) (ins : List Inp) : Except NErr Built := do
  let s ← shapeAt ins 0
  let w0 ← tensorAt ins 1
  let kernel ← orShape (Tensor.transpose w0 [2, 3, 1, 0])
  let bias ← thirdInput ins
  let strides ← attrKey as "strides"
  let group ← attrKey as "group"
  let pads ← padsOf as
  let padded ← paddedDims s pads
  let st ← pairOf strides.ints
  let k := kernel.shape.getD 0 0
  if kernel.shape.getD 1 0 ≠ k then .error .notImplemented else
  let d ← imageDims padded
  if group.i = 1 then plainLayer ⟨k, st.1, st.2, .valid, false⟩ (kernel.shape.getD 3 0) d kernel bias pads
  else depthLayer ⟨k, st.1, st.2, .valid, false⟩ (kernel.shape.getD 3 0) d kernel bias pads

/-! ## Batch normalisation -/

/-- `tf.keras.initializers.Constant(t)` called with a shape: the tensor, reshaped. -/
def constantInit (t : Ten ℝ) (s : List ℕ) : Ten ℝ := ⟨s, fun idx => t.get (unflat t.shape (flat s idx))⟩

/-- The declared shape as `normParam` reads it; only the entry at the axis and the rank matter. -/
def natShape (s : List ℤ) : List ℕ := s.map Int.toNat

/-- What the layer raises, as an exception of the node. -/
def ofNorm {β : Type} : Except NormErr β → Except NErr β
  | .ok b => .ok b
  | .error .value => .error .value
  | .error .index => .error .index
  | .error .unbound => .error .unbound
  | .error .notImplemented => .error .notImplemented
  | .error .shape => .error .shape

/-- A constant whose number of entries does not fit is rejected by `Constant`. -/
def checkInit (t : Ten ℝ) (s : List ℕ) : Except NErr Unit := if t.shape.prod = s.prod then .ok () else .error .type

/-- `BatchnormalizationNode` (nodes.py 352-385). `epsilon` is the first attribute, whatever it is called. -/
noncomputable def normNode (as : List Attr) (ins : List Inp) : Except NErr Built := do
  let s ← shapeAt ins 0
  let eps ← attrAt as 0
  let gamma ← tensorAt ins 1
  let beta ← tensorAt ins 2
  let mean ← tensorAt ins 3
  let variance ← tensorAt ins 4
  let p ← ofNorm (normParam 1 (natShape s))
  let _ ← checkInit gamma p
  let _ ← checkInit beta p
  let _ ← checkInit mean p
  let _ ← checkInit variance p
  let st ← ofNorm (normBuild 1 eps.f (some (constantInit gamma)) (some (constantInit beta)) (constantInit mean)
    (constantInit variance) (natShape s))
  .ok { outShapes := [s]
        forward := fun xs => do
          let x ← argAt xs 0
          let y ← ofNorm (normCall st x)
          .ok [y] }

/-! ## Pooling -/

/-- The arguments that `AvgpoolNode` and `MaxPoolNode` read (nodes.py 400-407, 535-542). -/
def poolArgs (as : List Attr) : Except NErr PoolCfg := do
  let p ← attrKey as "kernel_shape"
  let q ← attrKey as "strides"
  let pool ← pairOf p.ints
  let st ← pairOf q.ints
  .ok ⟨pool.1, pool.2, st.1, st.2, .valid, false⟩

/-- `AvgpoolNode` (nodes.py 392-414). -/
noncomputable def avgNode (as : List Attr) (ins : List Inp) : Except NErr Built := do
  let s ← shapeAt ins 0
  let cfg ← poolArgs as
  let d ← imageDims s
  let outs ← declare d.1 (poolShape cfg [0, d.2.1, d.2.2.1, d.2.2.2])
  .ok { outShapes := outs
        forward := fun xs => do
          let x ← argAt xs 0
          let y ← orShape (avgForward cfg x)
          .ok [y] }

/-- `MaxPoolNode` (nodes.py 527-549). -/
noncomputable def maxNode (as : List Attr) (ins : List Inp) : Except NErr Built := do
  let s ← shapeAt ins 0
  let cfg ← poolArgs as
  let d ← imageDims s
  let outs ← declare d.1 (poolShape cfg [0, d.2.1, d.2.2.1, d.2.2.2])
  .ok { outShapes := outs
        forward := fun xs => do
          let x ← argAt xs 0
          let y ← orShape (maxForward cfg x)
          .ok [y.1] }

/-- `data_format` (as "channels last") and `keepdims` of the global poolings (nodes.py 429-445, 564-580).
Everything that raises is passed over; `keepdims` is assigned before the axes are looked at. -/
def globalArgs (as : List Attr) (keep : Bool) : Bool × Bool :=
  match attrOf as "axes", attrOf as "keepdims" with
  | some a, some k =>
      match a.ints with
      | a0 :: a1 :: _ => (a0 = 1 ∧ a1 = 2, k.i = 1)
      | _ => (false, k.i = 1)
  | _, _ => (false, keep)

/-- The sum along one axis. -/
def sumAxis (t : Ten ℝ) (a : ℕ) : Option (Ten ℝ) :=
  if a < t.shape.length then
    some ⟨t.shape.eraseIdx a, fun idx => ∑ q ∈ Finset.range (t.shape.getD a 0), t.get (idx.insertIdx a q)⟩
  else none

/-- `compute_output_shape` of the global poolings (pooling.py 302-315) of a shape of rank 4. -/
def globalOut {β : Type} [One β] (last keep : Bool) (s : List β) : Option (List β) :=
  match s with
  | [n, a, b, c] =>
      some (if last then (if keep then [n, 1, 1, c] else [n, c]) else (if keep then [n, a, 1, 1] else [n, a]))
  | _ => none

/-- `GlobalAveragePooling2D.call` (pooling.py 356-369). -/
noncomputable def globalAvgCall (last keep : Bool) (scalar : ℝ) (x : Ten ℝ) : Option (Ten ℝ) := do
  let y ← sumAxis x (if last then 2 else 3)
  let y ← sumAxis y (if last then 1 else 2)
  let s ← globalOut last keep x.shape
  Tensor.reshape (scale y scalar) s

/-- `GlobalAvgpoolNode` (nodes.py 421-454), for ReduceMean and GlobalAveragePool. -/
noncomputable def globalAvgNode (as : List Attr) (ins : List Inp) : Except NErr Built := do
  let s ← shapeAt ins 0
  let a := globalArgs as true
  match s with
  | [_, p, q, r] =>
      let hw := if a.1 then p * q else q * r
      if hw = 0 then .error .zeroDiv else
      let out ← orShape (globalOut a.1 a.2 s)
      .ok { outShapes := [out]
            forward := fun xs => do
              let x ← argAt xs 0
              let y ← orShape (globalAvgCall a.1 a.2 (1 / (hw : ℝ)) x)
              .ok [y] }
  | _ => .error .value

/-- `GlobalMaxPooling2D.call` (pooling.py 419-431). -/
noncomputable def globalMaxCall (last : Bool) (x : Ten ℝ) : Option (Ten ℝ) := do
  let x ← if last then Tensor.transpose x [0, 3, 1, 2] else some x
  match x.shape with
  | [n, c, h, w] =>
      if h * w = 0 then none else do
        let y ← Tensor.reshape x [n, c, h * w]
        some ⟨[n, c], fun idx => maxUpTo (fun q => y.get (idx ++ [q])) (h * w - 1)⟩
  | _ => none

/-- `GlobalMaxPoolNode` (nodes.py 556-589), for ReduceMax and GlobalMaxPool, of a declared shape of
rank 4; shapes of other ranks are not modelled and raise here. -/
noncomputable def globalMaxNode (as : List Attr) (ins : List Inp) : Except NErr Built := do
  let s ← shapeAt ins 0
  let a := globalArgs as false
  let out ← match globalOut a.1 a.2 s with
    | some o => Except.ok o
    | none => .error NErr.index
  .ok { outShapes := [out]
        forward := fun xs => do
          let x ← argAt xs 0
          let y ← orShape (globalMaxCall a.1 x)
          .ok [y] }

end Verif.Convert
