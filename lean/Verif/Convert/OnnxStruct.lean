import Verif.Convert.Onnx
import Mathlib.Analysis.SpecialFunctions.Exp

/-!
# What the ONNX operators without layers compute

Written from the ONNX operator documentation (opset 13 and later, unless stated otherwise).
-/

namespace Verif.Convert.Onnx

open Verif.Tensor

/-- A declared shape agrees with the shape of a tensor: every dimension is given correctly, or as unknown (-1). -/
def Agrees (d : List ℤ) (s : List ℕ) : Prop := List.Forall₂ (fun (a : ℤ) (b : ℕ) => a = -1 ∨ a = b) d s

/-- Axis `a`, which counts from the end if it is negative, of a tensor of the given rank is axis `k`. -/
def IsAxis (rank : ℕ) (a : ℤ) (k : ℕ) : Prop := k < rank ∧ (a = k ∨ a = (k : ℤ) - rank)

/-- Two tensors have the same entries in row-major order. -/
def SameEntries (X Y : Ten ℝ) : Prop := Y.shape.prod = X.shape.prod ∧
  ∀ i j, InShape Y.shape i → InShape X.shape j → flat Y.shape i = flat X.shape j → Y.get i = X.get j

/-! ## Arithmetic -/

/-- A shape with dimensions of size 1 in front, up to rank `r`. -/
def lead (r : ℕ) (s : List ℕ) : List ℕ := List.replicate (r - s.length) 1 ++ s

/-- Shapes `a` and `b` are broadcast to `s`: aligned at the last dimension, the sizes are equal or one is 1. -/
def Broadcast (a b s : List ℕ) : Prop := s.length = max a.length b.length ∧
  ∀ k, k < s.length → ((lead s.length a).getD k 0 = s.getD k 0 ∨ (lead s.length a).getD k 0 = 1) ∧
    ((lead s.length b).getD k 0 = s.getD k 0 ∨ (lead s.length b).getD k 0 = 1) ∧
    ((lead s.length a).getD k 0 = s.getD k 0 ∨ (lead s.length b).getD k 0 = s.getD k 0)

/-- The index, in an operand of shape `s`, of the entry that is repeated at index `i` of the result. -/
def under (s i : List ℕ) : List ℕ := List.zipWith (fun d q => if d = 1 then 0 else q) s (i.drop (i.length - s.length))

/-- `Add`, `Sub` and `Mul`. -/
def IsPointwise (f : ℝ → ℝ → ℝ) (A B Y : Ten ℝ) : Prop := Broadcast A.shape B.shape Y.shape ∧
  ∀ i, InShape Y.shape i → Y.get i = f (A.get (under A.shape i)) (B.get (under B.shape i))

/-- `Neg` and `Relu`. -/
def IsMap (f : ℝ → ℝ) (X Y : Ten ℝ) : Prop := Y.shape = X.shape ∧ ∀ i, InShape Y.shape i → Y.get i = f (X.get i)

/-- `Softmax`, along an axis. -/
def IsSoftmax (as : List Attr) (X Y : Ten ℝ) : Prop := ∃ k, IsAxis X.shape.length (intAttr as "axis" (-1)) k ∧
  Y.shape = X.shape ∧ ∀ i, InShape X.shape i → Y.get i = Real.exp (X.get i) /
    ∑ q ∈ Finset.range (X.shape.getD k 0), Real.exp (X.get (i.set k q))

/-! ## Shapes -/

/-- `Reshape` to the dimensions in `l`: 0 stands for the dimension of the input, -1 for what is needed. -/
def IsReshape (l : List ℤ) (X Y : Ten ℝ) : Prop := Y.shape.length = l.length ∧ l.count (-1) ≤ 1 ∧
  (∀ k, k < l.length → (l.getD k 0 = 0 ∧ k < X.shape.length ∧ Y.shape.getD k 0 = X.shape.getD k 0) ∨
    l.getD k 0 = -1 ∨ (0 < l.getD k 0 ∧ (Y.shape.getD k 0 : ℤ) = l.getD k 0)) ∧ SameEntries X Y

/-- `Flatten` to a matrix: the dimensions before the axis, and those from it on. -/
def IsFlatten (as : List Attr) (X Y : Ten ℝ) : Prop := ∃ k : ℕ, k ≤ X.shape.length ∧
  (intAttr as "axis" 1 = k ∨ intAttr as "axis" 1 = (k : ℤ) - X.shape.length) ∧
  Y.shape = [(X.shape.take k).prod, (X.shape.drop k).prod] ∧ SameEntries X Y

/-- `Transpose`: dimension `k` of the result is dimension `perm[k]` of the input. Without the attribute the
dimensions are reversed. -/
def IsTranspose (as : List Attr) (X Y : Ten ℝ) : Prop := ∃ perm : List ℕ,
  intsAttr as "perm" ((List.range X.shape.length).reverse.map fun k : ℕ => (k : ℤ)) = perm.map (fun k : ℕ => (k : ℤ)) ∧
  perm.Perm (List.range X.shape.length) ∧ Y.shape = perm.map (fun k => X.shape.getD k 0) ∧
  ∀ j, InShape X.shape j → Y.get (perm.map fun k => j.getD k 0) = X.get j

/-- A shape without some of its axes. -/
def without (ks : List ℕ) (s : List ℕ) : List ℕ := ((List.range s.length).filter (· ∉ ks)).map fun k => s.getD k 0

/-- `Unsqueeze`: the axes of the result that are listed have size 1, the others are those of the input. -/
def IsUnsqueeze (axes : List ℤ) (X Y : Ten ℝ) : Prop := Y.shape.length = X.shape.length + axes.length ∧
  ∃ ks, List.Forall₂ (IsAxis Y.shape.length) axes ks ∧ ks.Nodup ∧ (∀ k ∈ ks, Y.shape.getD k 0 = 1) ∧
    without ks Y.shape = X.shape ∧ SameEntries X Y

/-- `Squeeze`: the axes listed, which must have size 1, are removed; if none are listed, all of size 1. The axes
are an input, or (before opset 13) an attribute. -/
def IsSqueeze (as : List Attr) (input : Option (List ℤ)) (X Y : Ten ℝ) : Prop := ∃ ks,
  (∀ l, (input = some l ∨ input = none ∧ attr as "axes" = some (.ints l)) →
    (∀ k, k ∈ ks ↔ ∃ a ∈ l, IsAxis X.shape.length a k) ∧ ∀ a ∈ l, ∃ k, IsAxis X.shape.length a k) ∧
  (input = none → attr as "axes" = none → ∀ k, k ∈ ks ↔ k < X.shape.length ∧ X.shape.getD k 0 = 1) ∧
  (∀ k ∈ ks, X.shape.getD k 0 = 1) ∧ Y.shape = without ks X.shape ∧ SameEntries X Y

/-! ## Parts -/

/-- `Concat`: entry `i` of the `p`-th tensor is found behind the tensors before it. -/
def IsConcat (as : List Attr) (Xs : List (Ten ℝ)) (Y : Ten ℝ) : Prop := ∃ k a,
  attr as "axis" = some (.int a) ∧ IsAxis Y.shape.length a k ∧
  Y.shape.getD k 0 = (Xs.map fun X => X.shape.getD k 0).sum ∧
  (∀ X ∈ Xs, X.shape.length = Y.shape.length ∧ ∀ l, l ≠ k → X.shape.getD l 0 = Y.shape.getD l 0) ∧
  ∀ p (h : p < Xs.length) i, InShape Xs[p].shape i →
    Y.get (i.set k (((Xs.take p).map fun X => X.shape.getD k 0).sum + i.getD k 0)) = Xs[p].get i

/-- The sizes of the parts: an input, or (before opset 13) an attribute, or equal parts. -/
def partSizes (as : List Attr) (outs : ℕ) (input : Option (List ℤ)) (d : ℕ) (ns : List ℕ) : Prop :=
  match input, attr as "split" with
  | some l, _ => l = ns.map fun n : ℕ => (n : ℤ)
  | none, some (.ints l) => l = ns.map fun n : ℕ => (n : ℤ)
  | none, _ => ns = List.replicate outs (d / outs)

/-- `Split` along an axis (0 by default). -/
def IsSplit (as : List Attr) (outs : ℕ) (input : Option (List ℤ)) (X : Ten ℝ) (Ys : List (Ten ℝ)) : Prop := ∃ k ns,
  IsAxis X.shape.length (intAttr as "axis" 0) k ∧ partSizes as outs input (X.shape.getD k 0) ns ∧
  ns.sum = X.shape.getD k 0 ∧ Ys.length = ns.length ∧
  ∀ p (h : p < Ys.length), Ys[p].shape = X.shape.set k (ns.getD p 0) ∧
    ∀ i, InShape Ys[p].shape i → Ys[p].get i = X.get (i.set k ((ns.take p).sum + i.getD k 0))

/-! ## Slices -/

/-- The slice `start : end : step` of `d` entries: it begins at `b`, and entry `q` is in it as long as
`b + q * step` is before the end, or, if the step is negative, behind it. Positions count from the end of the axis
if they are negative, and are clamped: to `[0, d]`; for negative steps the start to `[0, d - 1]` and the end to
`[-1, d - 1]`. -/
def SliceDim (d : ℕ) (start stop step b : ℤ) (n : ℕ) : Prop :=
  let start := if start < 0 then start + d else start
  let stop := if stop < 0 then stop + d else stop
  (0 < step → b = max 0 (min (d : ℤ) start) ∧ ∀ q : ℕ, q < n ↔ b + q * step < max 0 (min (d : ℤ) stop)) ∧
  (step < 0 → b = max 0 (min ((d : ℤ) - 1) start) ∧
    ∀ q : ℕ, q < n ↔ max (-1) (min ((d : ℤ) - 1) stop) < b + q * step)

/-- `Slice`: the axes are all axes if they are not given, and the steps are 1. An axis that is not listed is not
cut. -/
def IsSlice (starts ends : List ℤ) (axes steps : Option (List ℤ)) (X Y : Ten ℝ) : Prop :=
  let axes := axes.getD ((List.range X.shape.length).map fun k : ℕ => (k : ℤ))
  let steps := steps.getD (List.replicate axes.length 1)
  starts.length = axes.length ∧ ends.length = axes.length ∧ steps.length = axes.length ∧
  (∀ a ∈ axes, ∃ k, IsAxis X.shape.length a k) ∧ (∀ v ∈ steps, v ≠ 0) ∧
  Y.shape.length = X.shape.length ∧ ∃ b : ℕ → ℤ, ∃ s : ℕ → ℤ,
    (∀ p k, p < axes.length → IsAxis X.shape.length (axes.getD p 0) k →
      steps.getD p 0 = s k ∧ SliceDim (X.shape.getD k 0) (starts.getD p 0) (ends.getD p 0) (steps.getD p 0) (b k) (Y.shape.getD k 0)) ∧
    (∀ k, k < X.shape.length → (∀ a ∈ axes, ¬IsAxis X.shape.length a k) →
      b k = 0 ∧ s k = 1 ∧ Y.shape.getD k 0 = X.shape.getD k 0) ∧
    ∀ i, InShape Y.shape i →
      Y.get i = X.get ((List.range X.shape.length).map fun k => (b k + i.getD k 0 * s k).toNat)

/-- `Gather`: the axis is replaced by the axes of the indices. Negative indices count from the end. -/
def IsGather (as : List Attr) (dims : List ℕ) (data : List ℤ) (X Y : Ten ℝ) : Prop := ∃ k,
  IsAxis X.shape.length (intAttr as "axis" 0) k ∧ Y.shape = X.shape.take k ++ dims ++ X.shape.drop (k + 1) ∧
  ∀ pre mid post, InShape (X.shape.take k) pre → InShape dims mid → InShape (X.shape.drop (k + 1)) post →
    ∃ v, IsAxis (X.shape.getD k 0) (data.getD (flat dims mid) 0) v ∧ Y.get (pre ++ mid ++ post) = X.get (pre ++ [v] ++ post)

/-- `Pad` with the amounts first in front of all axes and then behind them: by a value (0 by default), by the
nearest entry (mode `edge`), by mirroring the entries at the first and the last one (mode `reflect`), or by
repeating them (mode `wrap`). -/
def IsPad (as : List Attr) (pads : List ℕ) (value : Option ℝ) (X Y : Ten ℝ) : Prop :=
  let r := X.shape.length
  pads.length = 2 * r ∧ Y.shape = (List.range r).map (fun k => X.shape.getD k 0 + pads.getD k 0 + pads.getD (k + r) 0) ∧
  ∀ i, InShape Y.shape i →
    match strAttr as "mode" "constant" with
    | "constant" =>
        ((∀ k, k < r → pads.getD k 0 ≤ i.getD k 0 ∧ i.getD k 0 < pads.getD k 0 + X.shape.getD k 0) ∧
          Y.get i = X.get ((List.range r).map fun k => i.getD k 0 - pads.getD k 0)) ∨
        ((∃ k, k < r ∧ ¬(pads.getD k 0 ≤ i.getD k 0 ∧ i.getD k 0 < pads.getD k 0 + X.shape.getD k 0)) ∧
          Y.get i = value.getD 0)
    | "edge" => Y.get i = X.get ((List.range r).map fun k => min (i.getD k 0 - pads.getD k 0) (X.shape.getD k 0 - 1))
    | "reflect" => ∃ v : ℕ → ℕ, Y.get i = X.get ((List.range r).map v) ∧ ∀ k, k < r → v k < X.shape.getD k 0 ∧
        let j : ℤ := (i.getD k 0 : ℤ) - pads.getD k 0
        2 * ((X.shape.getD k 0 : ℤ) - 1) ∣ j - v k ∨ 2 * ((X.shape.getD k 0 : ℤ) - 1) ∣ j + v k
    | "wrap" => ∃ v : ℕ → ℕ, Y.get i = X.get ((List.range r).map v) ∧ ∀ k, k < r → v k < X.shape.getD k 0 ∧
        (X.shape.getD k 0 : ℤ) ∣ (i.getD k 0 : ℤ) - pads.getD k 0 - v k
    | _ => False

end Verif.Convert.Onnx
