import Verif.Convert.OnnxStruct
import Mathlib.Analysis.Calculus.Deriv.Basic

/-!
# Gradients of functions of tensors

Independent of how nodes are converted: `IsGradientOf f xs dys dxs` says that `dxs` is what a backward pass through
`f` at the point `xs` has to return for the gradients `dys` of the outputs.
-/

namespace Verif.Convert.Onnx

open Verif.Tensor

/-- All indices of a shape. -/
def indices : List ℕ → Finset (List ℕ)
  | [] => {[]}
  | d :: s => (Finset.range d ×ˢ indices s).image fun p => p.1 :: p.2

/-- The sum of the products of the entries. -/
noncomputable def inner (A B : Ten ℝ) : ℝ := ∑ i ∈ indices A.shape, A.get i * B.get i

/-- At time `t` the tensor `X`, whose shape is fixed, changes with the velocity `V`. -/
def TenMoves (X : ℝ → Ten ℝ) (V : Ten ℝ) (t : ℝ) : Prop :=
  (∀ s, (X s).shape = V.shape) ∧ ∀ i, InShape V.shape i → HasDerivAt (fun s => (X s).get i) (V.get i) t

/-- Let the inputs `xs` of `f` move with any velocities: then the outputs move, and if `dys` are the gradients of
some quantity with respect to them, then `dxs` are its gradients with respect to the inputs. -/
def IsGradientOf (f : List (Ten ℝ) → Except NErr (List (Ten ℝ))) (xs dys dxs : List (Ten ℝ)) : Prop :=
  List.Forall₂ (fun X D => D.shape = X.shape) xs dxs ∧
  ∀ (χs : List (ℝ → Ten ℝ)) (vs : List (Ten ℝ)) (t : ℝ), χs.map (fun χ => χ t) = xs →
    List.Forall₂ (fun χ V => TenMoves χ V t) χs vs →
    ∃ (Ys : List (ℝ → Ten ℝ)) (us : List (Ten ℝ)), (∀ s, f (χs.map fun χ => χ s) = .ok (Ys.map fun Y => Y s)) ∧
      List.Forall₂ (fun Y U => TenMoves Y U t) Ys us ∧ List.Forall₂ (fun D U => D.shape = U.shape) dys us ∧
      (List.zipWith inner dys us).sum = (List.zipWith inner dxs vs).sum

end Verif.Convert.Onnx
