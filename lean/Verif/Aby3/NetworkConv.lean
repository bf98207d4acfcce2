import Verif.Aby3.NetworkSpec
import Verif.Tensor.Spec
import Mathlib.Tactic.Ring

/-!
# C88: convolutions as linear layers

The products that `tfe.conv2d` sums up for channel-first images (`Conv2D.call`,
keras/layers/convolutional.py; `conv2d`, tensor/shared.py 261-289), and the proof that their sum is the
strided, padded cross-correlation (which is what the code computes, see `Verif.Tensor.conv2d_nchw`).
-/

namespace Verif.Aby3

open Verif Tensor

variable {α : Type} [CommRing α]

/-- Position of channel `k`, row `y`, column `x` in a sample of shape `[c, h, w]`. -/
def pixel {c h w : ℕ} (k : Fin c) (y : Fin h) (x : Fin w) : Fin (c * (h * w)) :=
  finProdFinEquiv (k, finProdFinEquiv (y, x))

/-- Position in a kernel of shape `[kh, kw, c, o]`. -/
def weightAt {kh kw c o : ℕ} (di : Fin kh) (dj : Fin kw) (k : Fin c) (oo : Fin o) :
    Fin (kh * (kw * (c * o))) :=
  finProdFinEquiv (di, finProdFinEquiv (dj, finProdFinEquiv (k, oo)))

/-- The product for one position of the window, if it lies inside the image. -/
def tap {c h w kh kw o : ℕ} (y x : ℤ) (di : Fin kh) (dj : Fin kw) (k : Fin c) (oo : Fin o) :
    List (Fin (c * (h * w)) × Fin (kh * (kw * (c * o)))) :=
  if hy : 0 ≤ y ∧ y < h ∧ 0 ≤ x ∧ x < w then
    [(pixel k ⟨y.toNat, by omega⟩ ⟨x.toNat, by omega⟩, weightAt di dj k oo)]
  else []

/-- The products of a convolution of a `[c, h, w]` image with a `[kh, kw, c, o]` kernel; the outputs of
a sample have the shape `[o, ho, wo]`. -/
def convTaps (c h w kh kw o s0 s1 : ℕ) (p : Padding) {ho wo : ℕ} (j : Fin (o * (ho * wo))) :
    List (Fin (c * (h * w)) × Fin (kh * (kw * (c * o)))) :=
  let oo := (finProdFinEquiv.symm j).1
  let i := (finProdFinEquiv.symm (finProdFinEquiv.symm j).2).1
  let jj := (finProdFinEquiv.symm (finProdFinEquiv.symm j).2).2
  (List.finRange kh).flatMap fun di : Fin kh => (List.finRange kw).flatMap fun dj : Fin kw =>
    (List.finRange c).flatMap fun k : Fin c =>
      tap ((i : ℤ) * s0 + (di : ℤ) - frontPad h kh s0 p) ((jj : ℤ) * s1 + (dj : ℤ) - frontPad w kw s1 p) di dj k oo

/-- A `Conv2D` layer with channel-first images, followed by `rest`. -/
def Arch.conv2d (c h w kh kw o s0 s1 : ℕ) (p : Padding) (useBias activation : Bool) {ho wo l : ℕ}
    (rest : Arch (o * (ho * wo)) l) : Arch (c * (h * w)) l :=
  .lin (convTaps c h w kh kw o s0 s1 p) <|
    (fun r => if useBias then .bias (fun j => (finProdFinEquiv.symm j).1) r else r) <|
      if activation then .relu rest else rest

/-- A sample read as an image with the channel last. -/
def imageOf {c h w : ℕ} (x : Fin (c * (h * w)) → α) (_b y x' k : ℕ) : α :=
  if hk : k < c ∧ y < h ∧ x' < w then x (pixel ⟨k, hk.1⟩ ⟨y, hk.2.1⟩ ⟨x', hk.2.2⟩) else 0

/-- The weights read as a bank of filters. -/
def kernelOf {kh kw c o : ℕ} (v : Fin (kh * (kw * (c * o))) → α) (di dj k oo : ℕ) : α :=
  if hk : di < kh ∧ dj < kw ∧ k < c ∧ oo < o then
    v (weightAt ⟨di, hk.1⟩ ⟨dj, hk.2.1⟩ ⟨k, hk.2.2.1⟩ ⟨oo, hk.2.2.2⟩) else 0

theorem sum_flatMap {β γ : Type} (L : List β) (f : β → List γ) (g : γ → α) :
    ((L.flatMap f).map g).sum = (L.map fun b => ((f b).map g).sum).sum := by
  induction L with
  | nil => rfl
  | cons b L ih => simp [List.flatMap_cons, ih]

theorem sum_finRange (n : ℕ) (f : Fin n → α) : ((List.finRange n).map f).sum = ∑ i, f i := by
  rw [← List.ofFn_eq_map, List.sum_ofFn]

/-- **C88**: the linear part of a `Conv2D` layer is the strided, padded cross-correlation of the image
with the filters. -/
theorem conv_taps (c h w kh kw o s0 s1 : ℕ) (p : Padding) {ho wo : ℕ} (x : Fin (c * (h * w)) → α)
    (v : Fin (kh * (kw * (c * o))) → α) (oo : Fin o) (i : Fin ho) (j : Fin wo) :
    ((convTaps c h w kh kw o s0 s1 p (pixel oo i j)).map fun ts => x ts.1 * v ts.2).sum =
      correlation (imageOf x) (kernelOf v) h w c kh kw s0 s1 p 0 i j oo := by
  unfold convTaps correlation pixel
  simp only [Equiv.symm_apply_apply]
  rw [sum_flatMap, sum_finRange, Finset.sum_range]
  refine Finset.sum_congr rfl fun di _ => ?_
  rw [sum_flatMap, sum_finRange, Finset.sum_range]
  refine Finset.sum_congr rfl fun dj _ => ?_
  rw [sum_flatMap, sum_finRange, Finset.sum_range]
  refine Finset.sum_congr rfl fun k _ => ?_
  have hk : kernelOf v di dj k oo = v (weightAt di dj k oo) := by
    unfold kernelOf
    rw [dif_pos ⟨di.2, dj.2, k.2, oo.2⟩]
  rw [hk]
  generalize (i : ℤ) * s0 + di - frontPad h kh s0 p = y
  generalize (j : ℤ) * s1 + dj - frontPad w kw s1 p = x'
  unfold tap extend
  by_cases hy : 0 ≤ y ∧ y < h ∧ 0 ≤ x' ∧ x' < w
  · rw [dif_pos hy, if_pos hy]
    have hi : imageOf x 0 y.toNat x'.toNat k = x (pixel k ⟨y.toNat, by omega⟩ ⟨x'.toNat, by omega⟩) := by
      unfold imageOf
      rw [dif_pos ⟨k.2, by omega, by omega⟩]
    beta_reduce
    rw [hi]
    simp only [List.map_cons, List.map_nil, List.sum_cons, List.sum_nil]
    ring
  · rw [dif_neg hy, if_neg hy]
    simp

/-- The same for the numbers. -/
theorem conv_plain (c h w kh kw o s0 s1 : ℕ) (p : Padding) {ho wo : ℕ} (x : Fin (c * (h * w)) → ℚ)
    (v : Fin (kh * (kw * (c * o))) → ℚ) (oo : Fin o) (i : Fin ho) (j : Fin wo) :
    linPlain (convTaps c h w kh kw o s0 s1 p) v x (pixel oo i j) =
      correlation (imageOf x) (kernelOf v) h w c kh kw s0 s1 p 0 i j oo :=
  conv_taps c h w kh kw o s0 s1 p x v oo i j

/-- A layer with the padding of `SAME`: the corner of the image is in the middle of a window with
four of nine positions inside. -/
example : (convTaps 1 2 2 3 3 1 1 1 .same (ho := 2) (wo := 2) (pixel 0 0 0)).length = 4 := by decide +kernel

end Verif.Aby3
