import Verif.Tensor.Model

/-!
# What a convolution is

Written without reference to patches, columns or reshapes.
-/

namespace Verif.Tensor

/-- A plane extended by zeros to all integer coordinates. -/
def extend {α : Type} [Zero α] (h w : ℕ) (img : ℕ → ℕ → α) (y x : ℤ) : α :=
  if 0 ≤ y ∧ y < h ∧ 0 ≤ x ∧ x < w then img y.toNat x.toNat else 0

/-- Padding in front of a dimension of the given size: none for VALID; for SAME, half (rounded
down) of what `ceil(size/stride)` windows need beyond the image. -/
def frontPad (size kernel stride : ℕ) : Padding → ℤ
  | .same => (max (((((size + stride - 1) / stride : ℕ) : ℤ) - 1) * stride + kernel - size) 0) / 2
  | _ => 0

/-- Number of outputs: `ceil(size/stride)` for SAME, the number of stride positions at which the
kernel fits for VALID. -/
def outputs (size kernel stride : ℕ) : Padding → ℕ
  | .same => (size + stride - 1) / stride
  | _ => ((List.range size).filter fun i => i % stride = 0 ∧ i + kernel ≤ size).length

/-- The strided, padded cross-correlation of a batch of images with a bank of filters, at output
pixel `(i, j)` of image `b` and filter `o`. -/
def correlation {α : Type} [Ring α] (img : ℕ → ℕ → ℕ → ℕ → α) (filt : ℕ → ℕ → ℕ → ℕ → α)
    (h w c kh kw s0 s1 : ℕ) (p : Padding) (b i j o : ℕ) : α :=
  ∑ di ∈ Finset.range kh, ∑ dj ∈ Finset.range kw, ∑ k ∈ Finset.range c,
    filt di dj k o *
      extend h w (fun y x => img b y x k)
        (i * s0 + di - frontPad h kh s0 p) (j * s1 + dj - frontPad w kw s1 p)

end Verif.Tensor
