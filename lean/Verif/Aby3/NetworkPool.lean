import Verif.Aby3.NetworkProps
import Verif.Aby3.NetworkConv
import Mathlib.Order.Bounds.Basic

/-!
# C88: pooling layers

The windows of `MaxPooling2D` and `AveragePooling2D` for channel-first images (keras/layers/pooling.py;
`im2patches`, tensor/shared.py 45-67; aby3.py 5285-5352), and the proof that the layers compute the
maximum and the average of every window. Padding is zero, and an average divides by the size of the
window, also at the border.
-/

namespace Verif.Aby3

open Verif Tensor

/-- An element of a channel, `none` outside of the image. -/
def poolPixel {c : ℕ} (h w : ℕ) (ch : Fin c) (y x : ℤ) : Option (Fin (c * (h * w))) :=
  if hy : 0 ≤ y ∧ y < h ∧ 0 ≤ x ∧ x < w then some (pixel ch ⟨y.toNat, by omega⟩ ⟨x.toNat, by omega⟩) else none

/-- The element at position `t` of the window for one output (`extract_patches`, with the positions of a
`kh × kw` window in rows), `none` in the padding. The outputs of a sample have the shape `[c, ho, wo]`. -/
def poolAt (c h w kh kw s0 s1 : ℕ) (p : Padding) {ho wo : ℕ} (t : ℕ) (j : Fin (c * (ho * wo))) :
    Option (Fin (c * (h * w))) :=
  let i := (finProdFinEquiv.symm (finProdFinEquiv.symm j).2).1
  let jj := (finProdFinEquiv.symm (finProdFinEquiv.symm j).2).2
  poolPixel h w (finProdFinEquiv.symm j).1 ((i : ℤ) * s0 + ((t / kw : ℕ) : ℤ) - frontPad h kh s0 p)
    ((jj : ℤ) * s1 + ((t % kw : ℕ) : ℤ) - frontPad w kw s1 p)

/-- `MaxPooling2D` with a `kh × kw` window, followed by `rest`. -/
def Arch.maxpool2d (c h w kh kw s0 s1 : ℕ) (p : Padding) {ho wo l : ℕ} (rest : Arch (c * (ho * wo)) l) :
    Arch (c * (h * w)) l :=
  .maxpool (s := kh * kw - 1) (fun t j => poolAt c h w kh kw s0 s1 p t j) rest

/-- `AveragePooling2D` with a `kh × kw` window, followed by `rest`. -/
def Arch.avgpool2d (c h w kh kw s0 s1 : ℕ) (p : Padding) {ho wo l : ℕ} (rest : Arch (c * (ho * wo)) l) :
    Arch (c * (h * w)) l :=
  .avgpool (1 / (kh * kw)) (fun j => (List.range (kh * kw)).filterMap fun t => poolAt c h w kh kw s0 s1 p t j) rest

/-- The value at a position of a window, zero outside of the image. -/
def inWindow {c h w : ℕ} (x : Fin (c * (h * w)) → ℚ) (kh kw s0 s1 : ℕ) (p : Padding) (ch i j di dj : ℕ) : ℚ :=
  extend h w (fun y x' => imageOf x 0 y x' ch) ((i : ℤ) * s0 + di - frontPad h kh s0 p)
    ((j : ℤ) * s1 + dj - frontPad w kw s1 p)

theorem padded_poolAt {c h w : ℕ} (x : Fin (c * (h * w)) → ℚ) (kh kw s0 s1 : ℕ) (p : Padding) {ho wo : ℕ} (t : ℕ)
    (ch : Fin c) (i : Fin ho) (j : Fin wo) :
    padded x (poolAt c h w kh kw s0 s1 p t (pixel ch i j)) =
      inWindow x kh kw s0 s1 p ch i j (t / kw) (t % kw) := by
  unfold poolAt inWindow
  rw [show pixel ch i j = finProdFinEquiv (ch, finProdFinEquiv (i, j)) from rfl]
  simp only [Equiv.symm_apply_apply]
  generalize (i : ℤ) * s0 + ((t / kw : ℕ) : ℤ) - frontPad h kh s0 p = y
  generalize (j : ℤ) * s1 + ((t % kw : ℕ) : ℤ) - frontPad w kw s1 p = x'
  unfold poolPixel extend
  by_cases hy : 0 ≤ y ∧ y < h ∧ 0 ≤ x' ∧ x' < w
  · rw [dif_pos hy, if_pos hy]
    unfold imageOf
    beta_reduce
    rw [dif_pos ⟨ch.2, by omega, by omega⟩]
    rfl
  · rw [dif_neg hy, if_neg hy]
    rfl

/-- **C88**: a `MaxPooling2D` layer computes the largest value of every window. -/
theorem maxpool_plain {c h w : ℕ} (x : Fin (c * (h * w)) → ℚ) {kh kw : ℕ} (hk : 0 < kh) (hl : 0 < kw) (s0 s1 : ℕ)
    (p : Padding) {ho wo : ℕ} (ch : Fin c) (i : Fin ho) (j : Fin wo) :
    IsGreatest {v | ∃ di < kh, ∃ dj < kw, v = inWindow x kh kw s0 s1 p ch i j di dj}
      ((Arch.maxpool2d c h w kh kw s0 s1 p (.nil : Arch (c * (ho * wo)) _)).plain () x (pixel ch i j)) := by
  show IsGreatest _ (largest fun t : Fin (kh * kw - 1 + 1) => padded x (poolAt c h w kh kw s0 s1 p t (pixel ch i j)))
  have hpos : 0 < kh * kw := Nat.mul_pos hk hl
  constructor
  · obtain ⟨t, ht⟩ := largest_eq fun t : Fin (kh * kw - 1 + 1) => padded x (poolAt c h w kh kw s0 s1 p t (pixel ch i j))
    rw [ht, padded_poolAt]
    have := t.2
    exact ⟨_, (Nat.div_lt_iff_lt_mul hl).2 (by omega), _, Nat.mod_lt _ hl, rfl⟩
  · rintro v ⟨di, hdi, dj, hdj, rfl⟩
    have hlt : di * kw + dj < kh * kw := by
      calc di * kw + dj < di * kw + kw := by omega
        _ = (di + 1) * kw := by ring
        _ ≤ kh * kw := Nat.mul_le_mul_right _ hdi
    have := le_largest (fun t : Fin (kh * kw - 1 + 1) => padded x (poolAt c h w kh kw s0 s1 p t (pixel ch i j)))
      ⟨di * kw + dj, by omega⟩
    rw [padded_poolAt] at this
    rw [show (di * kw + dj) / kw = di by
        rw [mul_comm, Nat.mul_add_div hl, Nat.div_eq_of_lt hdj, add_zero],
      show (di * kw + dj) % kw = dj by rw [mul_comm, Nat.mul_add_mod, Nat.mod_eq_of_lt hdj]] at this
    exact this

theorem sum_filterMap {k : ℕ} (x : Fin k → ℚ) (f : ℕ → Option (Fin k)) (L : List ℕ) :
    ((L.filterMap f).map x).sum = (L.map fun t => padded x (f t)).sum := by
  induction L with
  | nil => rfl
  | cons t L ih =>
    rw [List.map_cons, List.sum_cons, ← ih, List.filterMap_cons]
    cases h : f t with
    | none => simp [padded]
    | some i => simp [padded]

theorem sum_grid {kw : ℕ} (hl : 0 < kw) (kh : ℕ) (f : ℕ → ℕ → ℚ) :
    ((List.range (kh * kw)).map fun t => f (t / kw) (t % kw)).sum =
      ∑ di ∈ Finset.range kh, ∑ dj ∈ Finset.range kw, f di dj := by
  induction kh with
  | zero => simp
  | succ kh ih =>
    rw [Nat.succ_mul, List.range_add, List.map_append, List.sum_append, ih, Finset.sum_range_succ]
    congr 1
    rw [List.map_map, Finset.sum_range, ← List.sum_ofFn, List.ofFn_eq_map, ← List.map_coe_finRange_eq_range, List.map_map]
    refine congrArg List.sum (List.map_congr_left fun dj _ => ?_)
    have hdj := dj.2
    simp only [Function.comp_apply]
    rw [show (kh * kw + (dj : ℕ)) / kw = kh by
        rw [mul_comm, Nat.mul_add_div hl, Nat.div_eq_of_lt hdj, add_zero],
      show (kh * kw + (dj : ℕ)) % kw = dj by rw [mul_comm, Nat.mul_add_mod, Nat.mod_eq_of_lt hdj]]

/-- **C88**: an `AveragePooling2D` layer computes the average of every window, with zeros in the
padding. -/
theorem avgpool_plain {c h w : ℕ} (x : Fin (c * (h * w)) → ℚ) {kh kw : ℕ} (hl : 0 < kw) (s0 s1 : ℕ)
    (p : Padding) {ho wo : ℕ} (ch : Fin c) (i : Fin ho) (j : Fin wo) :
    (Arch.avgpool2d c h w kh kw s0 s1 p (.nil : Arch (c * (ho * wo)) _)).plain () x (pixel ch i j) =
      (∑ di ∈ Finset.range kh, ∑ dj ∈ Finset.range kw, inWindow x kh kw s0 s1 p ch i j di dj) / (kh * kw) := by
  show (1 / ((kh : ℚ) * kw)) * (((List.range (kh * kw)).filterMap fun t =>
    poolAt c h w kh kw s0 s1 p t (pixel ch i j)).map x).sum = _
  rw [sum_filterMap, one_div, inv_mul_eq_div]
  congr 1
  simp only [padded_poolAt]
  exact sum_grid hl kh fun di dj => inWindow x kh kw s0 s1 p ch i j di dj

/-- A network for images of 5 × 5: convolution, `relu`, pooling, and a `Dense` layer. -/
def sampleImageNet : Arch (1 * (5 * 5)) 2 :=
  .conv2d 1 5 5 2 2 1 1 1 .valid (ho := 4) (wo := 4) true true <|
    .maxpool2d 1 4 4 2 2 2 2 .valid (ho := 2) (wo := 2) <|
      .avgpool2d 1 2 2 2 2 1 1 .same (ho := 2) (wo := 2) <| .dense (1 * (2 * 2)) 2 true false .nil

/-- Some weights. -/
def sampleImageWeights : sampleImageNet.Params Numbers :=
  ((fun i => if i = 0 then 1 / 2 else -3 / 2), (fun _ => 1 / 3), (fun i => if i = 3 then 5 / 4 else -1),
    (fun _ => -1), ())

/-- Some image. -/
def sampleImage : Fin (1 * (5 * 5)) → ℚ := fun t => if t.1 % 3 = 0 then 2 else -1

example : sampleImageNet.Averages (2 ^ 6) 16 := by
  refine ⟨fun a ha => ?_, trivial⟩
  have : (2 : ℚ) ^ a = 2 ^ 2 := by
    push_cast at ha
    linarith
  have := pow_right_injective₀ (by norm_num) (by norm_num) this
  subst this
  norm_num

example : sampleImageNet.Encodable (2 ^ 6) 16 sampleImageWeights :=
  ⟨by decide +kernel, by decide +kernel, by decide +kernel, by decide +kernel, trivial⟩

example : sampleImageNet.Fits (2 ^ 6) 16 (1 / 2 ^ 16) sampleImageWeights sampleImage fun _ => 1 / 2 ^ 16 :=
  ⟨by decide +kernel, by decide +kernel, by decide +kernel, by decide +kernel, by decide +kernel,
    fun j => by revert j; decide +kernel⟩

example : sampleImageNet.Moderate (1 / 2 ^ 16) 6 30 sampleImageWeights sampleImage :=
  ⟨by decide +kernel, by decide +kernel, by decide +kernel, trivial⟩

end Verif.Aby3
