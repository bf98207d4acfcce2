import Verif.Tensor.ConvProps
import Verif.Tensor.Patches

/-!
# C57: patches are added back where they were taken from

`putBack` is the specification: every entry of every patch is added to the pixel that
`extract_patches` reads for it (`i*s0 + di - frontPad`, see `extractPatches_some`).
-/

namespace Verif.Tensor

/-- The sum of all patch entries taken from pixel `(y, x)` of channel `c` of image `b`; `h' x w'`
patches of size `ph x pw`, taken with strides `s0` (down) and `s1` (across) and front paddings
`top`, `left`. -/
def putBack {α : Type} [AddCommMonoid α] (patch : ℕ → ℕ → ℕ → ℕ → ℕ → ℕ → α)
    (h' w' ph pw s0 s1 : ℕ) (top left : ℤ) (b y x c : ℕ) : α :=
  ∑ i ∈ Finset.range h', ∑ j ∈ Finset.range w', ∑ di ∈ Finset.range ph, ∑ dj ∈ Finset.range pw,
    if (i : ℤ) * s0 + di - top = y ∧ (j : ℤ) * s1 + dj - left = x then patch b i j di dj c else 0

theorem sum_offsets {α : Type} [AddCommMonoid α] (ph pw u v y x : ℕ) (f : ℕ → ℕ → α) :
    (∑ di ∈ Finset.range ph, ∑ dj ∈ Finset.range pw,
      if u + di = y ∧ v + dj = x then f di dj else 0) =
      if u ≤ y ∧ y < u + ph ∧ v ≤ x ∧ x < v + pw then f (y - u) (x - v) else 0 := by
  by_cases h : u ≤ y ∧ y < u + ph ∧ v ≤ x ∧ x < v + pw
  · rw [if_pos h, Finset.sum_eq_single (y - u), Finset.sum_eq_single (x - v)]
    · rw [if_pos (by omega)]
    · intro dj _ hne; rw [if_neg (by omega)]
    · intro hn; exact absurd (Finset.mem_range.2 (by omega)) hn
    · intro di _ hne
      exact Finset.sum_eq_zero fun dj _ => by rw [if_neg (by omega)]
    · intro hn; exact absurd (Finset.mem_range.2 (by omega)) hn
  · rw [if_neg h]
    refine Finset.sum_eq_zero fun di hdi => Finset.sum_eq_zero fun dj hdj => ?_
    rw [Finset.mem_range] at hdi hdj
    rw [if_neg (by omega)]

theorem outputs_pos (size k s : ℕ) (hs : 0 < s) (hk : 0 < k) (hn : 0 < size) (p : Padding)
    (hp : p = .same ∨ p = .valid ∧ k ≤ size) : 0 < outputs size k s p := by
  rcases hp with rfl | ⟨rfl, h⟩
  · exact Nat.div_pos (by omega) hs
  · rw [outputs_valid _ _ _ hs hk]; exact Nat.div_pos (by omega) hs

/-- The size of the padded image that the windows cover. -/
def covered (size k s : ℕ) (p : Padding) : ℕ := (outputs size k s p - 1) * s + k

theorem crop_front (size k s : ℕ) (hs : 0 < s) (hk : 0 < k) (hn : 0 < size) (p : Padding)
    (hp : p = .same ∨ p = .valid ∧ k ≤ size) (hc : size ≤ covered size k s p) :
    ∃ t, cropOffset size (covered size k s p) = some t ∧ (t : ℤ) = frontPad size k s p := by
  have hpos := outputs_pos size k s hs hk hn p hp
  refine ⟨(covered size k s p - size) / 2, by simp [cropOffset]; omega, ?_⟩
  rcases hp with rfl | ⟨rfl, h⟩
  · simp only [frontPad]
    unfold covered at *
    change 0 < (size + s - 1) / s at hpos
    simp only [outputs] at *
    generalize (size + s - 1) / s = q at *
    obtain ⟨r, rfl⟩ : ∃ r, q = r + 1 := ⟨q - 1, by omega⟩
    simp only [Nat.add_sub_cancel] at *
    have e : (((r + 1 : ℕ) : ℤ) - 1) * s = ((r * s : ℕ) : ℤ) := by push_cast; ring
    rw [e]
    generalize r * s = m at *
    omega
  · have hle : covered size k s .valid ≤ size := by
      unfold covered
      rw [outputs_valid _ _ _ hs hk]
      have h1 := Nat.div_mul_le_self (size + 1 - k + s - 1) s
      have h2 : 0 < (size + 1 - k + s - 1) / s := Nat.div_pos (by omega) hs
      generalize (size + 1 - k + s - 1) / s = q at *
      obtain ⟨r, rfl⟩ : ∃ r, q = r + 1 := ⟨q - 1, by omega⟩
      rw [Nat.succ_mul] at h1
      simp only [Nat.add_sub_cancel]
      omega
    rw [show covered size k s .valid = size by omega]
    simp [frontPad]

/-- **C57.** With equal strides, and when the windows cover the image: reassembling the patches of
an `h x w` image adds every patch entry back to exactly the pixel it was extracted from. -/
theorem patches2im_partial {α : Type} [AddCommMonoid α] (t : Ten α) (bs h w c ph pw s : ℕ)
    (p : Padding) (hs : 0 < s) (hph : 0 < ph) (hpw : 0 < pw) (hh : 0 < h) (hw : 0 < w)
    (hp : p = .same ∨ p = .valid ∧ ph ≤ h ∧ pw ≤ w)
    (ht : t.shape = [bs, outputs h ph s p, outputs w pw s p, ph * pw * c])
    (hch : h ≤ covered h ph s p) (hcw : w ≤ covered w pw s p) :
    ∃ z : Ten α, patches2im t ph pw s s (some (h, w)) .nhwc = some z ∧ z.shape = [bs, h, w, c] ∧
      ∀ b y x k, b < bs → y < h → x < w → k < c →
        z.get [b, y, x, k] =
          putBack (fun b i j di dj k => t.get [b, i, j, (di * pw + dj) * c + k])
            (outputs h ph s p) (outputs w pw s p) ph pw s s (frontPad h ph s p) (frontPad w pw s p)
            b y x k := by
  have hp1 : p = .same ∨ p = .valid ∧ ph ≤ h := by tauto
  have hp2 : p = .same ∨ p = .valid ∧ pw ≤ w := by tauto
  have o1 := outputs_pos h ph s hs hph hh p hp1
  have o2 := outputs_pos w pw s hs hpw hw p hp2
  obtain ⟨top, e1, f1⟩ := crop_front h ph s hs hph hh p hp1 hch
  obtain ⟨left, e2, f2⟩ := crop_front w pw s hs hpw hw p hp2 hcw
  unfold covered at e1 e2
  rw [← f1, ← f2]
  generalize outputs h ph s p = h' at *
  generalize outputs w pw s p = w' at *
  have hpp : 0 < ph * pw := Nat.mul_pos hph hpw
  have hdiv : ph * pw * c / (ph * pw) = c := Nat.mul_div_cancel_left _ hpp
  unfold patches2im patches2imNHWC
  simp only [reduceCtorEq, if_false, ht, Option.bind_eq_bind, Option.bind_some, hdiv]
  rw [if_neg (by simp only [Nat.mul_mod_right]; omega),
    reshape_some t _ (by rw [ht]; simp only [List.prod_cons, List.prod_nil]; ring)]
  simp only [Option.bind_some, e1, e2]
  refine ⟨_, rfl, rfl, ?_⟩
  intro b y x k hb hy hx hk
  dsimp only
  unfold stratifiedSum putBack
  rw [sum_mul_range]
  refine Finset.sum_congr rfl fun i hi => Finset.sum_congr rfl fun j hj => ?_
  rw [Finset.mem_range] at hi hj
  rw [div_block _ 0 _ _ hj, mod_block _ _ _ hj]
  have key := sum_offsets ph pw (i * s) (j * s) (y + top) (x + left)
    (fun di dj => t.get [b, i, j, (di * pw + dj) * c + k])
  have lhs : (∑ di ∈ Finset.range ph, ∑ dj ∈ Finset.range pw,
      if (i : ℤ) * s + di - top = y ∧ (j : ℤ) * s + dj - left = x then
        t.get [b, i, j, (di * pw + dj) * c + k] else 0) =
      ∑ di ∈ Finset.range ph, ∑ dj ∈ Finset.range pw,
      if i * s + di = y + top ∧ j * s + dj = x + left then
        t.get [b, i, j, (di * pw + dj) * c + k] else 0 := by
    refine Finset.sum_congr rfl fun di _ => Finset.sum_congr rfl fun dj _ => if_congr ?_ rfl rfl
    have a1 : ((i * s : ℕ) : ℤ) = (i : ℤ) * s := by push_cast; rfl
    have a2 : ((j * s : ℕ) : ℤ) = (j : ℤ) * s := by push_cast; rfl
    rw [← a1, ← a2]
    generalize i * s = u
    generalize j * s = v
    omega
  rw [lhs, key]
  by_cases hc : i * s ≤ y + top ∧ y + top < i * s + ph ∧ j * s ≤ x + left ∧ x + left < j * s + pw
  · rw [if_pos hc, if_pos hc]
    obtain ⟨c1, c2, c3, c4⟩ := hc
    dsimp only
    rw [ht, show flat [bs, h' * w', ph, pw, c]
        [b, i * w' + j, y + top - i * s, x + left - j * s, k] =
        flat [bs, h', w', ph * pw * c]
          [b, i, j, ((y + top - i * s) * pw + (x + left - j * s)) * c + k] by
          simp only [flat, List.prod_cons, List.prod_nil]; ring,
      unflat_flat [bs, h', w', ph * pw * c] [b, i, j, _]
        ⟨hb, hi, hj, lt_block (lt_block (by omega) (by omega)) hk, trivial⟩]
  · rw [if_neg hc, if_neg hc]

/-- The claim fails when the windows do not reach the border of the image (VALID padding with a
remainder, for example): the zeros to fill in are asked from `Factory.pad`, which raises. -/
theorem patches2im_uncovered_false {α : Type} [AddCommMonoid α] (t : Ten α)
    (bs h' w' d ph pw s0 s1 h w : ℕ) (ht : t.shape = [bs, h', w', d])
    (hh : (h' - 1) * s1 + ph < h) : patches2im t ph pw s0 s1 (some (h, w)) .nhwc = none := by
  unfold patches2im patches2imNHWC
  simp only [reduceCtorEq, if_false, ht, Option.bind_eq_bind, Option.bind_some]
  split
  · rfl
  · cases reshape t _ with
    | none => rfl
    | some r =>
        simp only [Option.bind_some]
        rw [show cropOffset h ((h' - 1) * s1 + ph) = none by simp [cropOffset, hh]]
        rfl

/-- The claim fails for unequal strides: rows are placed with the column stride. Two 1x1 patches,
one above the other, taken with strides (2, 1) from a column of three pixels: the second patch is
added to the middle pixel, although it was taken from the bottom one. -/
theorem patches2im_strides_false :
    (patches2im (⟨[1, 2, 1, 1], fun idx => 10 + (flat [1, 2, 1, 1] idx : ℤ)⟩ : Ten ℤ) 1 1 2 1 none
      .nhwc).map (fun z => (z.shape, z.get [0, 0, 0, 0], z.get [0, 1, 0, 0])) =
      some ([1, 2, 1, 1], 10, 11) ∧
    (extractPatches (⟨[1, 3, 1, 1], fun idx => (flat [1, 3, 1, 1] idx : ℤ)⟩ : Ten ℤ) 1 1 2 1
      .valid).map (fun z => (z.shape, z.get [0, 1, 0, 0])) = some ([1, 2, 1, 1], 2) := by
  decide +kernel

/-- A 3x3 image with 2x2 windows, stride 1, SAME padding: nine patches, and the middle pixel
collects four entries. -/
example : outputs 3 2 1 .same = 3 ∧ covered 3 2 1 .same = 4 ∧
    (patches2im (⟨[1, 3, 3, 4], fun _ => 1⟩ : Ten ℤ) 2 2 1 1 (some (3, 3)) .nhwc).map
      (fun z => (z.shape, z.get [0, 0, 0, 0], z.get [0, 1, 1, 0])) = some ([1, 3, 3, 1], 1, 4) := by
  decide +kernel

end Verif.Tensor
