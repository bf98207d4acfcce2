import Verif.Tensor.PatchesProps
import Verif.Tensor.PoolProps
import Verif.Keras.Conv
import Verif.Keras.GradLemmas

/-!
# `Conv2D.backward` computes the transposed convolutions

Entry by entry: what the expanded, padded, flipped convolutions of the backward pass sum up.
-/

namespace Verif.Keras

open Verif.Tensor

section ten
variable {α : Type}

theorem transpose_1203 (t : Ten α) (a b c d : ℕ) (h : t.shape = [a, b, c, d]) :
    transpose t [1, 2, 0, 3] = some ⟨[b, c, a, d], fun idx =>
      t.get [idx.getD 2 0, idx.getD 0 0, idx.getD 1 0, idx.getD 3 0]⟩ := by
  unfold transpose; rw [if_pos (by rw [h]; simp only [List.length_cons, List.length_nil]; decide)]; rw [h]; rfl

theorem transpose_0132 (t : Ten α) (a b c d : ℕ) (h : t.shape = [a, b, c, d]) :
    transpose t [0, 1, 3, 2] = some ⟨[a, b, d, c], fun idx =>
      t.get [idx.getD 0 0, idx.getD 1 0, idx.getD 3 0, idx.getD 2 0]⟩ := by
  unfold transpose; rw [if_pos (by rw [h]; simp only [List.length_cons, List.length_nil]; decide)]; rw [h]; rfl

theorem transpose_1023 (t : Ten α) (a b c d : ℕ) (h : t.shape = [a, b, c, d]) :
    transpose t [1, 0, 2, 3] = some ⟨[b, a, c, d], fun idx =>
      t.get [idx.getD 1 0, idx.getD 0 0, idx.getD 2 0, idx.getD 3 0]⟩ := by
  unfold transpose; rw [if_pos (by rw [h]; simp only [List.length_cons, List.length_nil]; decide)]; rw [h]; rfl

/-- Padding dimensions 0 and 1. -/
theorem pad_front [Zero α] (t : Ten α) (h w c d p q : ℕ) (ht : t.shape = [h, w, c, d]) :
    ∃ z : Ten α, padLoop t 0 [(p, p), (q, q)] = some z ∧ z.shape = [p + h + p, q + w + q, c, d] ∧
      ∀ i j k l, i < p + h + p → j < q + w + q → k < c → l < d →
        z.get [i, j, k, l] = if p ≤ i ∧ i < p + h ∧ q ≤ j ∧ j < q + w then t.get [i - p, j - q, k, l] else 0 := by
  obtain ⟨z, e, hs, hg⟩ := padLoop_spec [(p, p), (q, q)] t [] [h, w, c, d] 0 (by simp [ht]) rfl (by simp)
  refine ⟨z, e, by simpa [paddedShape] using hs, ?_⟩
  intro i j k l hi hj hk hl
  have := hg [] [i, j, k, l] rfl ⟨hi, hj, hk, hl, trivial⟩
  rw [List.nil_append] at this
  rw [this]
  by_cases h1 : p ≤ i ∧ i < p + h
  · by_cases h2 : q ≤ j ∧ j < q + w
    · rw [if_pos ⟨h1.1, h1.2, h2⟩]
      simp [original, h1, h2]
    · rw [if_neg (by tauto)]
      simp [original, h1, h2]
  · rw [if_neg (by tauto)]
    simp [original, h1]

/-- Padding dimensions 2 and 3. -/
theorem pad_back [Zero α] (t : Ten α) (c d h w p p' q q' : ℕ) (ht : t.shape = [c, d, h, w]) :
    ∃ z : Ten α, padLoop t 0 [(0, 0), (0, 0), (p, p'), (q, q')] = some z ∧
      z.shape = [c, d, p + h + p', q + w + q'] ∧
      ∀ k l i j, k < c → l < d → i < p + h + p' → j < q + w + q' →
        z.get [k, l, i, j] = if p ≤ i ∧ i < p + h ∧ q ≤ j ∧ j < q + w then t.get [k, l, i - p, j - q] else 0 := by
  obtain ⟨z, e, hs, hg⟩ := padLoop_spec [(0, 0), (0, 0), (p, p'), (q, q')] t [] [c, d, h, w] 0
    (by simp [ht]) rfl (by simp)
  refine ⟨z, e, by simpa [paddedShape] using hs, ?_⟩
  intro k l i j hk hl hi hj
  have := hg [] [k, l, i, j] rfl ⟨by simpa using hk, by simpa using hl, hi, hj, trivial⟩
  rw [List.nil_append] at this
  rw [this]
  by_cases h1 : p ≤ i ∧ i < p + h
  · by_cases h2 : q ≤ j ∧ j < q + w
    · rw [if_pos ⟨h1.1, h1.2, h2⟩]
      simp [original, h1, h2, hk, hl]
    · rw [if_neg (by tauto)]
      simp [original, h1, h2, hk, hl]
  · rw [if_neg (by tauto)]
    simp [original, h1, hk, hl]

theorem outputs_one (size k : ℕ) (hk : 0 < k) : outputs size k 1 .valid = size + 1 - k := by
  rw [outputs_valid _ _ _ Nat.one_pos hk]; simp

end ten

section sums
variable {α : Type} [Field α]

/-- One entry of the padded, expanded gradient read through the flipped kernel: the positions `i` with
`i*s + a = y`, of which there is at most one. -/
theorem flip_one (m s k y a : ℕ) (hs : 0 < s) (ha : a < k) (D : ℕ → α) :
    (if k - 1 ≤ y + (k - 1 - a) ∧ y + (k - 1 - a) < k - 1 + ((m - 1) * s + 1) ∧ 0 < m then
      (if (y + (k - 1 - a) - (k - 1)) % s = 0 then D ((y + (k - 1 - a) - (k - 1)) / s) else 0) else 0) =
    ∑ i ∈ Finset.range m, if i * s + a = y then D i else 0 := by
  by_cases h : ∃ i, i < m ∧ i * s + a = y
  · obtain ⟨i, hi, rfl⟩ := h
    have e : i * s + a + (k - 1 - a) - (k - 1) = i * s := by omega
    have hle : i * s ≤ (m - 1) * s := Nat.mul_le_mul_right _ (by omega)
    rw [if_pos ⟨by omega, by omega, by omega⟩, e, if_pos (Nat.mul_mod_left _ _), Nat.mul_div_cancel _ hs,
      Finset.sum_eq_single i]
    · rw [if_pos rfl]
    · intro j _ hj
      rw [if_neg]
      intro hc
      exact hj (Nat.eq_of_mul_eq_mul_right hs (by omega))
    · intro hn; exact absurd (Finset.mem_range.2 hi) hn
  · rw [Finset.sum_eq_zero fun i hi => if_neg fun hc => h ⟨i, Finset.mem_range.1 hi, hc⟩]
    split_ifs with h1 h2
    · exfalso
      refine h ⟨(y + (k - 1 - a) - (k - 1)) / s, ?_, ?_⟩
      · have : (y + (k - 1 - a) - (k - 1)) / s ≤ ((m - 1) * s) / s := Nat.div_le_div_right (by omega)
        rw [Nat.mul_div_cancel _ hs] at this
        omega
      · rw [Nat.div_mul_cancel (Nat.dvd_of_mod_eq_zero h2)]
        omega
    · rfl
    · rfl

/-- The sum over the positions of an expanded dimension. -/
theorem sum_expand (m s : ℕ) (hs : 0 < s) (hm : 0 < m) (f : ℕ → ℕ → α) :
    (∑ u ∈ Finset.range ((m - 1) * s + 1), if u % s = 0 then f (u / s) u else 0) =
      ∑ i ∈ Finset.range m, f i (i * s) := by
  rw [← Finset.sum_filter]
  symm
  refine Finset.sum_bij (fun i _ => i * s) ?_ ?_ ?_ ?_
  · intro i hi
    rw [Finset.mem_range] at hi
    rw [Finset.mem_filter, Finset.mem_range]
    have : i * s ≤ (m - 1) * s := Nat.mul_le_mul_right _ (by omega)
    exact ⟨by omega, Nat.mul_mod_left _ _⟩
  · intro i _ j _ h
    exact Nat.eq_of_mul_eq_mul_right hs h
  · intro u hu
    rw [Finset.mem_filter, Finset.mem_range] at hu
    refine ⟨u / s, ?_, Nat.div_mul_cancel (Nat.dvd_of_mod_eq_zero hu.2)⟩
    rw [Finset.mem_range]
    have : u / s ≤ ((m - 1) * s) / s := Nat.div_le_div_right (by omega)
    rw [Nat.mul_div_cancel _ hs] at this
    omega
  · intro i _
    rw [Nat.mul_div_cancel _ hs]

end sums

section core
variable {α : Type}

/-- The padding in front of and behind the rows and the columns. -/
def ConvCfg.padH (cfg : ConvCfg) (h : ℕ) : ℕ × ℕ := if cfg.pad = .same then padSize h cfg.k cfg.s0 else (0, 0)
def ConvCfg.padW (cfg : ConvCfg) (w : ℕ) : ℕ × ℕ := if cfg.pad = .same then padSize w cfg.k cfg.s1 else (0, 0)

theorem ConvCfg.nchw_some (cfg : ConvCfg) (t : Ten α) (n c h w : ℕ) (ht : t.shape = cfg.shape n c h w) :
    ∃ z : Ten α, cfg.nchw t = some z ∧ z.shape = [n, c, h, w] ∧
      ∀ b k y x, z.get [b, k, y, x] = cfg.entry t b k y x := by
  unfold ConvCfg.nchw ConvCfg.entry ConvCfg.shape at *
  cases hl : cfg.last
  · rw [hl] at ht
    exact ⟨t, rfl, ht, fun _ _ _ _ => rfl⟩
  · rw [hl] at ht
    simp only [if_true] at ht ⊢
    rw [transpose_0312 t _ _ _ _ ht]
    exact ⟨_, rfl, rfl, fun _ _ _ _ => rfl⟩

theorem ConvCfg.layout_some (cfg : ConvCfg) (t : Ten α) (n c h w : ℕ) (ht : t.shape = [n, c, h, w]) :
    ∃ z : Ten α, cfg.layout t = some z ∧ z.shape = cfg.shape n c h w ∧
      ∀ b k y x, cfg.entry z b k y x = t.get [b, k, y, x] := by
  unfold ConvCfg.layout ConvCfg.entry ConvCfg.shape
  cases hl : cfg.last
  · exact ⟨t, rfl, ht, fun _ _ _ _ => rfl⟩
  · simp only [if_true]
    rw [transpose_0231 t _ _ _ _ ht]
    exact ⟨_, rfl, rfl, fun _ _ _ _ => rfl⟩

theorem ConvCfg.hwno_some (cfg : ConvCfg) (t : Ten α) (n c h w : ℕ) (ht : t.shape = cfg.shape n c h w) :
    ∃ z : Ten α, transpose t (if cfg.last then [1, 2, 0, 3] else [2, 3, 0, 1]) = some z ∧
      z.shape = [h, w, n, c] ∧ ∀ y x b k, z.get [y, x, b, k] = cfg.entry t b k y x := by
  unfold ConvCfg.entry ConvCfg.shape at *
  cases hl : cfg.last
  · rw [hl] at ht
    simp only [Bool.false_eq_true, if_false] at ht ⊢
    rw [transpose_2301 t _ _ _ _ ht]
    exact ⟨_, rfl, rfl, fun _ _ _ _ => rfl⟩
  · rw [hl] at ht
    simp only [if_true] at ht ⊢
    rw [transpose_1203 t _ _ _ _ ht]
    exact ⟨_, rfl, rfl, fun _ _ _ _ => rfl⟩

theorem expand_some [Zero α] (t : Ten α) (h w n o s : ℕ) (hh : 0 < h) (hw : 0 < w) (ht : t.shape = [h, w, n, o]) :
    ∃ z : Ten α, expand t s = some z ∧ z.shape = [(h - 1) * s + 1, (w - 1) * s + 1, n, o] ∧
      ∀ i j b k, z.get [i, j, b, k] = if i % s = 0 ∧ j % s = 0 then t.get [i / s, j / s, b, k] else 0 := by
  unfold expand
  simp only [ht]
  rw [if_neg (by omega)]
  exact ⟨_, rfl, rfl, fun _ _ _ _ => rfl⟩

theorem reverse01_get (t : Ten α) (k c o : ℕ) (ht : t.shape = [k, k, c, o]) (i j a b : ℕ) :
    (reverse01 t).get [i, j, a, b] = t.get [k - 1 - i, k - 1 - j, a, b] := by
  simp [reverse01, ht]

variable [Field α]

/-- The convolution that yields the gradient by the input. -/
theorem flip_conv (pd e f kernel : Ten α) (n c o m m' k s : ℕ) (D : ℕ → ℕ → ℕ → ℕ → α)
    (hs : 0 < s) (hk : 0 < k) (hm : 0 < m) (hm' : 0 < m') (hc : 0 < c) (ho : 0 < o)
    (he : ∀ i j b q, e.get [i, j, b, q] = if i % s = 0 ∧ j % s = 0 then D b q (i / s) (j / s) else 0)
    (hpd : pd.shape = [n, o, k - 1 + ((m - 1) * s + 1) + (k - 1), k - 1 + ((m' - 1) * s + 1) + (k - 1)])
    (hpg : ∀ b q i j, b < n → q < o → i < k - 1 + ((m - 1) * s + 1) + (k - 1) →
      j < k - 1 + ((m' - 1) * s + 1) + (k - 1) → pd.get [b, q, i, j] =
        if k - 1 ≤ i ∧ i < k - 1 + ((m - 1) * s + 1) ∧ k - 1 ≤ j ∧ j < k - 1 + ((m' - 1) * s + 1) then
          e.get [i - (k - 1), j - (k - 1), b, q] else 0)
    (hf : f.shape = [k, k, o, c])
    (hfg : ∀ a a' q r, f.get [a, a', q, r] = kernel.get [k - 1 - a, k - 1 - a', r, q]) :
    ∃ z : Ten α, conv2d pd f 1 1 .valid .nchw = some z ∧
      z.shape = [n, c, (m - 1) * s + k, (m' - 1) * s + k] ∧
      ∀ b r y x, b < n → r < c → y < (m - 1) * s + k → x < (m' - 1) * s + k →
        z.get [b, r, y, x] = ∑ a ∈ Finset.range k, ∑ a' ∈ Finset.range k, ∑ q ∈ Finset.range o,
          kernel.get [a, a', r, q] * ∑ i ∈ Finset.range m, ∑ j ∈ Finset.range m',
            if i * s + a = y ∧ j * s + a' = x then D b q i j else 0 := by
  obtain ⟨z, hz, hzs, hzg⟩ := conv2d_nchw pd f n o _ _ k k c 1 1 .valid hpd hf Nat.one_pos Nat.one_pos hk hk ho hc
    (.inr ⟨rfl, by omega, by omega⟩)
  have e1 : outputs (k - 1 + ((m - 1) * s + 1) + (k - 1)) k 1 .valid = (m - 1) * s + k := by
    rw [outputs_one _ _ hk]; omega
  have e2 : outputs (k - 1 + ((m' - 1) * s + 1) + (k - 1)) k 1 .valid = (m' - 1) * s + k := by
    rw [outputs_one _ _ hk]; omega
  rw [e1, e2] at hzs
  rw [e1, e2] at hzg
  refine ⟨z, hz, hzs, ?_⟩
  intro b r y x hb hr hy hx
  rw [hzg b r y x hb hr hy hx]
  unfold correlation
  rw [← Finset.sum_range_reflect]
  refine Finset.sum_congr rfl fun a ha => ?_
  rw [← Finset.sum_range_reflect]
  refine Finset.sum_congr rfl fun a' ha' => ?_
  refine Finset.sum_congr rfl fun q hq => ?_
  rw [Finset.mem_range] at ha ha' hq
  dsimp only
  rw [hfg, show k - 1 - (k - 1 - a) = a by omega, show k - 1 - (k - 1 - a') = a' by omega]
  congr 1
  unfold extend frontPad
  rw [if_pos (by push_cast; omega)]
  have t1 : ((y : ℤ) * ((1 : ℕ) : ℤ) + ((k - 1 - a : ℕ) : ℤ) - 0).toNat = y + (k - 1 - a) := by omega
  have t2 : ((x : ℤ) * ((1 : ℕ) : ℤ) + ((k - 1 - a' : ℕ) : ℤ) - 0).toNat = x + (k - 1 - a') := by omega
  rw [t1, t2]
  dsimp only
  rw [hpg b q _ _ hb hq (by omega) (by omega), he]
  have f1 := flip_one m s k y a hs ha fun i => ∑ j ∈ Finset.range m', if j * s + a' = x then D b q i j else 0
  have f2 : ∀ i, _ := fun i => flip_one m' s k x a' hs ha' fun j => D b q i j
  simp only [hm, hm', and_true] at f1 f2
  have f3 : (∑ i ∈ Finset.range m, ∑ j ∈ Finset.range m', if i * s + a = y ∧ j * s + a' = x then D b q i j else 0) =
      ∑ i ∈ Finset.range m, if i * s + a = y then ∑ j ∈ Finset.range m', (if j * s + a' = x then D b q i j else 0)
        else 0 := by
    refine Finset.sum_congr rfl fun i _ => ?_
    by_cases h : i * s + a = y <;> simp [h]
  rw [f3, ← f1]
  simp only [← f2]
  generalize y + (k - 1 - a) = u
  generalize x + (k - 1 - a') = v
  by_cases g1 : k - 1 ≤ u ∧ u < k - 1 + ((m - 1) * s + 1) <;>
    by_cases g2 : k - 1 ≤ v ∧ v < k - 1 + ((m' - 1) * s + 1) <;>
    by_cases g3 : (u - (k - 1)) % s = 0 <;> by_cases g4 : (v - (k - 1)) % s = 0 <;>
    simp only [g1, g2, g3, g4, and_self, if_true, if_false, and_true, and_false, true_and, false_and, ← and_assoc]

/-- The convolution that yields the gradient by the kernel. -/
theorem kernel_conv (xt e : Ten α) (n c o m m' H W s : ℕ) (D X : ℕ → ℕ → ℕ → ℕ → α)
    (hs : 0 < s) (hn : 0 < n) (hm : 0 < m) (hm' : 0 < m') (ho : 0 < o)
    (hH : (m - 1) * s + 1 ≤ H) (hW : (m' - 1) * s + 1 ≤ W)
    (hes : e.shape = [(m - 1) * s + 1, (m' - 1) * s + 1, n, o])
    (he : ∀ i j b q, e.get [i, j, b, q] = if i % s = 0 ∧ j % s = 0 then D b q (i / s) (j / s) else 0)
    (hx : xt.shape = [c, n, H, W])
    (hxg : ∀ r b y x, r < c → b < n → y < H → x < W → xt.get [r, b, y, x] = X b r y x) :
    ∃ z : Ten α, conv2d xt e 1 1 .valid .nchw = some z ∧
      z.shape = [c, o, H - (m - 1) * s, W - (m' - 1) * s] ∧
      ∀ r q a a', r < c → q < o → a < H - (m - 1) * s → a' < W - (m' - 1) * s →
        z.get [r, q, a, a'] = ∑ i ∈ Finset.range m, ∑ j ∈ Finset.range m', ∑ b ∈ Finset.range n,
          D b q i j * X b r (a + i * s) (a' + j * s) := by
  obtain ⟨z, hz, hzs, hzg⟩ := conv2d_nchw xt e c n H W _ _ o 1 1 .valid hx hes Nat.one_pos Nat.one_pos
    (Nat.succ_pos _) (Nat.succ_pos _) hn ho (.inr ⟨rfl, hH, hW⟩)
  have e1 : outputs H ((m - 1) * s + 1) 1 .valid = H - (m - 1) * s := by
    rw [outputs_one _ _ (Nat.succ_pos _)]; omega
  have e2 : outputs W ((m' - 1) * s + 1) 1 .valid = W - (m' - 1) * s := by
    rw [outputs_one _ _ (Nat.succ_pos _)]; omega
  rw [e1, e2] at hzs
  rw [e1, e2] at hzg
  refine ⟨z, hz, hzs, ?_⟩
  intro r q a a' hr hq ha ha'
  rw [hzg r q a a' hr hq ha ha']
  unfold correlation
  have key : ∀ u v b, u < (m - 1) * s + 1 → v < (m' - 1) * s + 1 → b < n →
      (fun di dj k oo => e.get [di, dj, k, oo]) u v b q * extend H W (fun y x => (fun b y' x' k => xt.get [b, k, y', x']) r y x b)
          ((a : ℤ) * ((1 : ℕ) : ℤ) + u - frontPad H ((m - 1) * s + 1) 1 .valid)
          ((a' : ℤ) * ((1 : ℕ) : ℤ) + v - frontPad W ((m' - 1) * s + 1) 1 .valid) =
        if u % s = 0 then (if v % s = 0 then D b q (u / s) (v / s) * X b r (a + u) (a' + v) else 0) else 0 := by
    intro u v b hu hv hb
    dsimp only
    unfold extend frontPad
    rw [if_pos (by push_cast; omega)]
    have t1 : ((a : ℤ) * ((1 : ℕ) : ℤ) + u - 0).toNat = a + u := by omega
    have t2 : ((a' : ℤ) * ((1 : ℕ) : ℤ) + v - 0).toNat = a' + v := by omega
    rw [t1, t2]
    dsimp only
    rw [hxg r b _ _ hr hb (by omega) (by omega), he]
    by_cases g1 : u % s = 0 <;> by_cases g2 : v % s = 0 <;> simp [g1, g2]
  rw [Finset.sum_congr rfl fun u hu => Finset.sum_congr rfl fun v hv => Finset.sum_congr rfl fun b hb =>
    key u v b (Finset.mem_range.1 hu) (Finset.mem_range.1 hv) (Finset.mem_range.1 hb)]
  rw [← sum_expand m s hs hm fun i u => ∑ j ∈ Finset.range m', ∑ b ∈ Finset.range n,
    D b q i j * X b r (a + u) (a' + j * s)]
  refine Finset.sum_congr rfl fun u _ => ?_
  by_cases g1 : u % s = 0
  · simp only [g1, if_true]
    rw [← sum_expand m' s hs hm' fun j v => ∑ b ∈ Finset.range n, D b q (u / s) j * X b r (a + u) (a' + v)]
    refine Finset.sum_congr rfl fun v _ => ?_
    by_cases g2 : v % s = 0 <;> simp [g2]
  · simp [g1]

/-- The whole backward pass before the assertions, for any strides and any size of the gradient. Both
dimensions of the gradient are expanded by the stride of the rows. -/
theorem convBackCore_some (cfg : ConvCfg) (lazy : Bool) (x kernel d : Ten α) (n c h w o m m' : ℕ)
    (hs : 0 < cfg.s0) (hk : 0 < cfg.k) (hn : 0 < n) (hc : 0 < c) (ho : 0 < o) (hm : 0 < m) (hm' : 0 < m')
    (hx : x.shape = cfg.shape n c h w) (hkn : kernel.shape = [cfg.k, cfg.k, c, o])
    (hd : d.shape = cfg.shape n o m m')
    (hH : (m - 1) * cfg.s0 + 1 ≤ (cfg.padH h).1 + h + (cfg.padH h).2)
    (hW : (m' - 1) * cfg.s0 + 1 ≤ (cfg.padW w).1 + w + (cfg.padW w).2) :
    ∃ dk db dx : Ten α, convBackCore cfg lazy x kernel d = some (dk, db, dx) ∧
      dk.shape = [(cfg.padH h).1 + h + (cfg.padH h).2 - (m - 1) * cfg.s0,
        (cfg.padW w).1 + w + (cfg.padW w).2 - (m' - 1) * cfg.s0, c, o] ∧
      db.shape = [o, 1, 1] ∧
      dx.shape = cfg.shape n c ((m - 1) * cfg.s0 + cfg.k - (cfg.padH h).2 - (cfg.padH h).1)
        ((m' - 1) * cfg.s0 + cfg.k - (cfg.padW w).2 - (cfg.padW w).1) ∧
      (∀ a a' r q, a < (cfg.padH h).1 + h + (cfg.padH h).2 - (m - 1) * cfg.s0 →
        a' < (cfg.padW w).1 + w + (cfg.padW w).2 - (m' - 1) * cfg.s0 → r < c → q < o →
        dk.get [a, a', r, q] = (∑ i ∈ Finset.range m, ∑ j ∈ Finset.range m', ∑ b ∈ Finset.range n,
          cfg.entry d b q i j * extend h w (cfg.entry x b r) ((i * cfg.s0 + a : ℕ) - (cfg.padH h).1)
            ((j * cfg.s0 + a' : ℕ) - (cfg.padW w).1)) / (if lazy then (n : α) else 1)) ∧
      (∀ q, db.get [q, 0, 0] = (∑ i ∈ Finset.range m, ∑ j ∈ Finset.range m', ∑ b ∈ Finset.range n,
          cfg.entry d b q i j) / (if lazy then (n : α) else 1)) ∧
      (∀ b r y x, b < n → r < c → y < (m - 1) * cfg.s0 + cfg.k - (cfg.padH h).2 - (cfg.padH h).1 →
        x < (m' - 1) * cfg.s0 + cfg.k - (cfg.padW w).2 - (cfg.padW w).1 →
        cfg.entry dx b r y x = ∑ a ∈ Finset.range cfg.k, ∑ a' ∈ Finset.range cfg.k, ∑ q ∈ Finset.range o,
          kernel.get [a, a', r, q] * ∑ i ∈ Finset.range m, ∑ j ∈ Finset.range m',
            if i * cfg.s0 + a = y + (cfg.padH h).1 ∧ j * cfg.s0 + a' = x + (cfg.padW w).1 then
              cfg.entry d b q i j else 0) := by
  obtain ⟨x1, hx1, hx1s, hx1g⟩ := cfg.nchw_some x n c h w hx
  obtain ⟨d1, hd1, hd1s, hd1g⟩ := cfg.hwno_some d n o m m' hd
  obtain ⟨e, he, hes, heg⟩ := expand_some d1 m m' n o cfg.s0 hm hm' hd1s
  simp only [hd1g] at heg
  obtain ⟨pd, hpd, hpds, hpdg⟩ := pad_front e _ _ _ _ (cfg.k - 1) (cfg.k - 1) hes
  obtain ⟨pt, hpt, hpts, hptg⟩ : ∃ z : Ten α, transpose pd [2, 3, 0, 1] = some z ∧
      z.shape = [n, o, cfg.k - 1 + ((m - 1) * cfg.s0 + 1) + (cfg.k - 1),
        cfg.k - 1 + ((m' - 1) * cfg.s0 + 1) + (cfg.k - 1)] ∧
      ∀ b q i j, z.get [b, q, i, j] = pd.get [i, j, b, q] :=
    ⟨_, transpose_2301 pd _ _ _ _ hpds, rfl, fun _ _ _ _ => rfl⟩
  obtain ⟨ft, hft, hfts, hftg⟩ : ∃ z : Ten α, transpose (reverse01 kernel) [0, 1, 3, 2] = some z ∧ z.shape = [cfg.k, cfg.k, o, c] ∧
      ∀ a a' q r, z.get [a, a', q, r] = (reverse01 kernel).get [a, a', r, q] :=
    ⟨_, transpose_0132 (reverse01 kernel) _ _ _ _ (show (reverse01 kernel).shape = _ from hkn), rfl,
      fun _ _ _ _ => rfl⟩
  obtain ⟨dx0, hdx0, hdx0s, hdx0g⟩ := flip_conv pt e ft kernel n c o m m' cfg.k cfg.s0 (cfg.entry d) hs hk hm hm'
    hc ho heg hpts (fun b q i j hb hq hi hj => (hptg b q i j).trans (hpdg i j b q hi hj hb hq)) hfts
    (fun a a' q r => (hftg a a' q r).trans (reverse01_get kernel cfg.k c o hkn a a' r q))
  have hcrop : (if cfg.pad = .same then crop dx0 (padSize (x1.shape.getD 2 0) cfg.k cfg.s0).1
      (padSize (x1.shape.getD 2 0) cfg.k cfg.s0).2 (padSize (x1.shape.getD 3 0) cfg.k cfg.s1).1
      (padSize (x1.shape.getD 3 0) cfg.k cfg.s1).2 else dx0) =
      if cfg.pad = .same then crop dx0 (cfg.padH h).1 (cfg.padH h).2 (cfg.padW w).1 (cfg.padW w).2 else dx0 := by
    rw [hx1s]
    by_cases hp : cfg.pad = .same <;> simp [hp, ConvCfg.padH, ConvCfg.padW]
  obtain ⟨dx1, hdx1, hdx1s, hdx1g⟩ : ∃ dx1 : Ten α,
      (if cfg.pad = .same then crop dx0 (cfg.padH h).1 (cfg.padH h).2 (cfg.padW w).1 (cfg.padW w).2 else dx0) = dx1 ∧
      dx1.shape = [n, c, (m - 1) * cfg.s0 + cfg.k - (cfg.padH h).2 - (cfg.padH h).1,
        (m' - 1) * cfg.s0 + cfg.k - (cfg.padW w).2 - (cfg.padW w).1] ∧
      ∀ b r y x, dx1.get [b, r, y, x] = dx0.get [b, r, y + (cfg.padH h).1, x + (cfg.padW w).1] := by
    refine ⟨_, rfl, ?_⟩
    by_cases hp : cfg.pad = .same
    · rw [if_pos hp]
      exact ⟨by simp [crop, hdx0s], fun b r y x => rfl⟩
    · rw [if_neg hp]
      simp [ConvCfg.padH, ConvCfg.padW, hp, hdx0s]
  obtain ⟨x2, hx2, hx2s, hx2g⟩ : ∃ x2 : Ten α,
      cfg.padInput x1 (padSize (x1.shape.getD 2 0) cfg.k cfg.s0) (padSize (x1.shape.getD 3 0) cfg.k cfg.s1) = some x2 ∧
      x2.shape = [n, c, (cfg.padH h).1 + h + (cfg.padH h).2, (cfg.padW w).1 + w + (cfg.padW w).2] ∧
      ∀ b r y u, b < n → r < c → y < (cfg.padH h).1 + h + (cfg.padH h).2 → u < (cfg.padW w).1 + w + (cfg.padW w).2 →
        x2.get [b, r, y, u] = extend h w (cfg.entry x b r) ((y : ℤ) - (cfg.padH h).1) ((u : ℤ) - (cfg.padW w).1) := by
    unfold ConvCfg.padInput
    by_cases hp : cfg.pad = .same
    · have e1 : cfg.padH h = padSize h cfg.k cfg.s0 := by simp [ConvCfg.padH, hp]
      have e2 : cfg.padW w = padSize w cfg.k cfg.s1 := by simp [ConvCfg.padW, hp]
      rw [if_pos hp, hx1s]
      simp only [List.getD_cons_succ, List.getD_cons_zero]
      rw [← e1, ← e2]
      obtain ⟨z, hz, hzs, hzg⟩ := pad_back x1 n c h w (cfg.padH h).1 (cfg.padH h).2 (cfg.padW w).1 (cfg.padW w).2 hx1s
      refine ⟨z, hz, hzs, ?_⟩
      intro b r y u hb hr hy hu
      rw [hzg b r y u hb hr hy hu]
      unfold extend
      by_cases hin : (cfg.padH h).1 ≤ y ∧ y < (cfg.padH h).1 + h ∧ (cfg.padW w).1 ≤ u ∧ u < (cfg.padW w).1 + w
      · rw [if_pos hin, if_pos (by omega), hx1g]
        congr 1 <;> omega
      · rw [if_neg hin, if_neg (by omega)]
    · rw [if_neg hp]
      refine ⟨x1, rfl, by simp [ConvCfg.padH, ConvCfg.padW, hp, hx1s], ?_⟩
      intro b r y u hb hr hy hu
      simp only [ConvCfg.padH, ConvCfg.padW, hp, if_false, Nat.cast_zero, sub_zero] at hy hu ⊢
      unfold extend
      rw [if_pos (by omega), hx1g]
      rfl
  obtain ⟨dx, hdx, hdxs, hdxg⟩ := cfg.layout_some dx1 _ _ _ _ hdx1s
  obtain ⟨xt, hxt, hxts, hxtg⟩ : ∃ z : Ten α, transpose x2 [1, 0, 2, 3] = some z ∧
      z.shape = [c, n, (cfg.padH h).1 + h + (cfg.padH h).2, (cfg.padW w).1 + w + (cfg.padW w).2] ∧
      ∀ r b y u, z.get [r, b, y, u] = x2.get [b, r, y, u] :=
    ⟨_, transpose_1023 x2 _ _ _ _ hx2s, rfl, fun _ _ _ _ => rfl⟩
  obtain ⟨dk0, hdk0, hdk0s, hdk0g⟩ := kernel_conv xt e n c o m m' _ _ cfg.s0 (cfg.entry d)
    (fun b r y u => extend h w (cfg.entry x b r) ((y : ℤ) - (cfg.padH h).1) ((u : ℤ) - (cfg.padW w).1))
    hs hn hm hm' ho hH hW hes heg hxts
    (fun r b y u hr hb hy hu => (hxtg r b y u).trans (hx2g b r y u hb hr hy hu))
  have hdk1 := transpose_2301 dk0 _ _ _ _ hdk0s
  unfold convBackCore
  simp only [Option.bind_eq_bind]
  rw [hx1, Option.bind_some, hd1, Option.bind_some, he, Option.bind_some, hpd, Option.bind_some, hpt, Option.bind_some,
    hft, Option.bind_some, hdx0, Option.bind_some, hcrop, hdx1, hx2, Option.bind_some, hdx, Option.bind_some, hxt,
    Option.bind_some, hdk0, Option.bind_some, hdk1, Option.bind_some]
  refine ⟨_, _, _, rfl, rfl, by simp [hd1s], hdxs, ?_, ?_, ?_⟩
  · intro a a' r q ha ha' hr hq
    simp only [hx1s, List.getD_cons_zero]
    congr 1
    refine (hdk0g r q a a' hr hq ha ha').trans ?_
    refine Finset.sum_congr rfl fun i _ => Finset.sum_congr rfl fun j _ => Finset.sum_congr rfl fun b _ => ?_
    rw [Nat.add_comm a, Nat.add_comm a']
  · intro q
    simp only [hx1s, hd1s, List.getD_cons_zero, List.getD_cons_succ, hd1g]
  · intro b r y u hb hr hy hu
    rw [hdxg, hdx1g, hdx0g b r _ _ hb hr (by omega) (by omega)]

end core

end Verif.Keras
