import Verif.Tensor.ConvProps
import Verif.Tensor.Pool
import Verif.Fixed.Model
import Mathlib.Tactic.FieldSimp
import Mathlib.Data.List.GetD
import Mathlib.Order.Defs.LinearOrder
import Mathlib.Data.Rat.Floor
import Mathlib.Algebra.Order.Field.Rat

/-!
# C52: padding and pooling

`padded` says what `tf.pad` means: an index inside the original block reads the original entry,
every other index reads zero.
-/

namespace Verif.Tensor

/-! ## Padding -/

/-- The original index below a padded one, if there is one. -/
def original : List (ℕ × ℕ) → List ℕ → List ℕ → Option (List ℕ)
  | (before, _) :: ps, d :: ds, i :: is =>
      if before ≤ i ∧ i < before + d then (original ps ds is).map ((i - before) :: ·) else none
  | _, _, idx => some idx

/-- The padded shape. -/
def paddedShape : List (ℕ × ℕ) → List ℕ → List ℕ
  | (before, after) :: ps, d :: ds => (before + d + after) :: paddedShape ps ds
  | _, s => s

theorem getD_append_cons {β : Type} (pre : List β) (d e : β) (ds : List β) (a : ℕ)
    (h : pre.length = a) : (pre ++ d :: ds).getD a e = d := by
  subst h; simp [List.getD_eq_getElem?_getD]

theorem set_append_cons {β : Type} (pre : List β) (d e : β) (ds : List β) (a : ℕ)
    (h : pre.length = a) : (pre ++ d :: ds).set a e = pre ++ e :: ds := by
  subst h; simp

/-- One axis: the zeros behind and in front. -/
theorem pad_axis {α : Type} [Zero α] (t : Ten α) (pre : List ℕ) (d : ℕ) (ds : List ℕ) (a : ℕ)
    (hs : t.shape = pre ++ d :: ds) (ha : pre.length = a) (before after : ℕ) :
    ∃ t1 t2 : Ten α, appendZeros t after a = some t1 ∧ prependZeros t1 before a = some t2 ∧
      t2.shape = pre ++ (before + d + after) :: ds ∧
      ∀ p i is, p.length = a → i < before + d + after →
        t2.get (p ++ i :: is) =
          if before ≤ i ∧ i < before + d then t.get (p ++ (i - before) :: is) else 0 := by
  have h1 : ∃ t1 : Ten α, appendZeros t after a = some t1 ∧ t1.shape = pre ++ (d + after) :: ds ∧
      ∀ p i is, p.length = a → i < d + after →
        t1.get (p ++ i :: is) = if i < d then t.get (p ++ i :: is) else 0 := by
    unfold appendZeros
    by_cases h0 : after = 0
    · subst h0
      refine ⟨t, by simp, hs, ?_⟩
      intro p i is _ hi
      rw [if_pos (by omega)]
    · rw [if_neg h0]
      unfold concat zeros
      rw [hs, if_pos ⟨by simp [← ha], by simp [set_append_cons _ _ _ _ _ ha]⟩]
      refine ⟨_, rfl, ?_, ?_⟩
      · simp only [set_append_cons _ _ _ _ _ ha, getD_append_cons _ _ _ _ _ ha]
      · intro p i is hp _
        simp only [getD_append_cons _ _ _ _ _ ha, getD_append_cons _ _ _ _ _ hp]
  obtain ⟨t1, e1, hs1, g1⟩ := h1
  refine ⟨t1, ?_⟩
  unfold prependZeros
  by_cases h0 : before = 0
  · subst h0
    refine ⟨t1, e1, by simp, by simpa using hs1, ?_⟩
    intro p i is hp hi
    rw [g1 p i is hp (by omega)]
    simp
  · rw [if_neg h0]
    unfold concat zeros
    rw [hs1, set_append_cons _ _ _ _ _ ha]
    simp only []
    rw [if_pos ⟨by simp [← ha], by simp [set_append_cons _ _ _ _ _ ha]⟩]
    refine ⟨_, e1, rfl, ?_, ?_⟩
    · simp only [set_append_cons _ _ _ _ _ ha, getD_append_cons _ _ _ _ _ ha]
      rw [Nat.add_assoc]
    · intro p i is hp hi
      simp only [getD_append_cons _ _ _ _ _ ha, getD_append_cons _ _ _ _ _ hp,
        set_append_cons _ _ _ _ _ hp]
      by_cases hb : i < before
      · rw [if_pos hb, if_neg (by omega)]
      · rw [if_neg hb, g1 p _ is hp (by omega)]
        by_cases hd : i - before < d
        · rw [if_pos hd, if_pos (by omega)]
        · rw [if_neg hd, if_neg (by omega)]

theorem padLoop_spec {α : Type} [Zero α] : ∀ (ps : List (ℕ × ℕ)) (t : Ten α) (pre ds : List ℕ)
    (a : ℕ), t.shape = pre ++ ds → pre.length = a → ps.length ≤ ds.length →
    ∃ z : Ten α, padLoop t a ps = some z ∧ z.shape = pre ++ paddedShape ps ds ∧
      ∀ p is, p.length = a → InShape (paddedShape ps ds) is →
        z.get (p ++ is) = match original ps ds is with
          | some j => t.get (p ++ j)
          | none => 0
  | [], t, pre, ds, a, hs, ha, _ => ⟨t, rfl, by simpa [paddedShape] using hs, by
      intro p is _ _; simp [original]⟩
  | (before, after) :: ps, t, pre, [], a, hs, ha, hl => by simp at hl
  | (before, after) :: ps, t, pre, d :: ds, a, hs, ha, hl => by
      obtain ⟨t1, t2, e1, e2, hs2, g2⟩ := pad_axis t pre d ds a hs ha before after
      obtain ⟨z, ez, hz, gz⟩ := padLoop_spec ps t2 (pre ++ [before + d + after]) ds (a + 1)
        (by simpa using hs2) (by simp [ha]) (by simpa using hl)
      refine ⟨z, ?_, by simpa [paddedShape] using hz, ?_⟩
      · simp only [padLoop, Option.bind_eq_bind, e1, e2, Option.bind_some, ez]
      · intro p is hp hin
        cases is with
        | nil => exact hin.elim
        | cons i is =>
            obtain ⟨hi, hin'⟩ := hin
            have h := gz (p ++ [i]) is (by simp [hp]) hin'
            rw [List.append_assoc, List.singleton_append] at h
            rw [h]
            simp only [original]
            by_cases hc : before ≤ i ∧ i < before + d
            · rw [if_pos hc]
              cases original ps ds is with
              | none => simp
              | some j =>
                  simp only [Option.map_some]
                  rw [show p ++ [i] ++ j = p ++ i :: j by simp, g2 p i j hp hi, if_pos hc]
            · rw [if_neg hc]
              cases original ps ds is with
              | none => rfl
              | some j =>
                  simp only []
                  rw [show p ++ [i] ++ j = p ++ i :: j by simp, g2 p i j hp hi, if_neg hc]

/-- What a correct padding returns. -/
def IsPadded {α : Type} [Zero α] (t : Ten α) (ps : List (ℕ × ℕ)) (z : Ten α) : Prop :=
  z.shape = paddedShape ps t.shape ∧
    ∀ is, InShape z.shape is → z.get is = match original ps t.shape is with
      | some j => t.get j
      | none => 0

theorem padLoop_isPadded {α : Type} [Zero α] (t : Ten α) (ps : List (ℕ × ℕ))
    (h : ps.length ≤ t.shape.length) : ∃ z, padLoop t 0 ps = some z ∧ IsPadded t ps z := by
  obtain ⟨z, e, hs, hg⟩ := padLoop_spec ps t [] t.shape 0 (by simp) rfl h
  rw [List.nil_append] at hs
  refine ⟨z, e, hs, ?_⟩
  intro is hin
  rw [hs] at hin
  have := hg [] is rfl hin
  simpa using this

/-- **C52 (padding, Pond).** Padding a scaled public or private tensor of any rank, by any amounts
on any prefix of the axes, gives the original entries (share by share) surrounded by exact zeros. -/
theorem pond_pad_partial {α : Type} [Zero α] (t : Ten α) (ps : List (ℕ × ℕ))
    (h : ps.length ≤ t.shape.length) :
    ∃ z, pondPad t true ps = .ok (z, true) ∧ IsPadded t ps z := by
  obtain ⟨z, e, hz⟩ := padLoop_isPadded t ps h
  exact ⟨z, by simp [pondPad, e], hz⟩

/-- **C52 (padding, ABY3 private).** The same for private ABY3 tensors, scaled or not. -/
theorem aby3_pad_partial {α : Type} [Zero α] (t : Ten α) (scaled : Bool) (ps : List (ℕ × ℕ))
    (h : ps.length ≤ t.shape.length) :
    ∃ z, aby3Pad false t scaled ps = .ok (z, scaled) ∧ IsPadded t ps z := by
  obtain ⟨z, e, hz⟩ := padLoop_isPadded t ps h
  exact ⟨z, by simp [aby3Pad, e], hz⟩

/-- The claim fails for unscaled Pond tensors: any non-zero padding raises an `AssertionError`. -/
theorem pond_pad_unscaled_false {α : Type} [Zero α] (t : Ten α) (ps : List (ℕ × ℕ))
    (h : ∃ q ∈ ps, q.1 ≠ 0 ∨ q.2 ≠ 0) : pondPad t false ps = .error .assertion := by
  unfold pondPad
  rw [if_pos ⟨rfl, by simpa using h⟩]

/-- The claim fails for public ABY3 tensors: any non-zero padding raises a `TypeError`. -/
theorem aby3_pad_public_false {α : Type} [Zero α] (t : Ten α) (scaled : Bool)
    (ps : List (ℕ × ℕ)) (h : ∃ q ∈ ps, q.1 ≠ 0 ∨ q.2 ≠ 0) :
    aby3Pad true t scaled ps = .error .typeError := by
  unfold aby3Pad
  rw [if_pos ⟨rfl, by simpa using h⟩]

/-- A two-by-one tensor padded by one in front of the rows and two behind the columns. -/
example : (pondPad (⟨[2, 1], fun idx => 5 + (flat [2, 1] idx : ℤ)⟩ : Ten ℤ) true
    [(1, 0), (0, 2)]).toOption.map (fun z => (z.1.shape, z.1.get [0, 0], z.1.get [1, 0],
      z.1.get [2, 0], z.1.get [2, 1])) = some ([3, 3], 0, 5, 6, 0) := by decide +kernel

/-! ## Pooling windows -/

theorem extend_congr {α : Type} [Zero α] (h w : ℕ) (f g : ℕ → ℕ → α)
    (hfg : ∀ y x, y < h → x < w → f y x = g y x) (y x : ℤ) :
    extend h w f y x = extend h w g y x := by
  unfold extend
  split
  · next hc => exact hfg _ _ (by omega) (by omega)
  · rfl

/-- The reshape that makes every channel its own image. -/
theorem split_channels {α : Type} (x : Ten α) (n c h w : ℕ) (hx : x.shape = [n, c, h, w]) :
    ∃ g : List ℕ → α, reshape x [n * c, 1, h, w] = some ⟨[n * c, 1, h, w], g⟩ ∧
      ∀ b k y x', b < n → k < c → y < h → x' < w →
        g [b * c + k, 0, y, x'] = x.get [b, k, y, x'] := by
  rw [reshape_some x _ (by rw [hx]; simp only [List.prod_cons, List.prod_nil]; ring)]
  refine ⟨_, rfl, ?_⟩
  intro b k y x' hb hk hy hx'
  simp only [hx]
  rw [show flat [n * c, 1, h, w] [b * c + k, 0, y, x'] = flat [n, c, h, w] [b, k, y, x'] by
      rw [flat4, flat4]; ring,
    unflat_flat [n, c, h, w] [b, k, y, x'] ⟨hb, hk, hy, hx', trivial⟩]

/-- The zero-padded window of channel `k` of image `b` at output pixel `(i, j)`. -/
def windowEntry {α : Type} [Zero α] (x : Ten α) (h w kh kw s0 s1 : ℕ) (p : Padding)
    (b k i j di dj : ℕ) : α :=
  extend h w (fun y x' => x.get [b, k, y, x'])
    (i * s0 + di - frontPad h kh s0 p) (j * s1 + dj - frontPad w kw s1 p)

/-- **C52 (window sums).** For every shape, pool size, stride and padding: the tensor that average
pooling multiplies by `1/(ph*pw)` holds, at every output pixel, the sum of the zero-padded window. -/
theorem avgpool_sums {α : Type} [AddCommMonoid α] (x : Ten α) (n c h w ph pw s0 s1 : ℕ)
    (p : Padding) (hx : x.shape = [n, c, h, w]) (hs0 : 0 < s0) (hs1 : 0 < s1) (hph : 0 < ph)
    (hpw : 0 < pw) (hp : p = .same ∨ p = .valid ∧ ph ≤ h ∧ pw ≤ w) :
    ∃ z : Ten α, avgpoolSums x ph pw s0 s1 p = some z ∧
      z.shape = [n, c, outputs h ph s0 p, outputs w pw s1 p] ∧
      ∀ b k i j, b < n → k < c → i < outputs h ph s0 p → j < outputs w pw s1 p →
        z.get [b, k, i, j] = ∑ di ∈ Finset.range ph, ∑ dj ∈ Finset.range pw,
          windowEntry x h w ph pw s0 s1 p b k i j di dj := by
  have hp' : ∀ u, p ≠ .other u := by rcases hp with h | h <;> simp [h]
  have hv : p = .valid → ph ≤ h ∧ pw ≤ w := by rcases hp with h | h <;> simp [h]
  obtain ⟨g, hg, hval⟩ := split_channels x n c h w hx
  obtain ⟨gc, hgc, hcol⟩ := im2col_nchw (⟨[n * c, 1, h, w], g⟩ : Ten α) (n * c) h w 1 ph pw s0 s1 p
    rfl hs0 hs1 hph hpw Nat.one_pos hp' hv
  unfold avgpoolSums
  simp only [hx, Option.bind_eq_bind]
  rw [outSize_dim h ph s0 hs0 hph p hp' (fun e => (hv e).1), Option.bind_some,
    outSize_dim w pw s1 hs1 hpw p hp' (fun e => (hv e).2), Option.bind_some, hg, Option.bind_some,
    hgc, Option.bind_some]
  simp only [reduceSum0, Option.bind_some]
  rw [reshape_some _ _ (by simp only [List.prod_cons, List.prod_nil]; ring), Option.bind_some,
    transpose_2301 _ _ _ _ _ rfl]
  refine ⟨_, rfl, rfl, ?_⟩
  intro b k i j hb hk hi hj
  simp only [List.getD_cons_zero, List.getD_cons_succ]
  rw [flat4, show ∀ m q : ℕ, unflat [m] q = [q] by intro m q; simp [unflat],
    Nat.one_mul, sum_mul_range]
  refine Finset.sum_congr rfl fun di hdi => Finset.sum_congr rfl fun dj hdj => ?_
  rw [Finset.mem_range] at hdi hdj
  have h1 := hcol (b * c + k) i j di dj 0 (lt_block hb hk) hi hj hdi hdj Nat.one_pos
  rw [show ((i * outputs w pw s1 p + j) * n + b) * c + k =
      (i * outputs w pw s1 p + j) * (n * c) + (b * c + k) by ring,
    show di * pw + dj = (0 * ph + di) * pw + dj by ring, h1]
  exact extend_congr h w _ _ (fun y x' hy hx' => hval b k y x' hb hk hy hx') _ _

/-- The claim fails for Pond when the pool is square, equal to the strides and divides the image:
the shortcut written for that case raises. -/
theorem pond_avgpool_square_false {α : Type} [AddCommMonoid α] (x : Ten α) (n c h w k : ℕ)
    (p : Padding) (hx : x.shape = [n, c, h, w]) (hh : h % k = 0) (hw : w % k = 0) :
    pondAvgpoolSums x k k k k p = none := by
  simp [pondAvgpoolSums, hx, hh, hw]

/-- In every other case Pond's pooling is the one of `avgpool_sums`. -/
theorem pond_avgpool_sums {α : Type} [AddCommMonoid α] (x : Ten α) (n c h w ph pw s0 s1 : ℕ)
    (p : Padding) (hx : x.shape = [n, c, h, w])
    (hne : ¬((ph = s0 ∧ pw = s1 ∧ ph = pw) ∧ h % ph = 0 ∧ w % pw = 0)) :
    pondAvgpoolSums x ph pw s0 s1 p = avgpoolSums x ph pw s0 s1 p := by
  simp only [pondAvgpoolSums, hx]
  rw [if_neg hne]

/-- **C52 (division).** The pooled value is the window sum `S` times the encoded `1/k`, truncated.
Whenever the truncation is within `δ` of the exact quotient (C10-C13), the decoded result is within
`(δ + |S|/scale)/scale` of the decoded sum divided by `k`. -/
theorem average_error (c : Fixed.Config) (hb : 0 < c.base) (S v : ℤ) (k : ℕ) (δ : ℚ)
    (hv : |(v : ℚ) - (S : ℚ) * (Fixed.encode c true (1 / (k : ℚ)) : ℤ) / (c.scale : ℚ)| ≤ δ) :
    |(v : ℚ) / c.scale - (S : ℚ) / c.scale / k| ≤ (δ + |(S : ℚ)| / c.scale) / c.scale := by
  have hs : (0 : ℚ) < c.scale := by
    have : 0 < c.scale := Nat.pow_pos hb
    exact_mod_cast this
  have he : |((Fixed.encode c true (1 / (k : ℚ)) : ℤ) : ℚ) - (1 / (k : ℚ)) * c.scale| ≤ 1 := by
    unfold Fixed.encode Fixed.toInt
    simp only [if_true]
    generalize (1 / (k : ℚ)) * (c.scale : ℚ) = t
    split
    · have h1 := Int.floor_le t
      have h2 := Int.lt_floor_add_one t
      rw [abs_le]; constructor <;> linarith
    · have h1 := Int.le_ceil t
      have h2 := Int.ceil_lt_add_one t
      rw [abs_le]; constructor <;> linarith
  generalize ((Fixed.encode c true (1 / (k : ℚ)) : ℤ) : ℚ) = e at *
  have e1 : (v : ℚ) / c.scale - (S : ℚ) / c.scale / k =
      (((v : ℚ) - (S : ℚ) * e / c.scale) + (S : ℚ) * (e - 1 / (k : ℚ) * c.scale) / c.scale) /
        c.scale := by
    rcases Nat.eq_zero_or_pos k with hk | hk
    · subst hk; field_simp; simp; ring
    · have : (k : ℚ) ≠ 0 := by exact_mod_cast hk.ne'
      field_simp; ring
  rw [e1, abs_div, abs_of_pos hs]
  apply div_le_div_of_nonneg_right _ hs.le
  refine (abs_add_le _ _).trans (add_le_add hv ?_)
  rw [abs_div, abs_of_pos hs, abs_mul]
  apply div_le_div_of_nonneg_right _ hs.le
  calc |(S : ℚ)| * |e - 1 / (k : ℚ) * c.scale| ≤ |(S : ℚ)| * 1 :=
        mul_le_mul_of_nonneg_left he (abs_nonneg _)
    _ = |(S : ℚ)| := mul_one _

/-- The claim fails for unscaled (integer) tensors: the factor `1/k` is lifted without scaling, so
it is encoded as zero and every pooled value is zero. -/
theorem avgpool_unscaled_false (c : Fixed.Config) (k : ℕ) (hk : 2 ≤ k) (S : ℤ) :
    S * Fixed.encode c false (1 / (k : ℚ)) = 0 := by
  have h0 : (0 : ℚ) ≤ 1 / (k : ℚ) := by positivity
  have h1 : (1 : ℚ) / k < 1 := by
    have : (2 : ℚ) ≤ k := by exact_mod_cast hk
    rw [div_lt_one (by linarith)]; linarith
  have : Fixed.encode c false (1 / (k : ℚ)) = 0 := by
    unfold Fixed.encode Fixed.toInt
    simp only [Bool.false_eq_true, if_false]
    rw [if_pos h0, Int.floor_eq_zero_iff]
    exact ⟨h0, h1⟩
  rw [this, mul_zero]

theorem le_maxUpTo {α : Type} [LinearOrder α] (f : ℕ → α) : ∀ k q, q ≤ k → f q ≤ maxUpTo f k
  | 0, q, h => by rw [Nat.le_zero.1 h]; exact le_refl _
  | k + 1, q, h => by
      simp only [maxUpTo]
      rcases Nat.lt_or_ge q (k + 1) with h1 | h1
      · exact (le_maxUpTo f k q (by omega)).trans (le_max_left _ _)
      · rw [show q = k + 1 by omega]; exact le_max_right _ _

theorem maxUpTo_mem {α : Type} [LinearOrder α] (f : ℕ → α) :
    ∀ k, ∃ q, q ≤ k ∧ maxUpTo f k = f q
  | 0 => ⟨0, le_refl _, rfl⟩
  | k + 1 => by
      obtain ⟨q, hq, e⟩ := maxUpTo_mem f k
      simp only [maxUpTo]
      rcases max_choice (maxUpTo f k) (f (k + 1)) with h | h
      · exact ⟨q, by omega, by rw [h, e]⟩
      · exact ⟨k + 1, le_refl _, h⟩

/-- **C52 (max pooling, ABY3).** For every shape, pool, stride and padding, each output pixel is
the largest entry of the zero-padded window. -/
theorem maxpool_correct {α : Type} [Zero α] [LinearOrder α] (x : Ten α)
    (n c h w ph pw s0 s1 : ℕ) (p : Padding) (hx : x.shape = [n, c, h, w]) (hs0 : 0 < s0)
    (hs1 : 0 < s1) (hph : 0 < ph) (hpw : 0 < pw) (hp : p = .same ∨ p = .valid ∧ ph ≤ h ∧ pw ≤ w) :
    ∃ z : Ten α, maxpool x ph pw s0 s1 p = some z ∧
      z.shape = [n, c, outputs h ph s0 p, outputs w pw s1 p] ∧
      ∀ b k i j, b < n → k < c → i < outputs h ph s0 p → j < outputs w pw s1 p →
        (∀ di dj, di < ph → dj < pw →
          windowEntry x h w ph pw s0 s1 p b k i j di dj ≤ z.get [b, k, i, j]) ∧
        ∃ di dj, di < ph ∧ dj < pw ∧
          z.get [b, k, i, j] = windowEntry x h w ph pw s0 s1 p b k i j di dj := by
  have hp' : ∀ u, p ≠ .other u := by rcases hp with h | h <;> simp [h]
  have hv : p = .valid → ph ≤ h ∧ pw ≤ w := by rcases hp with h | h <;> simp [h]
  obtain ⟨g, hg, hval⟩ := split_channels x n c h w hx
  set x' : Ten α := ⟨[n * c, h, w, 1], fun idx =>
      g [idx.getD 0 0, idx.getD 3 0, idx.getD 1 0, idx.getD 2 0]⟩ with hx'
  obtain ⟨ge, hge, hext⟩ := extractPatches_some x' (n * c) h w 1 ph pw s0 s1 p rfl hs0 hs1 hph hpw
    hp' hv
  obtain ⟨m, hm⟩ : ∃ m, ph * pw * 1 = m + 1 := ⟨ph * pw * 1 - 1, by
    have : 0 < ph * pw := Nat.mul_pos hph hpw
    omega⟩
  unfold maxpool im2patches
  simp only [hx, Option.bind_eq_bind, if_true]
  rw [outSize_dim h ph s0 hs0 hph p hp' (fun e => (hv e).1), Option.bind_some,
    outSize_dim w pw s1 hs1 hpw p hp' (fun e => (hv e).2), Option.bind_some, hg, Option.bind_some,
    transpose_0231 _ (n * c) 1 h w rfl, Option.bind_some, ← hx', hge, Option.bind_some,
    transpose_0312 _ _ _ _ _ rfl, Option.bind_some]
  simp only [reduceMax1, hm, Option.bind_some]
  rw [reshape_some _ _ (by simp only [List.prod_cons, List.prod_nil]; ring)]
  refine ⟨_, rfl, rfl, ?_⟩
  intro b k i j hb hk hi hj
  dsimp only
  rw [show flat [n, c, outputs h ph s0 p, outputs w pw s1 p] [b, k, i, j] =
      flat [n * c, outputs h ph s0 p, outputs w pw s1 p] [b * c + k, i, j] by
      rw [flat4, flat3]]
  rw [unflat_flat [n * c, outputs h ph s0 p, outputs w pw s1 p] [b * c + k, i, j]
      ⟨lt_block hb hk, hi, hj, trivial⟩]
  simp only [List.getD_cons_zero, List.getD_cons_succ]
  have hwin : ∀ di dj, di < ph → dj < pw → ge [b * c + k, i, j, di * pw + dj] =
      windowEntry x h w ph pw s0 s1 p b k i j di dj := by
    intro di dj hdi hdj
    have h1 := hext (b * c + k) i j di dj 0 hdi hdj Nat.one_pos
    rw [Nat.mul_one, Nat.add_zero] at h1
    rw [h1]
    exact extend_congr h w _ _ (fun y x'' hy hx'' => hval b k y x'' hb hk hy hx'') _ _
  constructor
  · intro di dj hdi hdj
    rw [← hwin di dj hdi hdj]
    have hq : di * pw + dj < ph * pw := lt_block hdi hdj
    exact le_maxUpTo (fun q => ge [b * c + k, i, j, q]) m (di * pw + dj) (by omega)
  · obtain ⟨q, hq, e⟩ := maxUpTo_mem (fun q => ge [b * c + k, i, j, q]) m
    have hq' : q < ph * pw := by omega
    refine ⟨q / pw, q % pw, Nat.div_lt_of_lt_mul (by rwa [Nat.mul_comm]), Nat.mod_lt _ hpw, ?_⟩
    rw [← hwin _ _ (Nat.div_lt_of_lt_mul (by rwa [Nat.mul_comm])) (Nat.mod_lt _ hpw),
      Nat.div_add_mod']
    exact e

/-- The claim that pooling returns the largest pixel of each window fails under SAME padding: the
padding takes part with value zero, so a window of negative pixels at the border pools to zero. -/
theorem maxpool_same_false :
    (maxpool (⟨[1, 1, 1, 1], fun _ => -7⟩ : Ten ℤ) 2 2 1 1 .same).map (fun z => z.get [0, 0, 0, 0]) =
      some 0 := by decide +kernel

/-- SecureNN's max pooling raises for every input: it passes one number where a pair of strides is
expected. -/
theorem secureNN_maxpool_false {α : Type} [Zero α] (x : Ten α) (ph pw s0 s1 : ℕ) (p : Padding) :
    secureNNIm2col x ph pw s0 s1 p = none := by
  unfold secureNNIm2col
  split
  · cases reshape x _ <;> rfl
  · rfl

/-- Two channels of 3x3 images pooled by 2x2 windows with stride 1, and with SAME padding. -/
example :
    let x : Ten ℤ := ⟨[1, 2, 3, 3], fun idx => flat [1, 2, 3, 3] idx⟩
    (avgpoolSums x 2 2 1 1 .valid).map (fun z => (z.shape, z.get [0, 1, 1, 1])) =
      some ([1, 2, 2, 2], 13 + 14 + 16 + 17) ∧
    (avgpoolSums x 2 2 2 2 .same).map (fun z => (z.shape, z.get [0, 0, 1, 1])) =
      some ([1, 2, 2, 2], 8) ∧
    (maxpool x 2 2 1 1 .valid).map (fun z => (z.shape, z.get [0, 1, 0, 0])) =
      some ([1, 2, 2, 2], 13) := by decide +kernel

end Verif.Tensor
