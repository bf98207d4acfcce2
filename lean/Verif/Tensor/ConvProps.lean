import Verif.Tensor.Lemmas

/-!
# C43: convolution through im2col is convolution

Entries come from an arbitrary ring (the backing ring of the tensors).
-/

namespace Verif.Tensor

variable {α : Type} [Ring α]

theorem dim_nat (a : ℕ) : dim (a : ℤ) = some a := by simp [dim]

theorem matmul_some (a b : Ten α) (m k n : ℕ) (ha : a.shape = [m, k]) (hb : b.shape = [k, n]) :
    ∃ g : List ℕ → α, matmul a b = some ⟨[m, n], g⟩ ∧
      ∀ i j, g [i, j] = ∑ q ∈ Finset.range k, a.get [i, q] * b.get [q, j] := by
  unfold matmul
  rw [ha, hb]
  simp only [if_true]
  exact ⟨_, rfl, fun i j => rfl⟩

/-- The part of `conv2d` after the data-format switch, shared by both formats. -/
theorem conv_core (x y : Ten α) (n h w c kh kw o s0 s1 : ℕ) (p : Padding)
    (hx : x.shape = [n, h, w, c]) (hy : y.shape = [kh, kw, c, o])
    (hs0 : 0 < s0) (hs1 : 0 < s1) (hkh : 0 < kh) (hkw : 0 < kw) (hc : 0 < c) (ho : 0 < o)
    (hp : ∀ u, p ≠ .other u) (hv : p = .valid → kh ≤ h ∧ kw ≤ w) :
    ∃ xcol wt wcol out z : Ten α, im2col x kh kw s0 s1 p .nhwc = some xcol ∧
      transpose y [3, 0, 1, 2] = some wt ∧ reshapeInfer wt [o] = some wcol ∧
      matmul wcol xcol = some out ∧
      reshape out [o, outputs h kh s0 p, outputs w kw s1 p, n] = some z ∧
      z.shape = [o, outputs h kh s0 p, outputs w kw s1 p, n] ∧
      ∀ b i j oo, b < n → i < outputs h kh s0 p → j < outputs w kw s1 p → oo < o →
        z.get [oo, i, j, b] = correlation (fun b y' x' k => x.get [b, y', x', k])
          (fun di dj k oo => y.get [di, dj, k, oo]) h w c kh kw s0 s1 p b i j oo := by
  obtain ⟨g, hg, hcol⟩ := im2col_nhwc x n h w c kh kw s0 s1 p hx hs0 hs1 hkh hkw hc hp hv
  have hwt := transpose_3012 y kh kw c o hy
  have hw := reshapeInfer_some (⟨[o, kh, kw, c], fun idx =>
      y.get [idx.getD 1 0, idx.getD 2 0, idx.getD 3 0, idx.getD 0 0]⟩ : Ten α) [o] (c * kh * kw)
      (by rw [List.prod_singleton]; omega) (by simp only [List.prod_cons, List.prod_nil]; ring)
  obtain ⟨gm, hm, hmul⟩ := matmul_some
    (⟨[o] ++ [c * kh * kw], fun idx => (⟨[o, kh, kw, c], fun idx =>
      y.get [idx.getD 1 0, idx.getD 2 0, idx.getD 3 0, idx.getD 0 0]⟩ : Ten α).get
        (unflat [o, kh, kw, c] (flat ([o] ++ [c * kh * kw]) idx))⟩ : Ten α)
    ⟨_, g⟩ o (c * kh * kw) _ rfl rfl
  have hr := reshape_some (⟨[o, outputs h kh s0 p * outputs w kw s1 p * n], gm⟩ : Ten α) [o, outputs h kh s0 p, outputs w kw s1 p, n]
    (by simp only [List.prod_cons, List.prod_nil]; ring)
  refine ⟨_, _, _, _, _, hg, hwt, hw, hm, hr, rfl, ?_⟩
  intro b i j oo hb hi hj hoo
  generalize outputs h kh s0 p = ho' at *
  generalize outputs w kw s1 p = wo' at *
  have hmm : (i * wo' + j) * n + b < ho' * wo' * n := lt_block (lt_block hi hj) hb
  show gm (unflat [o, ho' * wo' * n] (flat [o, ho', wo', n] [oo, i, j, b])) = _
  rw [show flat [o, ho', wo', n] [oo, i, j, b] =
      flat [o, ho' * wo' * n] [oo, (i * wo' + j) * n + b] by rw [flat4, flat2]; ring,
    unflat_flat [o, ho' * wo' * n] [oo, (i * wo' + j) * n + b] ⟨hoo, hmm, trivial⟩, hmul,
    show c * kh * kw = kh * kw * c by ring, sum_block]
  unfold correlation
  refine Finset.sum_congr rfl fun di hdi => Finset.sum_congr rfl fun dj hdj =>
    Finset.sum_congr rfl fun k hk => ?_
  rw [Finset.mem_range] at hdi hdj hk
  rw [← hcol b i j di dj k hb hi hj hdi hdj hk]
  congr 1
  simp only [List.cons_append, List.nil_append]
  rw [flat2, show oo * (kh * kw * c) + ((di * kw + dj) * c + k) =
      flat [o, kh, kw, c] [oo, di, dj, k] by rw [flat4]; ring,
    unflat_flat [o, kh, kw, c] [oo, di, dj, k] ⟨hoo, hdi, hdj, hk, trivial⟩]
  rfl

theorem outSize_dim (size k s : ℕ) (hs : 0 < s) (hk : 0 < k) (p : Padding)
    (hp : ∀ u, p ≠ .other u) (hv : p = .valid → k ≤ size) :
    (outSize size k s p).bind dim = some (outputs size k s p) := by
  rw [outSize_eq size k s hs hk p hp hv, Option.bind_some, dim_nat]

/-- **C43.** For every batch of channel-first images and every bank of filters with the same number
of channels, any strides, SAME or VALID padding: `conv2d` succeeds, its output sizes are the
documented ones, and every entry is the strided, padded cross-correlation. -/
theorem conv2d_nchw (x y : Ten α) (n c h w kh kw o s0 s1 : ℕ) (p : Padding)
    (hx : x.shape = [n, c, h, w]) (hy : y.shape = [kh, kw, c, o])
    (hs0 : 0 < s0) (hs1 : 0 < s1) (hkh : 0 < kh) (hkw : 0 < kw) (hc : 0 < c) (ho : 0 < o)
    (hp : p = .same ∨ p = .valid ∧ kh ≤ h ∧ kw ≤ w) :
    ∃ z : Ten α, conv2d x y s0 s1 p .nchw = some z ∧
      z.shape = [n, o, outputs h kh s0 p, outputs w kw s1 p] ∧
      ∀ b oo i j, b < n → oo < o → i < outputs h kh s0 p → j < outputs w kw s1 p →
        z.get [b, oo, i, j] = correlation (fun b y' x' k => x.get [b, k, y', x'])
          (fun di dj k oo => y.get [di, dj, k, oo]) h w c kh kw s0 s1 p b i j oo := by
  have hp' : ∀ u, p ≠ .other u := by rcases hp with h | h <;> simp [h]
  have hv : p = .valid → kh ≤ h ∧ kw ≤ w := by rcases hp with h | h <;> simp [h]
  obtain ⟨xcol, wt, wcol, out, z, e1, e2, e3, e4, e5, e6, e7⟩ :=
    conv_core (⟨[n, h, w, c], fun idx =>
      x.get [idx.getD 0 0, idx.getD 3 0, idx.getD 1 0, idx.getD 2 0]⟩ : Ten α) y n h w c kh kw o
      s0 s1 p rfl hy hs0 hs1 hkh hkw hc ho hp' hv
  unfold conv2d
  simp only [if_true, Option.bind_eq_bind]
  rw [transpose_0231 x n c h w hx, Option.bind_some]
  simp only [hy]
  rw [outSize_dim h kh s0 hs0 hkh p hp' (fun e => (hv e).1), Option.bind_some,
    outSize_dim w kw s1 hs1 hkw p hp' (fun e => (hv e).2), Option.bind_some, e1, Option.bind_some,
    e2, Option.bind_some, e3, Option.bind_some, e4, Option.bind_some, e5, Option.bind_some,
    transpose_3012 z _ _ _ _ e6]
  exact ⟨_, rfl, rfl, fun b oo i j hb hoo hi hj => e7 b i j oo hb hi hj hoo⟩

/-- **C43** for channel-last images. -/
theorem conv2d_nhwc (x y : Ten α) (n c h w kh kw o s0 s1 : ℕ) (p : Padding)
    (hx : x.shape = [n, h, w, c]) (hy : y.shape = [kh, kw, c, o])
    (hs0 : 0 < s0) (hs1 : 0 < s1) (hkh : 0 < kh) (hkw : 0 < kw) (hc : 0 < c) (ho : 0 < o)
    (hp : p = .same ∨ p = .valid ∧ kh ≤ h ∧ kw ≤ w) :
    ∃ z : Ten α, conv2d x y s0 s1 p .nhwc = some z ∧
      z.shape = [n, outputs h kh s0 p, outputs w kw s1 p, o] ∧
      ∀ b i j oo, b < n → i < outputs h kh s0 p → j < outputs w kw s1 p → oo < o →
        z.get [b, i, j, oo] = correlation (fun b y' x' k => x.get [b, y', x', k])
          (fun di dj k oo => y.get [di, dj, k, oo]) h w c kh kw s0 s1 p b i j oo := by
  have hp' : ∀ u, p ≠ .other u := by rcases hp with h | h <;> simp [h]
  have hv : p = .valid → kh ≤ h ∧ kw ≤ w := by rcases hp with h | h <;> simp [h]
  obtain ⟨xcol, wt, wcol, out, z, e1, e2, e3, e4, e5, e6, e7⟩ :=
    conv_core x y n h w c kh kw o s0 s1 p hx hy hs0 hs1 hkh hkw hc ho hp' hv
  unfold conv2d
  simp only [reduceCtorEq, if_false, Option.bind_eq_bind]
  rw [Option.bind_some]
  simp only [hx, hy]
  rw [outSize_dim h kh s0 hs0 hkh p hp' (fun e => (hv e).1), Option.bind_some,
    outSize_dim w kw s1 hs1 hkw p hp' (fun e => (hv e).2), Option.bind_some, e1, Option.bind_some,
    e2, Option.bind_some, e3, Option.bind_some, e4, Option.bind_some, e5, Option.bind_some,
    transpose_3120 z _ _ _ _ e6]
  exact ⟨_, rfl, rfl, fun b i j oo hb hi hj hoo => e7 b i j oo hb hi hj hoo⟩

/-- **C43** for the separate implementation of int100 tensors, when the channel counts agree. -/
theorem crt_conv2d (x y : Ten α) (n c h w kh kw o s0 s1 : ℕ) (p : Padding)
    (hx : x.shape = [n, c, h, w]) (hy : y.shape = [kh, kw, c, o])
    (hs0 : 0 < s0) (hs1 : 0 < s1) (hkh : 0 < kh) (hkw : 0 < kw) (hc : 0 < c) (ho : 0 < o)
    (hp : p = .same ∨ p = .valid ∧ kh ≤ h ∧ kw ≤ w) :
    ∃ z : Ten α, crtConv2d x y s0 s1 p = some z ∧
      z.shape = [n, o, outputs h kh s0 p, outputs w kw s1 p] ∧
      ∀ b oo i j, b < n → oo < o → i < outputs h kh s0 p → j < outputs w kw s1 p →
        z.get [b, oo, i, j] = correlation (fun b y' x' k => x.get [b, k, y', x'])
          (fun di dj k oo => y.get [di, dj, k, oo]) h w c kh kw s0 s1 p b i j oo := by
  have hp' : ∀ u, p ≠ .other u := by rcases hp with h | h <;> simp [h]
  have hv : p = .valid → kh ≤ h ∧ kw ≤ w := by rcases hp with h | h <;> simp [h]
  obtain ⟨g, hg, hcol⟩ := im2col_nchw x n h w c kh kw s0 s1 p hx hs0 hs1 hkh hkw hc hp' hv
  have hwt := transpose_3201 y kh kw c o hy
  have hw := reshapeInfer_some (⟨[o, c, kh, kw], fun idx =>
      y.get [idx.getD 2 0, idx.getD 3 0, idx.getD 1 0, idx.getD 0 0]⟩ : Ten α) [o] (c * kh * kw)
      (by rw [List.prod_singleton]; omega) (by simp only [List.prod_cons, List.prod_nil]; ring)
  obtain ⟨gm, hm, hmul⟩ := matmul_some
    (⟨[o] ++ [c * kh * kw], fun idx => (⟨[o, c, kh, kw], fun idx =>
      y.get [idx.getD 2 0, idx.getD 3 0, idx.getD 1 0, idx.getD 0 0]⟩ : Ten α).get
        (unflat [o, c, kh, kw] (flat ([o] ++ [c * kh * kw]) idx))⟩ : Ten α)
    ⟨_, g⟩ o (c * kh * kw) _ rfl rfl
  have hr := reshape_some (⟨[o, outputs h kh s0 p * outputs w kw s1 p * n], gm⟩ : Ten α) [o, outputs h kh s0 p, outputs w kw s1 p, n]
    (by simp only [List.prod_cons, List.prod_nil]; ring)
  unfold crtConv2d
  simp only [hx, hy, ne_eq, not_true_eq_false, if_false, Option.bind_eq_bind]
  rw [outSize_dim h kh s0 hs0 hkh p hp' (fun e => (hv e).1), Option.bind_some,
    outSize_dim w kw s1 hs1 hkw p hp' (fun e => (hv e).2), Option.bind_some, hg, Option.bind_some,
    hwt, Option.bind_some, hw, Option.bind_some, hm, Option.bind_some, hr, Option.bind_some,
    transpose_3012 _ _ _ _ _ rfl]
  refine ⟨_, rfl, rfl, ?_⟩
  intro b oo i j hb hoo hi hj
  generalize outputs h kh s0 p = ho' at *
  generalize outputs w kw s1 p = wo' at *
  have hmm : (i * wo' + j) * n + b < ho' * wo' * n := lt_block (lt_block hi hj) hb
  show gm (unflat [o, ho' * wo' * n] (flat [o, ho', wo', n] [oo, i, j, b])) = _
  rw [show flat [o, ho', wo', n] [oo, i, j, b] =
      flat [o, ho' * wo' * n] [oo, (i * wo' + j) * n + b] by rw [flat4, flat2]; ring,
    unflat_flat [o, ho' * wo' * n] [oo, (i * wo' + j) * n + b] ⟨hoo, hmm, trivial⟩, hmul,
    sum_block]
  unfold correlation
  rw [Finset.sum_comm]
  refine Finset.sum_congr rfl fun di hdi => ?_
  rw [Finset.sum_comm]
  refine Finset.sum_congr rfl fun dj hdj => Finset.sum_congr rfl fun k hk => ?_
  rw [Finset.mem_range] at hdi hdj hk
  rw [← hcol b i j di dj k hb hi hj hdi hdj hk]
  congr 1
  simp only [List.cons_append, List.nil_append]
  rw [flat2, show oo * (c * kh * kw) + ((k * kh + di) * kw + dj) =
      flat [o, c, kh, kw] [oo, k, di, dj] by rw [flat4]; ring,
    unflat_flat [o, c, kh, kw] [oo, k, di, dj] ⟨hoo, hk, hdi, hdj, trivial⟩]
  rfl

/-- A padding name other than SAME or VALID raises. -/
theorem conv2d_unknown_padding (x y : Ten α) (s0 s1 : ℕ) (u : String) (f : Format) :
    conv2d x y s0 s1 (.other u) f = none := by
  unfold conv2d
  cases f <;> simp only [reduceCtorEq, if_false, if_true, Option.bind_eq_bind]
  · cases transpose x [0, 2, 3, 1] with
    | none => rfl
    | some x' =>
        simp only [Option.bind_some, outSize, Option.bind_none]
        split <;> rfl
  · simp only [Option.bind_some, outSize, Option.bind_none]
    split <;> rfl

/-- The padding computed by `pad_size` is the padding that the SAME windows need: in front the part
the windows use, and in total exactly what makes the last window end at the padded border. -/
theorem padSize_correct (size k s : ℕ) (hs : 0 < s) :
    ((padSize size k s).1 : ℤ) = frontPad size k s .same ∧
      ((padSize size k s).1 + (padSize size k s).2 : ℤ) =
        max (((outputs size k s .same : ℤ) - 1) * s + k - size) 0 := by
  have key : (((size + s - 1) / s : ℕ) : ℤ) * s - s - size =
      if size % s = 0 then -(s : ℤ) else -((size % s : ℕ) : ℤ) := by
    have hd := Nat.div_add_mod size s
    have hr := Nat.mod_lt size hs
    generalize size / s = q at *
    generalize size % s = r at *
    subst hd
    by_cases h0 : r = 0
    · subst h0
      rw [if_pos rfl, show s * q + 0 + s - 1 = (s - 1) + s * q by omega,
        Nat.add_mul_div_left _ _ hs, Nat.div_eq_of_lt (by omega)]
      push_cast; ring
    · rw [if_neg h0, show s * q + r + s - 1 = (r - 1) + s * (q + 1) by
          rw [Nat.mul_add]; omega,
        Nat.add_mul_div_left _ _ hs, Nat.div_eq_of_lt (by omega)]
      push_cast; ring
  have e : ((((size + s - 1) / s : ℕ) : ℤ) - 1) * s + k - size =
      if size % s = 0 then (k : ℤ) - s else (k : ℤ) - ((size % s : ℕ) : ℤ) := by
    have : ((((size + s - 1) / s : ℕ) : ℤ) - 1) * s + k - size =
      ((((size + s - 1) / s : ℕ) : ℤ) * s - s - size) + k := by ring
    rw [this, key]; split <;> ring
  unfold padSize frontPad outputs
  simp only [e]
  split <;> constructor <;> omega

/-- Two 1-channel images of size 3x3, one 2x2 filter: the hypotheses are met, with SAME padding
(asymmetric, at the end) and with VALID padding. -/
example :
    let x : Ten ℤ := ⟨[2, 1, 3, 3], fun idx => flat [2, 1, 3, 3] idx⟩
    let y : Ten ℤ := ⟨[2, 2, 1, 1], fun idx => flat [2, 2, 1, 1] idx⟩
    (conv2d x y 1 1 .same .nchw).map (fun z => (z.shape, z.get [0, 0, 0, 0], z.get [1, 0, 2, 2])) =
      some ([2, 1, 3, 3], 0 * 0 + 1 * 1 + 2 * 3 + 3 * 4, 0 * 17) ∧
    (conv2d x y 2 1 .valid .nchw).map (fun z => (z.shape, z.get [1, 0, 0, 1])) =
      some ([2, 1, 1, 2], 0 * 10 + 1 * 11 + 2 * 13 + 3 * 14) := by decide +kernel

end Verif.Tensor
