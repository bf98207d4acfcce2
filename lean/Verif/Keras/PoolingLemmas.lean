import Verif.Tensor.PatchesProps
import Verif.Tensor.PoolProps
import Verif.Keras.ConvExact
import Verif.Keras.Pooling

/-!
# Pooling layers: lemmas
-/

namespace Verif.Keras

open Verif.Tensor

variable {α : Type}

/-- Sizes for which a pooling layer has a forward pass: nothing is empty, the padding is one of the two,
and without padding the pool fits into the image. -/
structure PoolCfg.Fits (cfg : PoolCfg) (n c h w : ℕ) : Prop where
  phpos : 0 < cfg.ph
  pwpos : 0 < cfg.pw
  s0pos : 0 < cfg.s0
  s1pos : 0 < cfg.s1
  npos : 0 < n
  cpos : 0 < c
  hpos : 0 < h
  wpos : 0 < w
  pad : cfg.pad = .same ∨ cfg.pad = .valid ∧ cfg.ph ≤ h ∧ cfg.pw ≤ w

theorem PoolCfg.Fits.padh {cfg : PoolCfg} {n c h w : ℕ} (H : cfg.Fits n c h w) :
    cfg.pad = .same ∨ cfg.pad = .valid ∧ cfg.ph ≤ h := by have := H.pad; tauto

theorem PoolCfg.Fits.padw {cfg : PoolCfg} {n c h w : ℕ} (H : cfg.Fits n c h w) :
    cfg.pad = .same ∨ cfg.pad = .valid ∧ cfg.pw ≤ w := by have := H.pad; tauto

theorem PoolCfg.Fits.m {cfg : PoolCfg} {n c h w : ℕ} (H : cfg.Fits n c h w) :
    0 < outputs h cfg.ph cfg.s0 cfg.pad := outputs_pos _ _ _ H.s0pos H.phpos H.hpos _ H.padh

theorem PoolCfg.Fits.m' {cfg : PoolCfg} {n c h w : ℕ} (H : cfg.Fits n c h w) :
    0 < outputs w cfg.pw cfg.s1 cfg.pad := outputs_pos _ _ _ H.s1pos H.pwpos H.wpos _ H.padw

theorem PoolCfg.shape_eq (cfg : PoolCfg) (n c h w : ℕ) :
    cfg.fmt.shape n c h w = if cfg.last then [n, h, w, c] else [n, c, h, w] := rfl

theorem PoolCfg.imgSize_eq (cfg : PoolCfg) (x : Ten α) (n c h w : ℕ) (hx : x.shape = cfg.fmt.shape n c h w) :
    cfg.imgSize x = (h, w) := by
  unfold PoolCfg.imgSize
  rw [hx, cfg.shape_eq]
  cases cfg.last <;> rfl

/-! ## Reassembling -/

theorem flat_split (n c d e f b k i j q : ℕ) :
    flat [n * c, d, e, f] [b * c + k, i, j, q] = flat [n, c, d, e, f] [b, k, i, j, q] := by
  simp only [flat, List.prod_cons, List.prod_nil]; ring

theorem poolBack_some [AddCommMonoid α] (cfg : PoolCfg) (n c h w : ℕ) (H : cfg.Fits n c h w) (hs : cfg.s0 = cfg.s1)
    (hh : h ≤ covered h cfg.ph cfg.s0 cfg.pad) (hw : w ≤ covered w cfg.pw cfg.s1 cfg.pad) (t : Ten α)
    (ht : t.shape = [n, c, outputs h cfg.ph cfg.s0 cfg.pad, outputs w cfg.pw cfg.s1 cfg.pad, cfg.ph * cfg.pw]) :
    ∃ z : Ten α, poolBack cfg n c (outputs h cfg.ph cfg.s0 cfg.pad) (outputs w cfg.pw cfg.s1 cfg.pad) h w t = some z ∧
      z.shape = cfg.fmt.shape n c h w ∧
      ∀ b k y x, b < n → k < c → y < h → x < w → cfg.fmt.entry z b k y x =
        ∑ i ∈ Finset.range (outputs h cfg.ph cfg.s0 cfg.pad), ∑ j ∈ Finset.range (outputs w cfg.pw cfg.s1 cfg.pad),
          ∑ di ∈ Finset.range cfg.ph, ∑ dj ∈ Finset.range cfg.pw,
            if (i : ℤ) * cfg.s0 + di - frontPad h cfg.ph cfg.s0 cfg.pad = y ∧
                (j : ℤ) * cfg.s1 + dj - frontPad w cfg.pw cfg.s1 cfg.pad = x then
              t.get [b, k, i, j, di * cfg.pw + dj] else 0 := by
  rw [← hs] at hw ht ⊢
  have hpw := H.pwpos
  unfold poolBack
  rw [← hs]
  simp only [Option.bind_eq_bind]
  rw [reshape_some t _ (by rw [ht]; simp only [List.prod_cons, List.prod_nil]; ring), Option.bind_some]
  obtain ⟨z, e1, e2, e3⟩ := patches2im_partial
    (⟨[n * c, outputs h cfg.ph cfg.s0 cfg.pad, outputs w cfg.pw cfg.s0 cfg.pad, cfg.ph * cfg.pw], fun idx =>
      t.get (unflat t.shape (flat [n * c, outputs h cfg.ph cfg.s0 cfg.pad, outputs w cfg.pw cfg.s0 cfg.pad,
        cfg.ph * cfg.pw] idx))⟩ : Ten α) (n * c) h w 1 cfg.ph cfg.pw cfg.s0 cfg.pad H.s0pos H.phpos H.pwpos H.hpos
    H.wpos H.pad (by rw [Nat.mul_one]) hh hw
  rw [e1, Option.bind_some,
    reshape_some z _ (by rw [e2]; simp only [List.prod_cons, List.prod_nil]; ring), Option.bind_some]
  obtain ⟨g, f1, f2, f3⟩ := cfg.fmt.layout_some
    (⟨[n, c, h, w], fun idx => z.get (unflat z.shape (flat [n, c, h, w] idx))⟩ : Ten α) n c h w rfl
  refine ⟨g, f1, f2, ?_⟩
  intro b k y x hb hk hy hx
  rw [f3]
  dsimp only
  rw [e2, show flat [n, c, h, w] [b, k, y, x] = flat [n * c, h, w, 1] [b * c + k, y, x, 0] by
      rw [flat4, flat4]; ring,
    unflat_flat [n * c, h, w, 1] [b * c + k, y, x, 0] ⟨lt_block hb hk, hy, hx, Nat.one_pos, trivial⟩,
    e3 (b * c + k) y x 0 (lt_block hb hk) hy hx Nat.one_pos]
  unfold putBack
  refine Finset.sum_congr rfl fun i hi => Finset.sum_congr rfl fun j hj => Finset.sum_congr rfl fun di hdi =>
    Finset.sum_congr rfl fun dj hdj => if_congr Iff.rfl ?_ rfl
  rw [Finset.mem_range] at hi hj hdi hdj
  dsimp only
  rw [ht, Nat.mul_one, Nat.add_zero, flat_split]
  rw [unflat_flat [n, c, _, _, _] [b, k, i, j, _] ⟨hb, hk, hi, hj, lt_block hdi hdj, trivial⟩]

/-- An image that is larger than what the windows reach is not reassembled. -/
theorem patches2im_uncovered [AddCommMonoid α] (t : Ten α) (bs h' w' d ph pw s0 s1 h w : ℕ)
    (ht : t.shape = [bs, h', w', d]) (hh : (h' - 1) * s1 + ph < h ∨ (w' - 1) * s0 + pw < w) :
    patches2im t ph pw s0 s1 (some (h, w)) .nhwc = none := by
  rcases hh with hh | hw
  · exact patches2im_uncovered_false t bs h' w' d ph pw s0 s1 h w ht hh
  · unfold patches2im patches2imNHWC
    simp only [reduceCtorEq, if_false, ht, Option.bind_eq_bind, Option.bind_some]
    split
    · rfl
    · cases Tensor.reshape t _ with
      | none => rfl
      | some r =>
          simp only [Option.bind_some]
          rw [show cropOffset w ((w' - 1) * s0 + pw) = none by simp [cropOffset, hw]]
          cases cropOffset h ((h' - 1) * s1 + ph) <;> rfl

theorem poolBack_none [AddCommMonoid α] (cfg : PoolCfg) (n c ho wo h w : ℕ) (t : Ten α)
    (hh : (ho - 1) * cfg.s1 + cfg.ph < h ∨ (wo - 1) * cfg.s0 + cfg.pw < w) :
    poolBack cfg n c ho wo h w t = none := by
  unfold poolBack
  simp only [Option.bind_eq_bind]
  unfold Tensor.reshape
  split
  · rw [Option.bind_some, patches2im_uncovered _ (n * c) ho wo _ cfg.ph cfg.pw cfg.s0 cfg.s1 h w rfl hh]
    rfl
  · rfl

/-! ## The last of the largest -/

section
variable [LinearOrder α]

theorem lastArg_le (f : ℕ → α) : ∀ k, lastArg f k ≤ k
  | 0 => le_refl _
  | k + 1 => by
      have := lastArg_le f k
      simp only [lastArg]
      split <;> omega

theorem le_lastArg (f : ℕ → α) : ∀ k q, q ≤ k → f q ≤ f (lastArg f k)
  | 0, q, h => by rw [Nat.le_zero.1 h]; exact le_refl _
  | k + 1, q, h => by
      simp only [lastArg]
      rcases Nat.lt_or_ge q (k + 1) with h1 | h1
      · have := le_lastArg f k q (by omega)
        split
        · exact this
        · next hn => exact this.trans (not_lt.1 hn)
      · rw [show q = k + 1 by omega]
        split
        · next hn => exact hn.le
        · exact le_refl _

theorem lt_lastArg (f : ℕ → α) : ∀ k q, q ≤ k → lastArg f k < q → f q < f (lastArg f k)
  | 0, q, h, h' => by omega
  | k + 1, q, h, h' => by
      simp only [lastArg] at *
      split
      · next hn =>
        rw [if_pos hn] at h'
        rcases Nat.lt_or_ge q (k + 1) with h1 | h1
        · exact lt_lastArg f k q (by omega) h'
        · rw [show q = k + 1 by omega]; exact hn
      · next hn =>
        rw [if_neg hn] at h'
        omega

theorem maxUpTo_eq (f : ℕ → α) (k : ℕ) : maxUpTo f k = f (lastArg f k) := by
  obtain ⟨q, hq, e⟩ := maxUpTo_mem f k
  refine le_antisymm ?_ (le_maxUpTo f k _ (lastArg_le f k))
  rw [e]
  exact le_lastArg f k q hq

theorem lastArg_congr (f g : ℕ → α) : ∀ k, (∀ q, q ≤ k → f q = g q) → lastArg f k = lastArg g k
  | 0, _ => rfl
  | k + 1, h => by
      have ih := lastArg_congr f g k fun q hq => h q (by omega)
      have hl := lastArg_le g k
      simp only [lastArg]
      rw [ih, h (k + 1) (le_refl _), h (lastArg g k) (by omega)]

theorem maxUpTo_congr (f g : ℕ → α) (k : ℕ) (h : ∀ q, q ≤ k → f q = g q) : maxUpTo f k = maxUpTo g k := by
  rw [maxUpTo_eq, maxUpTo_eq, lastArg_congr f g k h, h _ (lastArg_le g k)]

end

/-! ## The forward pass of max pooling -/

theorem transpose_02314 (t : Ten α) (a b c d e : ℕ) (h : t.shape = [a, b, c, d, e]) :
    transpose t [0, 2, 3, 1, 4] = some ⟨[a, c, d, b, e], fun idx =>
      t.get [idx.getD 0 0, idx.getD 3 0, idx.getD 1 0, idx.getD 2 0, idx.getD 4 0]⟩ := by
  unfold transpose; rw [if_pos (by rw [h]; simp only [List.length_cons, List.length_nil]; decide)]; rw [h]; rfl

theorem transpose_03124 (t : Ten α) (a b c d e : ℕ) (h : t.shape = [a, b, c, d, e]) :
    transpose t [0, 3, 1, 2, 4] = some ⟨[a, d, b, c, e], fun idx =>
      t.get [idx.getD 0 0, idx.getD 2 0, idx.getD 3 0, idx.getD 1 0, idx.getD 4 0]⟩ := by
  unfold transpose; rw [if_pos (by rw [h]; simp only [List.length_cons, List.length_nil]; decide)]; rw [h]; rfl

/-- The entries of a window in row-major order. -/
def windowAt [Zero α] (cfg : PoolCfg) (x : Ten α) (h w b k i j q : ℕ) : α :=
  windowEntry x h w cfg.ph cfg.pw cfg.s0 cfg.s1 cfg.pad b k i j (q / cfg.pw) (q % cfg.pw)

theorem maxpool_value [Zero α] [LinearOrder α] (cfg : PoolCfg) (x : Ten α) (n c h w : ℕ) (H : cfg.Fits n c h w)
    (hx : x.shape = [n, c, h, w]) :
    ∃ z : Ten α, maxpool x cfg.ph cfg.pw cfg.s0 cfg.s1 cfg.pad = some z ∧
      z.shape = [n, c, outputs h cfg.ph cfg.s0 cfg.pad, outputs w cfg.pw cfg.s1 cfg.pad] ∧
      ∀ b k i j, b < n → k < c → i < outputs h cfg.ph cfg.s0 cfg.pad → j < outputs w cfg.pw cfg.s1 cfg.pad →
        z.get [b, k, i, j] = maxUpTo (windowAt cfg x h w b k i j) (cfg.ph * cfg.pw - 1) := by
  obtain ⟨z, e1, e2, e3⟩ := maxpool_correct x n c h w cfg.ph cfg.pw cfg.s0 cfg.s1 cfg.pad hx H.s0pos H.s1pos H.phpos
    H.pwpos H.pad
  refine ⟨z, e1, e2, ?_⟩
  intro b k i j hb hk hi hj
  obtain ⟨g1, di, dj, hdi, hdj, g2⟩ := e3 b k i j hb hk hi hj
  have hpos : 0 < cfg.ph * cfg.pw := Nat.mul_pos H.phpos H.pwpos
  refine le_antisymm ?_ ?_
  · rw [g2]
    have hq : di * cfg.pw + dj < cfg.ph * cfg.pw := lt_block hdi hdj
    have := le_maxUpTo (windowAt cfg x h w b k i j) (cfg.ph * cfg.pw - 1) (di * cfg.pw + dj) (by omega)
    unfold windowAt at this
    rwa [div_block _ 0 _ _ hdj, mod_block _ _ _ hdj] at this
  · obtain ⟨q, hq, e⟩ := maxUpTo_mem (windowAt cfg x h w b k i j) (cfg.ph * cfg.pw - 1)
    rw [e]
    exact g1 _ _ (Nat.div_lt_of_lt_mul (by rw [Nat.mul_comm]; omega)) (Nat.mod_lt _ H.pwpos)

theorem maxpoolArg_value [Zero α] [One α] [LinearOrder α] (cfg : PoolCfg) (x : Ten α) (n c h w : ℕ)
    (H : cfg.Fits n c h w) (hx : x.shape = [n, c, h, w]) :
    ∃ z : Ten α, maxpoolArg x cfg.ph cfg.pw cfg.s0 cfg.s1 cfg.pad = some z ∧
      z.shape = [n, c, outputs h cfg.ph cfg.s0 cfg.pad, outputs w cfg.pw cfg.s1 cfg.pad, cfg.ph * cfg.pw] ∧
      ∀ b k i j q, b < n → k < c → i < outputs h cfg.ph cfg.s0 cfg.pad → j < outputs w cfg.pw cfg.s1 cfg.pad →
        q < cfg.ph * cfg.pw →
        z.get [b, k, i, j, q] =
          if q = lastArg (windowAt cfg x h w b k i j) (cfg.ph * cfg.pw - 1) then 1 else 0 := by
  have hp' : ∀ u, cfg.pad ≠ .other u := by rcases H.pad with h | h <;> simp [h]
  have hv : cfg.pad = .valid → cfg.ph ≤ h ∧ cfg.pw ≤ w := by rcases H.pad with h | h <;> simp [h]
  have hm := H.m
  have hm' := H.m'
  have hn := H.npos
  have hc := H.cpos
  obtain ⟨g, hg, hval⟩ := split_channels x n c h w hx
  set x' : Ten α := ⟨[n * c, h, w, 1], fun idx =>
      g [idx.getD 0 0, idx.getD 3 0, idx.getD 1 0, idx.getD 2 0]⟩ with hx'
  obtain ⟨ge, hge, hext⟩ := extractPatches_some x' (n * c) h w 1 cfg.ph cfg.pw cfg.s0 cfg.s1 cfg.pad rfl H.s0pos H.s1pos
    H.phpos H.pwpos hp' hv
  have hpos : 0 < cfg.ph * cfg.pw := Nat.mul_pos H.phpos H.pwpos
  obtain ⟨m, hm1⟩ : ∃ m, cfg.ph * cfg.pw * 1 = m + 1 := ⟨cfg.ph * cfg.pw * 1 - 1, by omega⟩
  have hm2 : cfg.ph * cfg.pw = m + 1 := by omega
  unfold maxpoolArg im2patches
  simp only [hx, Option.bind_eq_bind, if_true]
  rw [outSize_dim h cfg.ph cfg.s0 H.s0pos H.phpos cfg.pad hp' (fun e => (hv e).1), Option.bind_some,
    outSize_dim w cfg.pw cfg.s1 H.s1pos H.pwpos cfg.pad hp' (fun e => (hv e).2), Option.bind_some, hg, Option.bind_some,
    transpose_0231 _ (n * c) 1 h w rfl, Option.bind_some, ← hx', hge, Option.bind_some,
    transpose_0312 _ _ _ _ _ rfl, Option.bind_some]
  simp only [argmax1, hm1, Option.bind_some]
  rw [transpose_0231 _ _ _ _ _ rfl, Option.bind_some]
  rw [reshapeInfer_some _ [n, c, outputs h cfg.ph cfg.s0 cfg.pad, outputs w cfg.pw cfg.s1 cfg.pad] (m + 1)
    (by simp only [List.prod_cons, List.prod_nil, mul_one]; positivity)
    (by simp only [List.prod_cons, List.prod_nil]; ring)]
  refine ⟨_, rfl, ?_, ?_⟩
  · rw [hm2]; rfl
  intro b k i j q hb hk hi hj hq
  dsimp only [List.cons_append, List.nil_append]
  rw [show flat [n, c, outputs h cfg.ph cfg.s0 cfg.pad, outputs w cfg.pw cfg.s1 cfg.pad, m + 1] [b, k, i, j, q] =
      flat [n * c, outputs h cfg.ph cfg.s0 cfg.pad, outputs w cfg.pw cfg.s1 cfg.pad, m + 1] [b * c + k, i, j, q] by
      simp only [flat, List.prod_cons, List.prod_nil]; ring]
  rw [unflat_flat [n * c, outputs h cfg.ph cfg.s0 cfg.pad, outputs w cfg.pw cfg.s1 cfg.pad, m + 1] [b * c + k, i, j, q]
      ⟨lt_block hb hk, hi, hj, by omega, trivial⟩]
  simp only [List.getD_cons_zero, List.getD_cons_succ]
  rw [hm2, Nat.add_sub_cancel]
  rw [lastArg_congr (fun q => ge [b * c + k, i, j, q]) (windowAt cfg x h w b k i j) m]
  intro q' hq'
  have hdj := Nat.mod_lt q' H.pwpos
  have hdi : q' / cfg.pw < cfg.ph := Nat.div_lt_of_lt_mul (by rw [Nat.mul_comm]; omega)
  have h1 := hext (b * c + k) i j (q' / cfg.pw) (q' % cfg.pw) 0 hdi hdj Nat.one_pos
  rw [Nat.mul_one, Nat.add_zero, Nat.div_add_mod'] at h1
  rw [h1]
  exact extend_congr h w _ _ (fun y x'' hy hx'' => hval b k y x'' hb hk hy hx'') _ _

end Verif.Keras
