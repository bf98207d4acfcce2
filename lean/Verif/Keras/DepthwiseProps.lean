import Verif.Keras.Depthwise
import Verif.Keras.ConvProps

/-!
# C71: depthwise convolution layers

`DepthwiseConv2D` computes, for input channel `r` and multiplier index `d`, the cross-correlation of
channel `r` with the filter `[:, :, r, d]`, in output channel `r * depth_multiplier + d`.
-/

namespace Verif.Keras

open Verif.Tensor

variable {α : Type} [Ring α]

/-! ## Specification -/

/-- The strided, padded cross-correlation of one plane with one filter, at output pixel `(i, j)`. -/
def planeCorrelation (plane filt : ℕ → ℕ → α) (h w k s0 s1 : ℕ) (p : Padding) (i j : ℕ) : α :=
  ∑ a ∈ Finset.range k, ∑ a' ∈ Finset.range k,
    filt a a' * extend h w plane (i * s0 + a - frontPad h k s0 p) (j * s1 + a' - frontPad w k s1 p)

/-- What is added to a channel: nothing without a bias. -/
def biasAt : Option (ℕ → α) → ℕ → α
  | none, _ => 0
  | some f, q => f q

/-! ## The kernel -/

/-- The masked kernel: entry `[a, a', r, q]` is that of the given kernel at channel `r` and multiplier
index `q - r * m` if output channel `q` belongs to input channel `r`, and 0 otherwise. -/
theorem dwMask_get (cfg : ConvCfg) (m c a a' r q : ℕ) (hr : r < c) (hq : q < c * m) :
    (dwMask cfg m c : Ten α).get [a, a', r, q] = if q / m = r then 1 else 0 := by
  have hm : 0 < m := by rcases Nat.eq_zero_or_pos m with h | h; · simp [h] at hq
                        · exact h
  have : ((List.range m).any (fun d => (List.range c).any fun i =>
      ([a, a', r, q].getD 2 0 == i && [a, a', r, q].getD 3 0 == d + i * m))) = true ↔ q / m = r := by
    simp only [List.any_eq_true, List.mem_range, Bool.and_eq_true, beq_iff_eq, List.getD_cons_succ, List.getD_cons_zero]
    constructor
    · rintro ⟨d, hd, i, _, rfl, e⟩
      rw [e, Nat.add_mul_div_right _ _ hm, Nat.div_eq_of_lt hd, Nat.zero_add]
    · intro e
      refine ⟨q % m, Nat.mod_lt _ hm, r, hr, rfl, ?_⟩
      rw [← e, Nat.mul_comm, Nat.mod_add_div]
  unfold dwMask
  by_cases h : q / m = r
  · simp only [if_pos (this.2 h), if_pos h]
  · simp only [if_neg h, if_neg (fun e => h (this.1 e))]

theorem bcastDim_one_left (b : ℕ) : bcastDim 1 b = some b := by
  unfold bcastDim; split_ifs with h <;> simp_all

theorem bcastDim_one_right (a : ℕ) : bcastDim a 1 = some a := by
  unfold bcastDim; split_ifs with h <;> simp_all

theorem bcastDim_self (a : ℕ) : bcastDim a a = some a := by simp [bcastDim]

/-- An index below the size of a dimension is what broadcasting reads. -/
theorem bidx {d i : ℕ} (h : i < d) : (if d = 1 then 0 else i) = i := by split_ifs <;> omega

theorem bget4 (t : Ten α) (a b c d i j k l : ℕ) (ht : t.shape = [a, b, c, d]) :
    Ten.bget t [i, j, k, l] = t.get [if a = 1 then 0 else i, if b = 1 then 0 else j, if c = 1 then 0 else k,
      if d = 1 then 0 else l] := by
  simp [Ten.bget, ht]

/-- **The rearranged kernel.** -/
theorem rearrange_some (cfg : ConvCfg) (m c : ℕ) (kernel : Ten α) (hm : 0 < m)
    (hk : kernel.shape = [cfg.k, cfg.k, c, m]) :
    ∃ t : Ten α, rearrange cfg m c kernel = some t ∧ t.shape = [cfg.k, cfg.k, c, c * m] ∧
      ∀ a a' r q, a < cfg.k → a' < cfg.k → r < c → q < c * m →
        t.get [a, a', r, q] = if q / m = r then kernel.get [a, a', r, q % m] else 0 := by
  unfold rearrange
  simp only [Option.bind_eq_bind]
  by_cases h1 : m > 1
  · rw [if_pos h1, reshape_some _ _ (by simp [hk]), Option.bind_some]
    refine ⟨⟨[cfg.k, cfg.k, c, c * m], fun idx => Ten.bget ⟨[cfg.k, cfg.k, 1, c * m],
      fun idx => kernel.get (unflat kernel.shape (flat [cfg.k, cfg.k, 1, c * m] idx))⟩ idx * Ten.bget (dwMask cfg m c) idx⟩, ?_, ?_⟩
    · unfold bcastMul
      rw [show bcastShape [cfg.k, cfg.k, 1, c * m] (dwMask cfg m c : Ten α).shape = some [cfg.k, cfg.k, c, c * m] by
        simp [bcastShape, dwMask, bcastDim_one_left, bcastDim_self], Option.map_some]
    · refine ⟨rfl, ?_⟩
      intro a a' r q ha ha' hr hq
      have hc : 0 < c := by omega
      show Ten.bget _ _ * Ten.bget _ _ = _
      rw [bget4 (dwMask cfg m c) cfg.k cfg.k c (c * m) a a' r q rfl, bidx ha, bidx ha', bidx hr, bidx hq,
        dwMask_get cfg m c a a' r q hr hq, bget4 _ cfg.k cfg.k 1 (c * m) a a' r q rfl, bidx ha, bidx ha', bidx hq, if_pos rfl]
      by_cases e : q / m = r
      · rw [if_pos e, if_pos e, mul_one]
        show kernel.get (unflat kernel.shape (flat [cfg.k, cfg.k, 1, c * m] [a, a', 0, q])) = _
        rw [hk]
        have hf : flat [cfg.k, cfg.k, 1, c * m] [a, a', 0, q] = flat [cfg.k, cfg.k, c, m] [a, a', r, q % m] := by
          rw [flat4, flat4, ← e]
          have := Nat.div_add_mod q m
          calc ((a * cfg.k + a') * 1 + 0) * (c * m) + q = (a * cfg.k + a') * (c * m) + (m * (q / m) + q % m) := by rw [this]; ring
            _ = _ := by ring
        rw [hf, unflat_flat]
        exact ⟨ha, ha', hr, Nat.mod_lt _ hm, trivial⟩
      · rw [if_neg e, if_neg e, mul_zero]
  · have hm1 : m = 1 := by omega
    subst hm1
    rw [if_neg h1, Option.bind_some]
    refine ⟨⟨[cfg.k, cfg.k, c, c * 1], fun idx => Ten.bget kernel idx * Ten.bget (dwMask cfg 1 c) idx⟩, ?_, ?_⟩
    · unfold bcastMul
      rw [hk, show bcastShape [cfg.k, cfg.k, c, 1] (dwMask cfg 1 c : Ten α).shape = some [cfg.k, cfg.k, c, c * 1] by
        simp [bcastShape, dwMask, bcastDim_one_left, bcastDim_self], Option.map_some]
    · refine ⟨rfl, ?_⟩
      intro a a' r q ha ha' hr hq
      show Ten.bget _ _ * Ten.bget _ _ = _
      rw [bget4 (dwMask cfg 1 c) cfg.k cfg.k c (c * 1) a a' r q rfl, bidx ha, bidx ha', bidx hr, bidx hq,
        dwMask_get cfg 1 c a a' r q hr hq, bget4 kernel cfg.k cfg.k c 1 a a' r q hk, bidx ha, bidx ha', bidx hr, if_pos rfl,
        Nat.mod_one]
      split_ifs <;> simp

/-! ## The layer -/

/-- The layer holds the given kernel and bias: what `build` and `set_weights` establish. -/
structure DwState.Holds (st : DwState α) (cfg : ConvCfg) (m c : ℕ) (kernel : Ten α) (bias : Option (ℕ → α)) : Prop where
  rearranged : rearrange cfg m c kernel = some st.kernel
  bias_shape : ∀ t, st.bias = some t → t.shape = [c * m, 1, 1]
  bias_eq : (∃ t f, st.bias = some t ∧ bias = some f ∧ ∀ q < c * m, t.get [q, 0, 0] = f q) ∨ st.bias = none ∧ bias = none

/-- **The forward pass** is the depthwise convolution of every channel with its own filters, plus the
bias: in both data formats, with any strides, for every depth multiplier and number of channels. -/
theorem depthwise_forward (cfg : ConvCfg) (n c h w m : ℕ) (H : cfg.Fits n c h w (c * m)) (kernel : Ten α)
    (bias : Option (ℕ → α)) (st : DwState α) (hst : st.Holds cfg m c kernel bias)
    (hk : kernel.shape = [cfg.k, cfg.k, c, m]) (x : Ten α) (hx : x.shape = cfg.shape n c h w) :
    ∃ y : Ten α, dwForward cfg st x = some y ∧
      y.shape = cfg.shape n (c * m) (outputs h cfg.k cfg.s0 cfg.pad) (outputs w cfg.k cfg.s1 cfg.pad) ∧
      ∀ b r d i j, b < n → r < c → d < m → i < outputs h cfg.k cfg.s0 cfg.pad → j < outputs w cfg.k cfg.s1 cfg.pad →
        cfg.entry y b (r * m + d) i j =
          planeCorrelation (fun y u => cfg.entry x b r y u) (fun a a' => kernel.get [a, a', r, d])
            h w cfg.k cfg.s0 cfg.s1 cfg.pad i j +
          biasAt bias (r * m + d) := by
  have hm : 0 < m := by
    have := H.opos; rcases Nat.eq_zero_or_pos m with h | h
    · simp [h] at this
    · exact h
  obtain ⟨t, t1, t2, t3⟩ := rearrange_some cfg m c kernel hm hk
  have hkt : st.kernel = t := by have := hst.rearranged; rw [t1] at this; exact (Option.some.inj this).symm
  obtain ⟨y, y1, y2, y3⟩ := conv_forward cfg x st.kernel st.bias n c h w (c * m) H hx (by rw [hkt]; exact t2)
  refine ⟨y, y1, y2, ?_⟩
  intro b r d i j hb hr hd hi hj
  have hq : r * m + d < c * m := lt_block hr hd
  rw [y3 b (r * m + d) i j hb hq hi hj]
  congr 1
  · unfold correlation planeCorrelation
    refine Finset.sum_congr rfl fun a ha => Finset.sum_congr rfl fun a' ha' => ?_
    rw [Finset.sum_eq_single r]
    · beta_reduce
      rw [hkt, t3 a a' r _ (Finset.mem_range.1 ha) (Finset.mem_range.1 ha') hr hq,
        show (r * m + d) / m = r by rw [Nat.add_comm, Nat.add_mul_div_right _ _ hm, Nat.div_eq_of_lt hd, Nat.zero_add],
        if_pos rfl, mod_block _ _ _ hd]
    · intro k hk' hne
      beta_reduce
      rw [hkt, t3 a a' k _ (Finset.mem_range.1 ha) (Finset.mem_range.1 ha') (Finset.mem_range.1 hk') hq,
        show (r * m + d) / m = r by rw [Nat.add_comm, Nat.add_mul_div_right _ _ hm, Nat.div_eq_of_lt hd, Nat.zero_add],
        if_neg (fun e => hne e.symm), zero_mul]
    · intro hr'; exact absurd (Finset.mem_range.2 hr) hr'
  · rcases hst.bias_eq with ⟨t, f, e1, e2, e3⟩ | ⟨e1, e2⟩
    · rw [e1, e2]; exact e3 _ hq
    · rw [e1, e2]; rfl

/-- **After `build`** the layer holds the initial kernel and bias. -/
theorem depthwise_build (cfg : ConvCfg) (m c : ℕ) (hm : 0 < m) (kernel : Ten α) (bias : Option (Ten α))
    (hk : kernel.shape = [cfg.k, cfg.k, c, m]) (hb : ∀ t, bias = some t → t.shape = [c * m, 1, 1]) :
    ∃ st, dwBuild cfg m c kernel bias = some st ∧
      st.Holds cfg m c kernel (bias.map fun t q => t.get [q, 0, 0]) := by
  obtain ⟨t, t1, _⟩ := rearrange_some cfg m c kernel hm hk
  refine ⟨⟨t, bias⟩, by simp [dwBuild, t1], t1, hb, ?_⟩
  cases bias with
  | none => exact .inr ⟨rfl, rfl⟩
  | some b => exact .inl ⟨b, _, rfl, rfl, fun _ _ => rfl⟩

/-- **After `set_weights([kernel, bias])`** with a kernel of shape `[k, k, channels, multiplier]` and a
bias vector, as Keras hands them out, the layer holds them, whatever it held before. -/
theorem depthwise_set_weights (cfg : ConvCfg) (m c : ℕ) (hm : 0 < m) (kernel₀ kernel b : Ten α)
    (bias₀ : Option (ℕ → α)) (st : DwState α) (hst : st.Holds cfg m c kernel₀ bias₀)
    (hk₀ : kernel₀.shape = [cfg.k, cfg.k, c, m])
    (hk : kernel.shape = [cfg.k, cfg.k, c, m]) (hb : b.shape = [c * m]) :
    ∃ st', dwSetWeights cfg m c st [kernel, b] = some st' ∧
      st'.Holds cfg m c kernel (bias₀.map fun _ q => b.get [q]) := by
  obtain ⟨t₀, s1, s2, _⟩ := rearrange_some cfg m c kernel₀ hm hk₀
  obtain ⟨t, t1, t2, _⟩ := rearrange_some cfg m c kernel hm hk
  have hkt : st.kernel = t₀ := by have := hst.rearranged; rw [s1] at this; exact (Option.some.inj this).symm
  unfold dwSetWeights
  simp only [List.getElem?_cons_zero, List.getElem?_cons_succ, Option.bind_eq_bind, Option.bind_some, t1]
  rw [assignTo, if_pos (by rw [hkt, s2, t2]), Option.bind_some]
  rcases hst.bias_eq with ⟨v, f, e1, e2, e3⟩ | ⟨e1, e2⟩
  · have hv := hst.bias_shape v e1
    have hr := reshape_some b [c * m, 1, 1] (by simp [hb])
    rw [e1, e2]
    simp only [hv, hr, Option.bind_some, assignTo, hv, if_true]
    refine ⟨_, rfl, t1, ?_, .inl ⟨_, _, rfl, rfl, ?_⟩⟩
    · intro t' ht'
      rw [Option.some.injEq] at ht'; rw [← ht']
    · intro q hq
      show b.get (unflat b.shape (flat [c * m, 1, 1] [q, 0, 0])) = b.get [q]
      rw [hb, show flat [c * m, 1, 1] [q, 0, 0] = flat [c * m] [q] by simp [flat], unflat_flat]
      exact ⟨hq, trivial⟩
  · rw [e1, e2]
    exact ⟨_, rfl, t1, by simp, .inr ⟨rfl, rfl⟩⟩

/-! ## Reading the weights and writing them back -/

/-- **Writing the layer's own weights back** is possible with one filter per channel, and changes
nothing. -/
theorem depthwise_reload_partial (cfg : ConvCfg) (c : ℕ) (kernel b : Ten α) (f : ℕ → α) (st : DwState α)
    (hst : st.Holds cfg 1 c kernel (some f)) (hk : kernel.shape = [cfg.k, cfg.k, c, 1]) (hb : st.bias = some b) :
    ∃ st', dwSetWeights cfg 1 c st [st.kernel, b] = some st' ∧ st'.kernel.shape = st.kernel.shape ∧
      (∀ a a' r q, a < cfg.k → a' < cfg.k → r < c → q < c → st'.kernel.get [a, a', r, q] = st.kernel.get [a, a', r, q]) ∧
      ∃ b', st'.bias = some b' ∧ ∀ q < c, b'.get [q, 0, 0] = b.get [q, 0, 0] := by
  obtain ⟨t, t1, t2, t3⟩ := rearrange_some cfg 1 c kernel (by decide) hk
  have hkt : st.kernel = t := by have := hst.rearranged; rw [t1] at this; exact (Option.some.inj this).symm
  have hs : bcastShape [cfg.k, cfg.k, c, c * 1] (dwMask cfg 1 c : Ten α).shape = some [cfg.k, cfg.k, c, c * 1] := by
    simp [bcastShape, dwMask, bcastDim_self]
  have hbs := hst.bias_shape b hb
  have hre : rearrange cfg 1 c t = some ⟨[cfg.k, cfg.k, c, c * 1], fun idx => Ten.bget t idx * Ten.bget (dwMask cfg 1 c) idx⟩ := by
    unfold rearrange bcastMul
    simp only [gt_iff_lt, lt_self_iff_false, if_false, Option.bind_eq_bind, Option.bind_some, t2, hs, Option.map_some]
  have hr := reshape_some b [c * 1, 1, 1] (by simp [hbs])
  unfold dwSetWeights
  simp only [List.getElem?_cons_zero, List.getElem?_cons_succ, Option.bind_eq_bind, Option.bind_some, hkt, hre]
  simp only [assignTo, t2, if_true, Option.bind_some, hb, hbs, hr]
  refine ⟨_, rfl, rfl, ?_, _, rfl, ?_⟩
  · intro a a' r q ha ha' hr hq
    have hq' : q < c * 1 := by omega
    show Ten.bget _ _ * Ten.bget _ _ = _
    rw [bget4 _ cfg.k cfg.k c (c * 1) a a' r q t2, bget4 _ cfg.k cfg.k c (c * 1) a a' r q rfl, bidx ha, bidx ha', bidx hr, bidx hq',
      dwMask_get cfg 1 c a a' r q hr hq', t3 a a' r q ha ha' hr hq']
    split_ifs <;> simp
  · intro q hq
    show b.get (unflat [c * 1, 1, 1] (flat [c * 1, 1, 1] [q, 0, 0])) = b.get [q, 0, 0]
    rw [unflat_flat]
    exact ⟨by omega, by decide, by decide, trivial⟩

/-- **With several filters per channel and several channels the layer refuses its own weights**: the
stored kernel does not have the shape that `set_weights` takes. -/
theorem depthwise_reload_false (cfg : ConvCfg) (m c : ℕ) (hk : 0 < cfg.k) (hm : 1 < m) (hc : 1 < c) (kernel : Ten α)
    (bias : Option (ℕ → α)) (st : DwState α) (hst : st.Holds cfg m c kernel bias)
    (hks : kernel.shape = [cfg.k, cfg.k, c, m]) (rest : List (Ten α)) :
    dwSetWeights cfg m c st (st.kernel :: rest) = none := by
  obtain ⟨t, t1, t2, _⟩ := rearrange_some cfg m c kernel (by omega) hks
  have hkt : st.kernel = t := by have := hst.rearranged; rw [t1] at this; exact (Option.some.inj this).symm
  have hne : ([cfg.k, cfg.k, 1, c * m] : List ℕ).prod ≠ t.shape.prod := by
    rw [t2]
    simp only [List.prod_cons, List.prod_nil, mul_one, one_mul]
    intro e
    have h1 := Nat.eq_of_mul_eq_mul_left hk (Nat.eq_of_mul_eq_mul_left hk e)
    have : 0 < c * m := Nat.mul_pos (by omega) (by omega)
    nlinarith
  unfold dwSetWeights rearrange
  simp only [List.getElem?_cons_zero, Option.bind_eq_bind, Option.bind_some, hkt, gt_iff_lt, hm, if_true, Tensor.reshape, if_neg hne,
    Option.bind_none]

/-! ## The reported shape -/

/-- **The reported shape is that of the output only for a single channel**, among layers with the
channels first and equal strides. -/
theorem depthwise_shape_partial (cfg : ConvCfg) (n c h w m : ℕ) (H : cfg.Fits n c h w (c * m)) (hs : cfg.s0 = cfg.s1)
    (hl : cfg.last = false) :
    dwShape cfg m (cfg.shape n c h w) =
      some (cfg.shape n (c * m) (outputs h cfg.k cfg.s0 cfg.pad) (outputs w cfg.k cfg.s1 cfg.pad)) ↔ c = 1 := by
  have hp : ∀ u, cfg.pad ≠ .other u := by rcases H.pad with h | h <;> simp [h]
  have hv : cfg.pad = .valid → cfg.k ≤ h ∧ cfg.k ≤ w := by rcases H.pad with h | h <;> simp [h]
  have o1 := outSize_eq h cfg.k cfg.s0 H.s0pos H.kpos cfg.pad hp (fun e => (hv e).1)
  have o2 := outSize_eq w cfg.k cfg.s0 H.s0pos H.kpos cfg.pad hp (fun e => (hv e).2)
  have hm : 0 < m := by
    have := H.opos; rcases Nat.eq_zero_or_pos m with h | h
    · simp [h] at this
    · exact h
  have hsh : ∀ d a b : ℕ, cfg.shape n d a b = [n, d, a, b] := fun d a b => by simp [ConvCfg.shape, hl]
  have hd : dwShape cfg m [n, c, h, w] = some [n, m, outputs h cfg.k cfg.s0 cfg.pad, outputs w cfg.k cfg.s0 cfg.pad] := by
    unfold dwShape
    simp [hl, o1, o2]
  rw [hsh, hsh, hd, ← hs, Option.some.injEq]
  constructor
  · intro e
    have : m = c * m := by simpa using e
    exact Nat.eq_of_mul_eq_mul_right hm (by rw [one_mul]; exact this.symm)
  · rintro rfl; rw [one_mul]

/-- **The reported shape is wrong with the channels last** (the default): it has the channels first and
one channel per multiplier index. For a 5 × 5 image with three channels, kernel 1 × 1 and one filter per
channel the layer reports `[1, 1, 5, 5]` and computes `[1, 5, 5, 3]`. -/
theorem depthwise_shape_false :
    let cfg : ConvCfg := ⟨1, 1, 1, .valid, true⟩
    dwShape cfg 1 [1, 5, 5, 3] = some [1, 1, 5, 5] ∧
      ∀ (x kernel : Ten ℚ) (st : DwState ℚ), x.shape = [1, 5, 5, 3] → kernel.shape = [1, 1, 3, 1] →
        dwBuild cfg 1 3 kernel none = some st → ∃ y, dwForward cfg st x = some y ∧ y.shape = [1, 5, 5, 3] := by
  intro cfg
  refine ⟨by decide, ?_⟩
  intro x kernel st hx hk hb
  obtain ⟨st', e1, e2⟩ := depthwise_build cfg 1 3 (by decide) kernel none hk (by simp)
  rw [hb] at e1
  cases e1
  obtain ⟨y, y1, y2, _⟩ := depthwise_forward cfg 1 3 5 5 1
    ⟨by decide, by decide, by decide, by decide, by decide, by decide, by decide, by decide,
      .inr ⟨rfl, by decide, by decide⟩⟩ kernel _ st e2 hk x hx
  exact ⟨y, y1, y2.trans (by decide)⟩

/-! ## The hypotheses can be met -/

/-- Two channels with two filters each, a 2 × 2 kernel on 4 × 4 images, SAME padding, channels last. -/
example : (⟨2, 1, 1, .same, true⟩ : ConvCfg).Fits 3 2 4 4 (2 * 2) :=
  ⟨by decide, by decide, by decide, by decide, by decide, by decide, by decide, by decide, .inl rfl⟩

example : ∃ st : DwState ℚ, dwBuild ⟨2, 1, 1, .same, true⟩ 2 2 ⟨[2, 2, 2, 2], fun idx => (idx.sum : ℚ)⟩
    (some ⟨[4, 1, 1], fun _ => 1⟩) = some st ∧
    st.Holds ⟨2, 1, 1, .same, true⟩ 2 2 ⟨[2, 2, 2, 2], fun idx => (idx.sum : ℚ)⟩ (some fun _ => 1) :=
  depthwise_build _ 2 2 (by decide) _ _ rfl (by intro t ht; cases ht; rfl)

end Verif.Keras
