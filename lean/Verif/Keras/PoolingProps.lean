import Verif.Keras.PoolingExact
import Verif.Keras.ConvProps

/-!
# C67: pooling layers

`AveragePooling2D`, `MaxPooling2D` and `GlobalMaxPooling2D` compute the average or the maximum of every
window and hand the gradient of each window back to the pixels it came from (`Layer.Exact`) — when the
strides are equal and the windows reach the border of the image. Otherwise `backward` raises, or for
unequal strides may hand the gradient to the wrong pixels.
-/

namespace Verif.Keras

open Verif.Tensor

/-! ## Forward -/

/-- **The forward pass of average pooling**: the sum of the zero-padded window divided by the size of the
pool, in both data formats and with any strides. -/
theorem avg_forward {α : Type} [Field α] (cfg : PoolCfg) (x : Ten α) (n c h w : ℕ) (H : cfg.Fits n c h w)
    (hx : x.shape = cfg.fmt.shape n c h w) :
    ∃ y : Ten α, avgForward cfg x = some y ∧
      y.shape = cfg.fmt.shape n c (outputs h cfg.ph cfg.s0 cfg.pad) (outputs w cfg.pw cfg.s1 cfg.pad) ∧
      ∀ b k i j, b < n → k < c → i < outputs h cfg.ph cfg.s0 cfg.pad → j < outputs w cfg.pw cfg.s1 cfg.pad →
        cfg.fmt.entry y b k i j = (∑ di ∈ Finset.range cfg.ph, ∑ dj ∈ Finset.range cfg.pw,
          extend h w (fun y u => cfg.fmt.entry x b k y u) (i * cfg.s0 + di - frontPad h cfg.ph cfg.s0 cfg.pad)
            (j * cfg.s1 + dj - frontPad w cfg.pw cfg.s1 cfg.pad)) / ((cfg.ph * cfg.pw : ℕ) : α) := by
  obtain ⟨x1, e1, e2, e3⟩ := cfg.fmt.nchw_some x n c h w hx
  obtain ⟨z, f1, f2, f3⟩ := avgpool_sums x1 n c h w cfg.ph cfg.pw cfg.s0 cfg.s1 cfg.pad e2 H.s0pos H.s1pos H.phpos H.pwpos
    H.pad
  obtain ⟨y, g1, g2, g3⟩ := cfg.fmt.layout_some (scale z (1 / ((cfg.ph * cfg.pw : ℕ) : α))) _ _ _ _ f2
  refine ⟨y, ?_, g2, ?_⟩
  · unfold avgForward
    simp only [Option.bind_eq_bind]
    rw [e1, Option.bind_some, f1, Option.bind_some, g1]
  · intro b k i j hb hk hi hj
    rw [g3]
    unfold scale
    dsimp only
    rw [f3 b k i j hb hk hi hj, mul_one_div]
    unfold windowEntry
    simp only [e3]

/-- **The forward pass of max pooling**: the largest entry of the zero-padded window; and the stored
index is the one-hot vector of the last entry that is as large. -/
theorem max_forward {α : Type} [Zero α] [One α] [LinearOrder α] (cfg : PoolCfg) (x : Ten α) (n c h w : ℕ)
    (H : cfg.Fits n c h w) (hx : x.shape = cfg.fmt.shape n c h w) :
    ∃ (y a : Ten α) (x1 : Ten α), maxForward cfg x = some (y, a) ∧ cfg.fmt.nchw x = some x1 ∧
      (∀ b k y u, x1.get [b, k, y, u] = cfg.fmt.entry x b k y u) ∧
      y.shape = cfg.fmt.shape n c (outputs h cfg.ph cfg.s0 cfg.pad) (outputs w cfg.pw cfg.s1 cfg.pad) ∧
      (∃ a1 : Ten α, cfg.argIn a = some a1 ∧
        a1.shape = [n, c, outputs h cfg.ph cfg.s0 cfg.pad, outputs w cfg.pw cfg.s1 cfg.pad, cfg.ph * cfg.pw] ∧
        ∀ b k i j q, b < n → k < c → i < outputs h cfg.ph cfg.s0 cfg.pad → j < outputs w cfg.pw cfg.s1 cfg.pad →
          q < cfg.ph * cfg.pw →
          a1.get [b, k, i, j, q] = if q = lastArg (windowAt cfg x1 h w b k i j) (cfg.ph * cfg.pw - 1) then 1 else 0) ∧
      ∀ b k i j, b < n → k < c → i < outputs h cfg.ph cfg.s0 cfg.pad → j < outputs w cfg.pw cfg.s1 cfg.pad →
        cfg.fmt.entry y b k i j = maxUpTo (windowAt cfg x1 h w b k i j) (cfg.ph * cfg.pw - 1) := by
  obtain ⟨x1, e1, e2, e3⟩ := cfg.fmt.nchw_some x n c h w hx
  obtain ⟨z, f1, f2, f3⟩ := maxpool_value cfg x1 n c h w H e2
  obtain ⟨a1, f4, f5, f6⟩ := maxpoolArg_value cfg x1 n c h w H e2
  obtain ⟨y, g1, g2, g3⟩ := cfg.fmt.layout_some z _ _ _ _ f2
  have ha : ∃ a, cfg.argOut a1 = some a ∧
      ∃ a2 : Ten α, cfg.argIn a = some a2 ∧ a2.shape = a1.shape ∧
        ∀ b k i j q, a2.get [b, k, i, j, q] = a1.get [b, k, i, j, q] := by
    unfold PoolCfg.argIn PoolCfg.argOut
    cases cfg.last with
    | false => exact ⟨a1, rfl, a1, rfl, rfl, fun _ _ _ _ _ => rfl⟩
    | true =>
      simp only [if_true]
      rw [transpose_02314 a1 _ _ _ _ _ f5]
      refine ⟨_, rfl, ?_⟩
      rw [transpose_03124 _ _ _ _ _ _ rfl]
      exact ⟨_, rfl, f5.symm, fun _ _ _ _ _ => rfl⟩
  obtain ⟨a, h1, a2, h2, h3, h4⟩ := ha
  refine ⟨y, a, x1, ?_, e1, e3, g2, ⟨a2, h2, h3.trans f5, ?_⟩, ?_⟩
  · unfold maxForward
    simp only [Option.bind_eq_bind]
    rw [e1, Option.bind_some, f1, Option.bind_some, f4, Option.bind_some, g1, Option.bind_some, h1, Option.bind_some]
  · intro b k i j q hb hk hi hj hq
    rw [h4]
    exact f6 b k i j q hb hk hi hj hq
  · intro b k i j hb hk hi hj
    rw [g3]
    exact f3 b k i j hb hk hi hj

/-- **The reported output shape** is the shape of the output, with any strides. -/
theorem pool_shape (cfg : PoolCfg) (n c h w : ℕ) (H : cfg.Fits n c h w) :
    poolShape cfg (cfg.fmt.shape n c h w) =
      some (cfg.fmt.shape n c (outputs h cfg.ph cfg.s0 cfg.pad) (outputs w cfg.pw cfg.s1 cfg.pad)) := by
  have hp : ∀ u, cfg.pad ≠ .other u := by rcases H.pad with h | h <;> simp [h]
  have hv : cfg.pad = .valid → cfg.ph ≤ h ∧ cfg.pw ≤ w := by rcases H.pad with h | h <;> simp [h]
  have o1 := outSize_eq h cfg.ph cfg.s0 H.s0pos H.phpos cfg.pad hp (fun e => (hv e).1)
  have o2 := outSize_eq w cfg.pw cfg.s1 H.s1pos H.pwpos cfg.pad hp (fun e => (hv e).2)
  unfold poolShape
  rw [cfg.shape_eq, cfg.shape_eq]
  cases hl : cfg.last <;> simp [o1, o2]

/-! ## The layers in terms of windows -/

section
variable (cfg : PoolCfg) (n c h w : ℕ)

theorem avgPool_call (H : cfg.Fits n c h w) (ws : Empty → ℝ) (x : Fin n × Fin c × Fin h × Fin w → ℝ) (i) :
    (avgPool cfg n c h w).call ws x i = ∑ q : Fin (cfg.ph * cfg.pw), 1 / ((cfg.ph * cfg.pw : ℕ) : ℝ) * cfg.win x i q := by
  obtain ⟨y, e1, _, e3⟩ := avg_forward cfg (cfg.fmt.tensor x) n c h w H rfl
  have hc : (avgPool cfg n c h w).call ws x i = cfg.fmt.entry y i.1 i.2.1 i.2.2.1 i.2.2.2 := by
    show (match avgForward cfg (cfg.fmt.tensor x) with
      | some y => cfg.fmt.entry y i.1 i.2.1 i.2.2.1 i.2.2.2
      | none => 0) = _
    rw [e1]
  rw [hc, e3 i.1 i.2.1 i.2.2.1 i.2.2.2 i.1.2 i.2.1.2 i.2.2.1.2 i.2.2.2.2, ← Finset.mul_sum, div_eq_mul_one_div, mul_comm]
  congr 1
  rw [← Finset.sum_range (fun q => cfg.win x i q), sum_mul_range]
  refine Finset.sum_congr rfl fun di _ => Finset.sum_congr rfl fun dj hdj => ?_
  rw [Finset.mem_range] at hdj
  unfold PoolCfg.win PoolCfg.row PoolCfg.col
  rw [div_block _ 0 _ _ hdj, mod_block _ _ _ hdj]
  simp only [cfg.fmt.tensor_entry]

theorem maxPool_call (H : cfg.Fits n c h w) (ws : Empty → ℝ) (x : Fin n × Fin c × Fin h × Fin w → ℝ) (i) :
    (maxPool cfg n c h w).call ws x i = maxUpTo (cfg.win x i) (cfg.ph * cfg.pw - 1) := by
  obtain ⟨y, a, x1, e1, _, e3, _, _, e6⟩ := max_forward cfg (cfg.fmt.tensor x) n c h w H rfl
  have hc : (maxPool cfg n c h w).call ws x i = cfg.fmt.entry y i.1 i.2.1 i.2.2.1 i.2.2.2 := by
    show (match maxForward cfg (cfg.fmt.tensor x) with
      | some y => cfg.fmt.entry y.1 i.1 i.2.1 i.2.2.1 i.2.2.2
      | none => 0) = _
    rw [e1]
  rw [hc, e6 i.1 i.2.1 i.2.2.1 i.2.2.2 i.1.2 i.2.1.2 i.2.2.1.2 i.2.2.2.2]
  congr 1
  funext q
  exact windowAt_win cfg x x1 (fun b k y u => (e3 b k y u).trans (cfg.fmt.tensor_entry x b k y u)) i q

/-- The gradient handed to a pixel: from every window entry that is read from it, the gradient of the
window times the weight of the entry. -/
def handBack {n c h w m m' : ℕ} (ω : Fin n × Fin c × Fin m × Fin m' → ℕ → ℝ) (d : Fin n × Fin c × Fin m × Fin m' → ℝ)
    (p : Fin n × Fin c × Fin h × Fin w) : ℝ :=
  ∑ i : Fin m, ∑ j : Fin m', ∑ q : Fin (cfg.ph * cfg.pw),
    if cfg.row h i q = (p.2.2.1 : ℕ) ∧ cfg.col w j q = (p.2.2.2 : ℕ) then
      d (p.1, p.2.1, i, j) * ω (p.1, p.2.1, i, j) q else 0

/-- The weight of a window entry in max pooling: 1 for the last of the largest, otherwise 0. -/
noncomputable def maxWeight {n c h w m m' : ℕ} (x : Fin n × Fin c × Fin h × Fin w → ℝ) (i : Fin n × Fin c × Fin m × Fin m')
    (q : ℕ) : ℝ := if q = lastArg (cfg.win x i) (cfg.ph * cfg.pw - 1) then 1 else 0

theorem avgPool_back (H : cfg.Fits n c h w) (hs : cfg.s0 = cfg.s1) (hh : h ≤ covered h cfg.ph cfg.s0 cfg.pad)
    (hw : w ≤ covered w cfg.pw cfg.s1 cfg.pad) (lazy : Bool) (ws : Empty → ℝ) (x d) :
    (avgPool cfg n c h w).backward lazy ws x d =
      .ok (fun i => i.elim, handBack cfg (fun _ _ => 1 / ((cfg.ph * cfg.pw : ℕ) : ℝ)) d) := by
  obtain ⟨d1, e1, e2, e3⟩ := cfg.fmt.nchw_some (cfg.fmt.tensor d) n c _ _ rfl
  obtain ⟨z, f1, f2⟩ := poolBack_weights cfg H hs hh hw d (fun _ _ => 1 / ((cfg.ph * cfg.pw : ℕ) : ℝ))
    (scale (tile4 d1 (cfg.ph * cfg.pw)) (1 / ((cfg.ph * cfg.pw : ℕ) : ℝ)))
    (by unfold scale tile4; dsimp only; rw [e2]; rfl)
    (by
      intro b k i j q _
      unfold scale tile4
      dsimp only [List.take]
      rw [e3, cfg.fmt.tensor_entry, at4_fin])
  have hb : avgBackward cfg (cfg.fmt.tensor x) (cfg.fmt.tensor d) = some z := by
    unfold avgBackward
    simp only [Option.bind_eq_bind]
    rw [e1, Option.bind_some]
    simp only [e2]
    rw [cfg.imgSize_eq _ n c h w rfl]
    exact f1
  show (match avgBackward cfg (cfg.fmt.tensor x) (cfg.fmt.tensor d) with
    | some g => Except.ok ((fun i => i.elim : Empty → ℝ), fun i : Fin n × Fin c × Fin h × Fin w => cfg.fmt.entry g i.1 i.2.1 i.2.2.1 i.2.2.2)
    | none => .error LayerErr.shape) = _
  rw [hb]
  exact congrArg Except.ok (Prod.ext rfl (funext f2))

theorem maxPool_back (H : cfg.Fits n c h w) (hs : cfg.s0 = cfg.s1) (hh : h ≤ covered h cfg.ph cfg.s0 cfg.pad)
    (hw : w ≤ covered w cfg.pw cfg.s1 cfg.pad) (lazy : Bool) (ws : Empty → ℝ) (x d) :
    (maxPool cfg n c h w).backward lazy ws x d = .ok (fun i => i.elim, handBack cfg (maxWeight cfg x) d) := by
  obtain ⟨y, a, x1, g1, _, g3, _, ⟨a1, g4, g5, g6⟩, _⟩ := max_forward cfg (cfg.fmt.tensor x) n c h w H rfl
  obtain ⟨d1, e1, e2, e3⟩ := cfg.fmt.nchw_some (cfg.fmt.tensor d) n c _ _ rfl
  have hsh : (tile4 d1 (cfg.ph * cfg.pw)).shape = a1.shape := by unfold tile4; dsimp only; rw [e2, g5]; rfl
  obtain ⟨z, f1, f2⟩ := poolBack_weights cfg H hs hh hw d (maxWeight cfg x)
    ⟨(tile4 d1 (cfg.ph * cfg.pw)).shape, fun idx => (tile4 d1 (cfg.ph * cfg.pw)).get idx * a1.get idx⟩
    (hsh.trans g5)
    (by
      intro b k i j q hq
      unfold tile4 maxWeight
      dsimp only [List.take]
      rw [e3, cfg.fmt.tensor_entry, at4_fin, g6 b k i j q b.2 k.2 i.2 j.2 hq]
      congr 4
      funext q
      exact windowAt_win cfg x x1 (fun b k y u => (g3 b k y u).trans (cfg.fmt.tensor_entry x b k y u)) (b, k, i, j) q)
  have hb : maxBackward cfg (cfg.fmt.tensor x) a (cfg.fmt.tensor d) = some z := by
    unfold maxBackward
    simp only [Option.bind_eq_bind]
    rw [e1, Option.bind_some, g4, Option.bind_some]
    simp only [g5]
    unfold times
    rw [if_pos hsh, Option.bind_some, cfg.imgSize_eq _ n c h w rfl]
    exact f1
  show (match (maxForward cfg (cfg.fmt.tensor x)).bind fun y =>
        maxBackward cfg (cfg.fmt.tensor x) y.2 (cfg.fmt.tensor d) with
    | some g => Except.ok ((fun i => i.elim : Empty → ℝ), fun i : Fin n × Fin c × Fin h × Fin w => cfg.fmt.entry g i.1 i.2.1 i.2.2.1 i.2.2.2)
    | none => .error LayerErr.shape) = _
  rw [g1, Option.bind_some, hb]
  exact congrArg Except.ok (Prod.ext rfl (funext f2))

/-- The windows, placed as `patches2im` places them — rows with the stride of the columns and columns with
that of the rows — do not reach the border of the image: `backward` raises. -/
theorem pool_back_raises (hh : (outputs h cfg.ph cfg.s0 cfg.pad - 1) * cfg.s1 + cfg.ph < h ∨
      (outputs w cfg.pw cfg.s1 cfg.pad - 1) * cfg.s0 + cfg.pw < w) (H : cfg.Fits n c h w) (lazy : Bool) (ws : Empty → ℝ) (x d) :
    (avgPool cfg n c h w).backward lazy ws x d = .error .shape ∧
      (maxPool cfg n c h w).backward lazy ws x d = .error .shape := by
  obtain ⟨y, a, x1, g1, _, g3, _, ⟨a1, g4, g5, g6⟩, _⟩ := max_forward cfg (cfg.fmt.tensor x) n c h w H rfl
  obtain ⟨d1, e1, e2, e3⟩ := cfg.fmt.nchw_some (cfg.fmt.tensor d) n c _ _ rfl
  constructor
  · have hb : avgBackward cfg (cfg.fmt.tensor x) (cfg.fmt.tensor d) = none := by
      unfold avgBackward
      simp only [Option.bind_eq_bind]
      rw [e1, Option.bind_some]
      simp only [e2]
      rw [cfg.imgSize_eq _ n c h w rfl]
      exact poolBack_none cfg n c _ _ h w _ hh
    show (match avgBackward cfg (cfg.fmt.tensor x) (cfg.fmt.tensor d) with
      | some g => Except.ok ((fun i => i.elim : Empty → ℝ), fun i : Fin n × Fin c × Fin h × Fin w => cfg.fmt.entry g i.1 i.2.1 i.2.2.1 i.2.2.2)
      | none => .error LayerErr.shape) = _
    rw [hb]
    rfl
  · have hb : maxBackward cfg (cfg.fmt.tensor x) a (cfg.fmt.tensor d) = none := by
      unfold maxBackward
      simp only [Option.bind_eq_bind]
      rw [e1, Option.bind_some, g4, Option.bind_some]
      simp only [g5]
      unfold times
      split
      · rw [Option.bind_some, cfg.imgSize_eq _ n c h w rfl]
        exact poolBack_none cfg n c _ _ h w _ hh
      · rfl
    show (match (maxForward cfg (cfg.fmt.tensor x)).bind fun y =>
          maxBackward cfg (cfg.fmt.tensor x) y.2 (cfg.fmt.tensor d) with
      | some g => Except.ok ((fun i => i.elim : Empty → ℝ), fun i : Fin n × Fin c × Fin h × Fin w => cfg.fmt.entry g i.1 i.2.1 i.2.2.1 i.2.2.2)
      | none => .error LayerErr.shape) = _
    rw [g1, Option.bind_some, hb]
    rfl

end

/-- With equal strides: not covered means that `backward` raises. -/
theorem pool_uncovered (cfg : PoolCfg) (n c h w : ℕ) (H : cfg.Fits n c h w) (hs : cfg.s0 = cfg.s1)
    (hc : ¬(h ≤ covered h cfg.ph cfg.s0 cfg.pad ∧ w ≤ covered w cfg.pw cfg.s1 cfg.pad)) (lazy : Bool) (ws : Empty → ℝ) (x d) :
    (avgPool cfg n c h w).backward lazy ws x d = .error .shape ∧
      (maxPool cfg n c h w).backward lazy ws x d = .error .shape := by
  refine pool_back_raises cfg n c h w ?_ H lazy ws x d
  unfold covered at hc
  rw [hs]
  rw [hs] at hc
  omega

/-! ## Gradients -/

/-- **`AveragePooling2D` hands out exact gradients**: for every batch, image and pool size, SAME or VALID
padding, either data format and equal strides, whenever `backward` returns. -/
theorem avgPool_exact_partial (cfg : PoolCfg) (n c h w : ℕ) (H : cfg.Fits n c h w) (hs : cfg.s0 = cfg.s1)
    (ws : Empty → ℝ) (x : Fin n × Fin c × Fin h × Fin w → ℝ) : (avgPool cfg n c h w).Exact ws x := by
  intro d gw gx hb γ v χ u t h1 h2 h3 h4
  by_cases hc : h ≤ covered h cfg.ph cfg.s0 cfg.pad ∧ w ≤ covered w cfg.pw cfg.s1 cfg.pad
  swap
  · rw [(pool_uncovered cfg n c h w H hs hc false ws x d).1] at hb
    cases hb
  rw [avgPool_back cfg n c h w H hs hc.1 hc.2] at hb
  obtain ⟨e1, e2⟩ := Prod.mk.inj (Except.ok.inj hb)
  refine ⟨fun i => ∑ q : Fin (cfg.ph * cfg.pw), 1 / ((cfg.ph * cfg.pw : ℕ) : ℝ) * cfg.win u i q, ?_, ?_⟩
  · intro i
    rw [show (fun s => (avgPool cfg n c h w).call (γ s) (χ s) i) = _ from
      funext fun s => avgPool_call cfg n c h w H (γ s) (χ s) i]
    exact HasDerivAt.fun_sum fun q _ => (win_moves cfg h4 i q).const_mul _
  · rw [win_adjoint cfg (cfg.ph * cfg.pw) (fun _ _ => 1 / ((cfg.ph * cfg.pw : ℕ) : ℝ)) d u, ← e2]
    rw [show (∑ i, gw i * v i) = 0 from Finset.sum_eq_zero fun i _ => i.elim, zero_add]
    rfl

/-- In every window only one entry is largest, not counting the padding: if two entries are at least as
large as all others they are the same, or both in the padding. -/
def PoolCfg.Clear (cfg : PoolCfg) {n c h w : ℕ} (m m' : ℕ) (x : Fin n × Fin c × Fin h × Fin w → ℝ) : Prop :=
  ∀ (i : Fin n × Fin c × Fin m × Fin m') (q q' : ℕ), q < cfg.ph * cfg.pw → q' < cfg.ph * cfg.pw →
    (∀ r, r < cfg.ph * cfg.pw → cfg.win x i r ≤ cfg.win x i q) →
    (∀ r, r < cfg.ph * cfg.pw → cfg.win x i r ≤ cfg.win x i q') → q = q' ∨
      (¬(0 ≤ cfg.row h i.2.2.1 q ∧ cfg.row h i.2.2.1 q < h ∧ 0 ≤ cfg.col w i.2.2.2 q ∧ cfg.col w i.2.2.2 q < w) ∧
        ¬(0 ≤ cfg.row h i.2.2.1 q' ∧ cfg.row h i.2.2.1 q' < h ∧ 0 ≤ cfg.col w i.2.2.2 q' ∧ cfg.col w i.2.2.2 q' < w))

/-- **`MaxPooling2D` hands out exact gradients** for the same arguments, wherever the maximum is
differentiable: no window has two largest pixels. -/
theorem maxPool_exact_partial (cfg : PoolCfg) (n c h w : ℕ) (H : cfg.Fits n c h w) (hs : cfg.s0 = cfg.s1)
    (ws : Empty → ℝ) (x : Fin n × Fin c × Fin h × Fin w → ℝ)
    (hx : cfg.Clear (outputs h cfg.ph cfg.s0 cfg.pad) (outputs w cfg.pw cfg.s1 cfg.pad) x) :
    (maxPool cfg n c h w).Exact ws x := by
  intro d gw gx hb γ v χ u t h1 h2 h3 h4
  by_cases hc : h ≤ covered h cfg.ph cfg.s0 cfg.pad ∧ w ≤ covered w cfg.pw cfg.s1 cfg.pad
  swap
  · rw [(pool_uncovered cfg n c h w H hs hc false ws x d).2] at hb
    cases hb
  rw [maxPool_back cfg n c h w H hs hc.1 hc.2] at hb
  obtain ⟨e1, e2⟩ := Prod.mk.inj (Except.ok.inj hb)
  have hpos : 0 < cfg.ph * cfg.pw := Nat.mul_pos H.phpos H.pwpos
  refine ⟨fun i => cfg.win u i (lastArg (cfg.win x i) (cfg.ph * cfg.pw - 1)), ?_, ?_⟩
  · intro i
    rw [show (fun s => (maxPool cfg n c h w).call (γ s) (χ s) i) = _ from
      funext fun s => maxPool_call cfg n c h w H (γ s) (χ s) i]
    have key := max_moves (fun s => cfg.win (χ s) i) (cfg.win u i) (cfg.ph * cfg.pw - 1) t
      (fun q _ => win_moves cfg h4 i q)
    simp only [h3] at key
    refine key ?_
    intro q hq he s
    have hl := lastArg_le (cfg.win x i) (cfg.ph * cfg.pw - 1)
    have hmax := le_lastArg (cfg.win x i) (cfg.ph * cfg.pw - 1)
    rcases hx i q (lastArg (cfg.win x i) (cfg.ph * cfg.pw - 1)) (by omega) (by omega)
      (fun r hr => he ▸ hmax r (by omega)) (fun r hr => hmax r (by omega)) with heq | ⟨hn, hn'⟩
    · rw [← heq]
    · unfold PoolCfg.win extend at *
      rw [if_neg hn, if_neg hn']
  · have hw : ∀ i : Fin n × Fin c × Fin (outputs h cfg.ph cfg.s0 cfg.pad) × Fin (outputs w cfg.pw cfg.s1 cfg.pad),
        cfg.win u i (lastArg (cfg.win x i) (cfg.ph * cfg.pw - 1)) =
        ∑ q : Fin (cfg.ph * cfg.pw), maxWeight cfg x i q * cfg.win u i q := by
      intro i
      have hl := lastArg_le (cfg.win x i) (cfg.ph * cfg.pw - 1)
      rw [Finset.sum_eq_single ⟨lastArg (cfg.win x i) (cfg.ph * cfg.pw - 1), by omega⟩]
      · unfold maxWeight
        rw [if_pos rfl, one_mul]
      · intro q _ hq
        unfold maxWeight
        rw [if_neg (fun he => hq (Fin.ext he)), zero_mul]
      · intro hn; exact absurd (Finset.mem_univ _) hn
    simp only [hw]
    rw [win_adjoint cfg (cfg.ph * cfg.pw) (maxWeight cfg x) d u, ← e2]
    rw [show (∑ i, gw i * v i) = 0 from Finset.sum_eq_zero fun i _ => i.elim, zero_add]
    rfl

/-- **When `backward` returns** (equal strides): exactly when the windows cover the image. -/
theorem pool_backward_ok (cfg : PoolCfg) (n c h w : ℕ) (H : cfg.Fits n c h w) (hs : cfg.s0 = cfg.s1) (lazy : Bool)
    (ws : Empty → ℝ) (x d) :
    ((∃ r, (avgPool cfg n c h w).backward lazy ws x d = .ok r) ↔
      h ≤ covered h cfg.ph cfg.s0 cfg.pad ∧ w ≤ covered w cfg.pw cfg.s1 cfg.pad) ∧
    ((∃ r, (maxPool cfg n c h w).backward lazy ws x d = .ok r) ↔
      h ≤ covered h cfg.ph cfg.s0 cfg.pad ∧ w ≤ covered w cfg.pw cfg.s1 cfg.pad) := by
  by_cases hc : h ≤ covered h cfg.ph cfg.s0 cfg.pad ∧ w ≤ covered w cfg.pw cfg.s1 cfg.pad
  · exact ⟨⟨fun _ => hc, fun _ => ⟨_, avgPool_back cfg n c h w H hs hc.1 hc.2 lazy ws x d⟩⟩,
      ⟨fun _ => hc, fun _ => ⟨_, maxPool_back cfg n c h w H hs hc.1 hc.2 lazy ws x d⟩⟩⟩
  · have hr := pool_uncovered cfg n c h w H hs hc lazy ws x d
    refine ⟨⟨?_, fun h => absurd h hc⟩, ⟨?_, fun h => absurd h hc⟩⟩
    · rintro ⟨r, e⟩
      rw [hr.1] at e
      cases e
    · rintro ⟨r, e⟩
      rw [hr.2] at e
      cases e

/-- **The documented claim fails for odd images**: the default pool, 2 × 2 without padding, on images of
odd height — prediction works, `backward` raises, whatever the images and the gradient. -/
theorem pool_remainder_raises_false (last lazy : Bool) (n c h w : ℕ) (hn : 0 < n) (hc : 0 < c) (hh : 2 ≤ h) (hodd : h % 2 = 1)
    (hw : 2 ≤ w) (ws : Empty → ℝ) (x d) :
    (avgPool (.default 2 2 .valid last) n c h w).backward lazy ws x d = .error .shape ∧
      (maxPool (.default 2 2 .valid last) n c h w).backward lazy ws x d = .error .shape := by
  have H : (PoolCfg.default 2 2 .valid last).Fits n c h w :=
    ⟨(by decide : 0 < 2), (by decide : 0 < 2), (by decide : 0 < 2), (by decide : 0 < 2), hn, hc, by omega, by omega,
      .inr ⟨rfl, hh, hw⟩⟩
  refine pool_uncovered _ n c h w H rfl ?_ lazy ws x d
  rintro ⟨h1, -⟩
  have h1 : h ≤ covered h 2 2 .valid := h1
  rw [covered_valid h 2 2 (by decide) (by decide) hh] at h1
  omega

/-- **Pools that are not square cannot be trained** without padding: the strides default to the pool size,
and if the pool is higher than wide and there is more than one row of windows, or wider than high and there
is more than one column, `backward` raises. -/
theorem pool_strides_raise_false (cfg : PoolCfg) (n c h w : ℕ) (H : cfg.Fits n c h w) (hp : cfg.pad = .valid)
    (hs : cfg.s1 < cfg.s0 ∧ 1 < outputs h cfg.ph cfg.s0 .valid ∨ cfg.s0 < cfg.s1 ∧ 1 < outputs w cfg.pw cfg.s1 .valid)
    (lazy : Bool) (ws : Empty → ℝ) (x d) :
    (avgPool cfg n c h w).backward lazy ws x d = .error .shape ∧
      (maxPool cfg n c h w).backward lazy ws x d = .error .shape := by
  refine pool_back_raises cfg n c h w ?_ H lazy ws x d
  have hv : cfg.ph ≤ h ∧ cfg.pw ≤ w := by rcases H.pad with e | e <;> [simp [hp] at e; exact e.2]
  rw [hp]
  rcases hs with ⟨h1, h2⟩ | ⟨h1, h2⟩
  · left
    have := covered_valid_le h cfg.ph cfg.s0 H.s0pos H.phpos hv.1
    unfold covered at this
    have := Nat.mul_lt_mul_of_pos_left h1 (show 0 < outputs h cfg.ph cfg.s0 .valid - 1 by omega)
    omega
  · right
    have := covered_valid_le w cfg.pw cfg.s1 H.s1pos H.pwpos hv.2
    unfold covered at this
    have := Nat.mul_lt_mul_of_pos_left h1 (show 0 < outputs w cfg.pw cfg.s1 .valid - 1 by omega)
    omega

/-- **The claim fails for unequal strides, silently**: pool 3 × 2 with its default strides on a 3 × 4
image. The second window covers columns 2 and 3, but its gradient is handed to column 3 only, and the part
of column 3 is dropped: with gradient 6 for the second window, pixel (0, 2) gets 0 and pixel (0, 3) gets 1. -/
theorem pool_strides_false :
    let cfg : PoolCfg := .default 3 2 .valid false
    let d : Ten ℚ := ⟨[1, 1, 1, 2], fun idx => if idx = [0, 0, 0, 1] then 6 else 0⟩
    let x : Ten ℚ := ⟨[1, 1, 3, 4], fun idx => idx.getD 3 0⟩
    (avgForward cfg x).map (fun y => (y.shape, y.get [0, 0, 0, 1])) = some ([1, 1, 1, 2], 5 / 2) ∧
    (avgBackward cfg x d).map (fun g => (g.shape, g.get [0, 0, 0, 2], g.get [0, 0, 0, 3])) =
      some ([1, 1, 3, 4], 0, 1) := by
  decide +kernel

/-- **Lazy normalization** does not change pooling layers: they have no weights, and hand on multiples. -/
theorem pool_lazy (cfg : PoolCfg) (n c h w : ℕ) (H : cfg.Fits n c h w) (hs : cfg.s0 = cfg.s1) (N : ℕ) :
    (avgPool cfg n c h w).Lazy N ∧ (maxPool cfg n c h w).Lazy N := by
  have hlin : ∀ (ω : Fin n × Fin c × Fin (outputs h cfg.ph cfg.s0 cfg.pad) × Fin (outputs w cfg.pw cfg.s1 cfg.pad) → ℕ → ℝ) (d),
      (handBack cfg ω (fun j => (N : ℝ) * d j) : Fin n × Fin c × Fin h × Fin w → ℝ) = fun i => N * handBack cfg ω d i := by
    intro ω d
    funext p
    unfold handBack
    simp only [Finset.mul_sum, mul_ite, mul_zero, mul_assoc]
  constructor <;> intro ws x d gw gx hb <;>
    by_cases hc : h ≤ covered h cfg.ph cfg.s0 cfg.pad ∧ w ≤ covered w cfg.pw cfg.s1 cfg.pad
  · obtain ⟨e1, e2⟩ := Prod.mk.inj (Except.ok.inj ((avgPool_back cfg n c h w H hs hc.1 hc.2 false ws x d).symm.trans hb))
    refine (avgPool_back cfg n c h w H hs hc.1 hc.2 true ws x _).trans ?_
    rw [hlin, ← e1, ← e2]
  · rw [(pool_uncovered cfg n c h w H hs hc false ws x d).1] at hb
    cases hb
  · obtain ⟨e1, e2⟩ := Prod.mk.inj (Except.ok.inj ((maxPool_back cfg n c h w H hs hc.1 hc.2 false ws x d).symm.trans hb))
    refine (maxPool_back cfg n c h w H hs hc.1 hc.2 true ws x _).trans ?_
    rw [hlin, ← e1, ← e2]
  · rw [(pool_uncovered cfg n c h w H hs hc false ws x d).2] at hb
    cases hb

/-! ## Global max pooling -/

/-- **`GlobalMaxPooling2D` computes the largest pixel of every channel.** -/
theorem globalMax_call (n c h w : ℕ) (hh : 0 < h) (hw : 0 < w) (ws : Empty → ℝ) (x : Fin n × Fin c × Fin h × Fin w → ℝ)
    (b : Fin n) (k : Fin c) :
    (∀ y u, x (b, k, y, u) ≤ (globalMax n c h w).call ws x (b, k)) ∧
      ∃ y u, (globalMax n c h w).call ws x (b, k) = x (b, k, y, u) := by
  have hpos : 0 < h * w := Nat.mul_pos hh hw
  constructor
  · intro y u
    have hq : (y : ℕ) * w + u < h * w := lt_block y.2 u.2
    have := le_maxUpTo (pixels x b k) (h * w - 1) (y * w + u) (by omega)
    unfold pixels at this
    rw [div_block _ 0 _ _ u.2, mod_block _ _ _ u.2, at4_fin] at this
    exact this
  · obtain ⟨q, hq, e⟩ := maxUpTo_mem (pixels x b k) (h * w - 1)
    have h1 : q / w < h := Nat.div_lt_of_lt_mul (by rw [Nat.mul_comm]; omega)
    refine ⟨⟨q / w, h1⟩, ⟨q % w, Nat.mod_lt _ hw⟩, ?_⟩
    refine e.trans ?_
    unfold pixels
    exact at4_fin x b k ⟨q / w, h1⟩ ⟨q % w, Nat.mod_lt _ hw⟩

/-- A gradient handed to one pixel only. -/
theorem pixel_sum {n c h w : ℕ} (hw : 0 < w) (u : Fin n × Fin c × Fin h × Fin w → ℝ) (b : Fin n) (k : Fin c) (v : ℝ) (a : ℕ)
    (ha : a < h * w) :
    ∑ y : Fin h, ∑ z : Fin w, (v * if (y : ℕ) * w + z = a then 1 else 0) * u (b, k, y, z) = v * pixels u b k a := by
  have h1 : a / w < h := Nat.div_lt_of_lt_mul (by rw [Nat.mul_comm]; omega)
  rw [show pixels u b k a = u (b, k, ⟨a / w, h1⟩, ⟨a % w, Nat.mod_lt _ hw⟩) from
    at4_fin u b k ⟨a / w, h1⟩ ⟨a % w, Nat.mod_lt _ hw⟩]
  rw [Finset.sum_eq_single ⟨a / w, h1⟩, Finset.sum_eq_single ⟨a % w, Nat.mod_lt _ hw⟩]
  · rw [if_pos (Nat.div_add_mod' a w), mul_one]
  · intro z _ hz
    rw [if_neg, mul_zero, zero_mul]
    intro he
    refine hz (Fin.ext ?_)
    show (z : ℕ) = a % w
    rw [← he]
    exact (mod_block _ _ _ z.2).symm
  · intro hn; exact absurd (Finset.mem_univ _) hn
  · intro y _ hy
    refine Finset.sum_eq_zero fun z _ => ?_
    rw [if_neg, mul_zero, zero_mul]
    intro he
    refine hy (Fin.ext ?_)
    show (y : ℕ) = a / w
    rw [← he, div_block _ 0 _ _ z.2]
  · intro hn; exact absurd (Finset.mem_univ _) hn

/-- **`GlobalMaxPooling2D` hands out exact gradients** wherever no channel has two largest pixels. -/
theorem globalMax_exact (n c h w : ℕ) (hh : 0 < h) (hw : 0 < w) (ws : Empty → ℝ) (x : Fin n × Fin c × Fin h × Fin w → ℝ)
    (hx : ∀ b k, ∀ p p' : Fin h × Fin w, (∀ r, x (b, k, r) ≤ x (b, k, p)) → (∀ r, x (b, k, r) ≤ x (b, k, p')) → p = p') :
    (globalMax n c h w).Exact ws x := by
  intro d gw gx hb γ v χ u t h1 h2 h3 h4
  have hpos : 0 < h * w := Nat.mul_pos hh hw
  obtain ⟨e1, e2⟩ := Prod.mk.inj (Except.ok.inj hb)
  have hpx : ∀ (z : Fin n × Fin c × Fin h × Fin w → ℝ) (b : Fin n) (k : Fin c) (q : ℕ) (hq : q < h * w),
      pixels z b k q = z (b, k, ⟨q / w, Nat.div_lt_of_lt_mul (by rw [Nat.mul_comm]; exact hq)⟩, ⟨q % w, Nat.mod_lt _ hw⟩) := by
    intro z b k q hq
    unfold pixels
    exact at4_fin z b k ⟨q / w, _⟩ ⟨q % w, _⟩
  refine ⟨fun i => pixels u i.1 i.2 (lastArg (pixels x i.1 i.2) (h * w - 1)), ?_, ?_⟩
  · rintro ⟨b, k⟩
    have key := max_moves (fun s => pixels (χ s) b k) (pixels u b k) (h * w - 1) t (by
      intro q hq
      simp only [hpx _ b k q (by omega)]
      exact h4 _)
    simp only [h3] at key
    refine key ?_
    intro q hq he s
    have hl := lastArg_le (pixels x b k) (h * w - 1)
    have hmax := le_lastArg (pixels x b k) (h * w - 1)
    have hall : ∀ r : Fin h × Fin w, x (b, k, r) ≤ pixels x b k (lastArg (pixels x b k) (h * w - 1)) := by
      rintro ⟨y, z⟩
      have hq : (y : ℕ) * w + z < h * w := lt_block y.2 z.2
      have := hmax (y * w + z) (by omega)
      rw [show pixels x b k (y * w + z) = x (b, k, y, z) by
        unfold pixels
        rw [div_block _ 0 _ _ z.2, mod_block _ _ _ z.2, at4_fin]] at this
      exact this
    have hp := hx b k _ _ (fun r => (hall r).trans ((hpx x b k q (by omega) ▸ he).ge))
      (fun r => (hall r).trans (hpx x b k (lastArg (pixels x b k) (h * w - 1)) (by omega)).le)
    rw [hpx (χ s) b k q (by omega), hpx (χ s) b k _ (by omega)]
    rw [hp]
  · rw [show (∑ i, gw i * v i) = 0 from Finset.sum_eq_zero fun i _ => i.elim, zero_add, ← e2]
    simp only [Fintype.sum_prod_type]
    refine Finset.sum_congr rfl fun b _ => Finset.sum_congr rfl fun k _ => ?_
    have hl := lastArg_le (pixels x b k) (h * w - 1)
    exact (pixel_sum hw u b k (d (b, k)) _ (by omega)).symm

/-- **`keepdims` is ignored by `GlobalMaxPooling2D`**: the output has the reported shape without
`keepdims`, and with it never. -/
theorem globalMax_keepdims_false (last : Bool) (n c h w : ℕ) :
    globalMaxShape last (if last then [n, h, w, c] else [n, c, h, w]) = some (globalShape last false n c) ∧
      globalMaxShape last (if last then [n, h, w, c] else [n, c, h, w]) ≠ some (globalShape last true n c) := by
  cases last <;> simp [globalMaxShape, globalShape]

/-! ## A convolutional network with pooling -/

/-- `Conv2D` with a rectifier, `AveragePooling2D`, `Reshape` to vectors, `Dense`. -/
noncomputable def poolnet (cfg : ConvCfg) (pc : PoolCfg) (n c h w o : ℕ) (δ κ : Type) [Fintype δ] [Fintype κ] (bias : Bool)
    {size : ℕ}
    (e : Fin n × Fin o × Fin (outputs (outputs h cfg.k cfg.s0 cfg.pad) pc.ph pc.s0 pc.pad) ×
      Fin (outputs (outputs w cfg.k cfg.s1 cfg.pad) pc.pw pc.s1 pc.pad) ≃ Fin size)
    (f : Fin n × δ ≃ Fin size) : Seq (Fin n × Fin c × Fin h × Fin w) (Fin n × κ) :=
  .cons inferInstance (conv2D cfg n c h w o .relu bias)
    (.cons inferInstance (avgPool pc n o (outputs h cfg.k cfg.s0 cfg.pad) (outputs w cfg.k cfg.s1 cfg.pad))
      (.cons inferInstance (reshape e f) (.cons inferInstance (dense n δ κ .none bias) .nil)))

/-- **A convolutional network with pooling follows the gradient**, with the mean squared error, provided no
unit of the convolution sits exactly at zero. -/
theorem poolnet_descends (cfg : ConvCfg) (pc : PoolCfg) (n c h w o : ℕ) (H : cfg.Fits n c h w o) (hs : cfg.s0 = cfg.s1)
    (hh : h ≤ covered h cfg.k cfg.s0 cfg.pad) (hw : w ≤ covered w cfg.k cfg.s1 cfg.pad)
    (P : pc.Fits n o (outputs h cfg.k cfg.s0 cfg.pad) (outputs w cfg.k cfg.s1 cfg.pad)) (ps : pc.s0 = pc.s1)
    (ph : outputs h cfg.k cfg.s0 cfg.pad ≤ covered (outputs h cfg.k cfg.s0 cfg.pad) pc.ph pc.s0 pc.pad)
    (pw : outputs w cfg.k cfg.s1 cfg.pad ≤ covered (outputs w cfg.k cfg.s1 cfg.pad) pc.pw pc.s1 pc.pad)
    (δ κ : Type) [Fintype δ] [Fintype κ] (bias : Bool) {size : ℕ}
    (e : Fin n × Fin o × Fin (outputs (outputs h cfg.k cfg.s0 cfg.pad) pc.ph pc.s0 pc.pad) ×
      Fin (outputs (outputs w cfg.k cfg.s1 cfg.pad) pc.pw pc.s1 pc.pad) ≃ Fin size)
    (f : Fin n × δ ≃ Fin size) (rate : ℝ) (y : Fin n × κ → ℝ) (x : Fin n × Fin c × Fin h × Fin w → ℝ)
    (ws : (poolnet cfg pc n c h w o δ κ bias e f).W → ℝ)
    (hsm : ∀ i, convCall (m := outputs h cfg.k cfg.s0 cfg.pad) (m' := outputs w cfg.k cfg.s1 cfg.pad) (o := o) cfg bias
      (fun i => ws (Sum.inl i)) x i ≠ 0) :
    ∃ g w' : (poolnet cfg pc n c h w o δ κ bias e f).W → ℝ,
      Gradient (fun ws => ∑ k, mse y ((poolnet cfg pc n c h w o δ κ bias e f).call ws x) k) g ws ∧
      (poolnet cfg pc n c h w o δ κ bias e f).fitBatch (mseGrad y) false rate ws x = .ok w' ∧
      ∀ i, w' i = ws i - g i * rate := by
  have he : (poolnet cfg pc n c h w o δ κ bias e f).Exact inferInstance ws x :=
    ⟨conv2D_exact_partial cfg n c h w o H hs .relu bias (fun i => ws (Sum.inl i)) x hsm,
      avgPool_exact_partial pc n o _ _ P ps _ _,
      reshape_exact e f _ _, dense_exact n δ κ .none bias true (fun i => ws (Sum.inr (Sum.inr (Sum.inr (Sum.inl i))))) _ trivial,
      trivial⟩
  have hok : ∃ w', (poolnet cfg pc n c h w o δ κ bias e f).fitBatch (mseGrad y) false rate ws x = .ok w' := by
    have h4 : ∀ w x d, ∃ r, (dense n δ κ .none bias).backward false w x d = .ok r := fun w x d => ⟨_, rfl⟩
    have h3 : ∀ w x d, ∃ r, (reshape e f).backward false w x d = .ok r := fun w x d => ⟨_, rfl⟩
    have h2 : ∀ v x d, ∃ r, (avgPool pc n o (outputs h cfg.k cfg.s0 cfg.pad) (outputs w cfg.k cfg.s1 cfg.pad)).backward
        false v x d = .ok r := fun v x d => ⟨_, avgPool_back pc n o _ _ P ps ph pw false v x d⟩
    have h1 : ∀ v x d, ∃ r, (conv2D cfg n c h w o .relu bias).backward false v x d = .ok r :=
      fun v x d => ⟨_, convBack_eq cfg n c h w o H hs bias false _ x _ hh hw⟩
    obtain ⟨r, hr⟩ := Seq.backward_cons_ok (fun w g => w - g * rate) false inferInstance _ _ h1
      (Seq.backward_cons_ok (fun w g => w - g * rate) false inferInstance _ _ h2
        (Seq.backward_cons_ok (fun w g => w - g * rate) false inferInstance _ _ h3
          (Seq.backward_cons_ok (fun w g => w - g * rate) false inferInstance _ .nil h4 fun w x d => ⟨_, rfl⟩)))
      ws x (mseGrad y ((poolnet cfg pc n c h w o δ κ bias e f).call ws x))
    exact ⟨r.1, congrArg (Except.map Prod.fst) hr⟩
  obtain ⟨w', hw'⟩ := hok
  obtain ⟨g, h1, -, h3⟩ := fitBatch_descends _ (poolnet cfg pc n c h w o δ κ bias e f) (fun p => ∑ k, mse y p k) (mseGrad y)
    rate ws w' x he (mse_gradient y _) hw'
  exact ⟨g, w', h1, hw', h3⟩

/-- The conditions are met by the network of the repository's examples: 28 × 28 images, kernel 3 × 3 with SAME
padding, and the default 2 × 2 pool. -/
example : (ConvCfg.mk 3 1 1 .same true).Fits 128 1 28 28 16 ∧ (PoolCfg.default 2 2 .valid true).Fits 128 16 28 28 ∧
    28 ≤ covered 28 2 2 .valid ∧ outputs 28 3 1 .same = 28 ∧ outputs 28 2 2 .valid = 14 :=
  ⟨⟨by decide, by decide, by decide, by decide, by decide, by decide, by decide, by decide, .inl rfl⟩,
    ⟨by decide, by decide, by decide, by decide, by decide, by decide, by decide, by decide, .inr ⟨rfl, by decide, by decide⟩⟩,
    by decide, by decide, by decide⟩

/-- An image whose window has one largest pixel. -/
example : (PoolCfg.default 2 2 .valid false).Clear 1 1
    (fun i : Fin 1 × Fin 1 × Fin 2 × Fin 2 => if i.2.2.1 = 1 ∧ i.2.2.2 = 0 then 5 else -3) := by
  have hwin : ∀ (i : Fin 1 × Fin 1 × Fin 1 × Fin 1) (q : ℕ), q < 4 → (PoolCfg.default 2 2 .valid false).win
      (fun i : Fin 1 × Fin 1 × Fin 2 × Fin 2 => if i.2.2.1 = 1 ∧ i.2.2.2 = 0 then (5 : ℝ) else -3) i q =
        if q = 2 then 5 else -3 := by
    rintro ⟨b, k, i, j⟩ q hq
    obtain rfl := Subsingleton.elim b 0
    obtain rfl := Subsingleton.elim k 0
    obtain rfl := Subsingleton.elim i 0
    obtain rfl := Subsingleton.elim j 0
    obtain rfl | rfl | rfl | rfl : q = 0 ∨ q = 1 ∨ q = 2 ∨ q = 3 := by omega
    all_goals simp [PoolCfg.win, PoolCfg.row, PoolCfg.col, PoolCfg.default, extend, frontPad, at4]
  intro i q q' hq hq' h1 h2
  left
  have hq : q < 4 := hq
  have hq' : q' < 4 := hq'
  have a1 := h1 2 (by decide)
  have a2 := h2 2 (by decide)
  rw [hwin i 2 (by decide), hwin i _ (by assumption), if_pos rfl] at a1 a2
  split_ifs at a1 a2 <;> first | omega | (exfalso; linarith)

end Verif.Keras
