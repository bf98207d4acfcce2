import Verif.Convert.LayerGradLemmas
import Verif.Convert.NodesPool
import Verif.Keras.PoolingProps

/-!
# C79: gradients of the pooling nodes
-/

namespace Verif.Convert

open Verif.Tensor Verif.Keras Verif.Convert.Onnx

theorem entry_first (cfg : PoolCfg) (hl : cfg.last = false) (y : Ten ℝ) (b k i j : ℕ) : cfg.fmt.entry y b k i j = y.get [b, k, i, j] := by
  unfold ConvCfg.entry PoolCfg.fmt; simp [hl]

theorem shape_first (cfg : PoolCfg) (hl : cfg.last = false) (n c h w : ℕ) : cfg.fmt.shape n c h w = [n, c, h, w] := by
  unfold ConvCfg.shape PoolCfg.fmt; simp [hl]

/-- Outside of the image nothing is read. -/
theorem extend_congr (h w : ℕ) (f g : ℕ → ℕ → ℝ) (i j : ℤ) (e : ∀ a b, a < h → b < w → f a b = g a b) :
    extend h w f i j = extend h w g i j := by
  unfold extend
  split_ifs with hc
  · exact e _ _ (by omega) (by omega)
  · rfl

section
variable {n c h w m m' : ℕ}

/-- A window of a tensor. -/
theorem window_read (cfg : PoolCfg) (X : Ten ℝ) (i : Fin n × Fin c × Fin m × Fin m') (q : ℕ) :
    extend h w (fun y u => X.get [(i.1 : ℕ), (i.2.1 : ℕ), y, u]) (cfg.row h i.2.2.1 q) (cfg.col w i.2.2.2 q) =
      cfg.win ((num4 n c h w).read X) i q := by
  unfold PoolCfg.win
  refine extend_congr h w _ _ _ _ fun a b ha hb => ?_
  exact (at4_fin ((num4 n c h w).read X) i.1 i.2.1 ⟨a, ha⟩ ⟨b, hb⟩).symm

variable (cfg : PoolCfg) (hl : cfg.last = false)
include hl

theorem avg_tensor (H : cfg.Fits n c h w) (Z : Ten ℝ) (hZ : Z.shape = [n, c, h, w]) :
    ∃ Y : Ten ℝ, avgForward cfg Z = some Y ∧ Y.shape = [n, c, outputs h cfg.ph cfg.s0 cfg.pad, outputs w cfg.pw cfg.s1 cfg.pad] ∧
      ∀ j, Y.get ((num4 n c (outputs h cfg.ph cfg.s0 cfg.pad) (outputs w cfg.pw cfg.s1 cfg.pad)).at_ j) = (avgPool cfg n c h w).call (fun i : Empty => i.elim) ((num4 n c h w).read Z) j := by
  obtain ⟨Y, e1, e2, e3⟩ := avg_forward cfg Z n c h w H (by rw [shape_first cfg hl]; exact hZ)
  refine ⟨Y, e1, by rw [e2, shape_first cfg hl], fun i => ?_⟩
  have := e3 i.1 i.2.1 i.2.2.1 i.2.2.2 i.1.2 i.2.1.2 i.2.2.1.2 i.2.2.2.2
  rw [entry_first cfg hl] at this
  refine this.trans ?_
  rw [avgPool_call cfg n c h w H (fun i : Empty => i.elim) ((num4 n c h w).read Z) i, ← Finset.mul_sum, div_eq_mul_one_div, mul_comm]
  congr 1
  rw [← Finset.sum_range (fun q => cfg.win ((num4 n c h w).read Z) i q), sum_mul_range]
  refine Finset.sum_congr rfl fun di _ => Finset.sum_congr rfl fun dj hdj => ?_
  rw [Finset.mem_range] at hdj
  rw [← window_read]
  unfold PoolCfg.row PoolCfg.col
  rw [div_block _ 0 _ _ hdj, mod_block _ _ _ hdj]
  simp only [entry_first cfg hl]

theorem max_tensor (H : cfg.Fits n c h w) (Z : Ten ℝ) (hZ : Z.shape = [n, c, h, w]) :
    ∃ Y a a1 : Ten ℝ, maxForward cfg Z = some (Y, a) ∧ Y.shape = [n, c, outputs h cfg.ph cfg.s0 cfg.pad, outputs w cfg.pw cfg.s1 cfg.pad] ∧
      (∀ j, Y.get ((num4 n c (outputs h cfg.ph cfg.s0 cfg.pad) (outputs w cfg.pw cfg.s1 cfg.pad)).at_ j) = (maxPool cfg n c h w).call (fun i : Empty => i.elim) ((num4 n c h w).read Z) j) ∧
      cfg.argIn a = some a1 ∧ a1.shape = [n, c, outputs h cfg.ph cfg.s0 cfg.pad, outputs w cfg.pw cfg.s1 cfg.pad, cfg.ph * cfg.pw] ∧
      ∀ (b : Fin n) (k : Fin c) (i : Fin (outputs h cfg.ph cfg.s0 cfg.pad)) (j : Fin (outputs w cfg.pw cfg.s1 cfg.pad)) (q : ℕ),
        q < cfg.ph * cfg.pw → a1.get [(b : ℕ), (k : ℕ), (i : ℕ), (j : ℕ), q] = maxWeight cfg ((num4 n c h w).read Z) (b, k, i, j) q := by
  obtain ⟨Y, a, x1, e1, _, e3, e4, ⟨a1, g4, g5, g6⟩, e6⟩ := max_forward cfg Z n c h w H (by rw [shape_first cfg hl]; exact hZ)
  have hwin : ∀ i : Fin n × Fin c × Fin (outputs h cfg.ph cfg.s0 cfg.pad) × Fin (outputs w cfg.pw cfg.s1 cfg.pad),
      windowAt cfg x1 h w i.1 i.2.1 i.2.2.1 i.2.2.2 = cfg.win ((num4 n c h w).read Z) i := by
    intro i
    funext q
    rw [← window_read]
    unfold windowAt windowEntry PoolCfg.row PoolCfg.col
    simp only [e3, entry_first cfg hl]
  refine ⟨Y, a, a1, e1, by rw [e4, shape_first cfg hl], fun i => ?_, g4, g5, ?_⟩
  · have := e6 i.1 i.2.1 i.2.2.1 i.2.2.2 i.1.2 i.2.1.2 i.2.2.1.2 i.2.2.2.2
    rw [entry_first cfg hl] at this
    refine this.trans ?_
    rw [maxPool_call cfg n c h w H (fun i : Empty => i.elim) ((num4 n c h w).read Z) i, hwin i]
  · intro b k i j q hq
    rw [g6 b k i j q b.2 k.2 i.2 j.2 hq, hwin (b, k, i, j)]
    rfl

theorem poolBack_tensor (H : cfg.Fits n c h w) (hs : cfg.s0 = cfg.s1)
    (hh : h ≤ covered h cfg.ph cfg.s0 cfg.pad) (hw : w ≤ covered w cfg.pw cfg.s1 cfg.pad)
    (d : Fin n × Fin c × Fin (outputs h cfg.ph cfg.s0 cfg.pad) × Fin (outputs w cfg.pw cfg.s1 cfg.pad) → ℝ)
    (ω : Fin n × Fin c × Fin (outputs h cfg.ph cfg.s0 cfg.pad) × Fin (outputs w cfg.pw cfg.s1 cfg.pad) → ℕ → ℝ)
    (t : Ten ℝ)
    (ht : t.shape = [n, c, outputs h cfg.ph cfg.s0 cfg.pad, outputs w cfg.pw cfg.s1 cfg.pad, cfg.ph * cfg.pw])
    (hg : ∀ (b : Fin n) (k : Fin c) (i : Fin (outputs h cfg.ph cfg.s0 cfg.pad)) (j : Fin (outputs w cfg.pw cfg.s1 cfg.pad))
      (q : ℕ), q < cfg.ph * cfg.pw →
      t.get [(b : ℕ), (k : ℕ), (i : ℕ), (j : ℕ), q] = d (b, k, i, j) * ω (b, k, i, j) q) :
    ∃ z : Ten ℝ, poolBack cfg n c (outputs h cfg.ph cfg.s0 cfg.pad) (outputs w cfg.pw cfg.s1 cfg.pad) h w t = some z ∧
      z.shape = [n, c, h, w] ∧ (num4 n c h w).read z = handBack cfg ω d := by
  obtain ⟨z, e1, e2⟩ := poolBack_weights cfg H hs hh hw d ω t ht hg
  obtain ⟨z', e3, e4, _⟩ := poolBack_some cfg n c h w H hs hh hw t ht
  obtain rfl := Option.some.inj (e1.symm.trans e3)
  refine ⟨z, e1, by rw [e4, shape_first cfg hl], ?_⟩
  funext p
  have := e2 p
  rw [entry_first cfg hl] at this
  exact this

theorem avgBack_tensor (H : cfg.Fits n c h w) (hs : cfg.s0 = cfg.s1)
    (hh : h ≤ covered h cfg.ph cfg.s0 cfg.pad) (hw : w ≤ covered w cfg.pw cfg.s1 cfg.pad) (X dY : Ten ℝ) (hX : X.shape = [n, c, h, w])
    (hd : dY.shape = [n, c, outputs h cfg.ph cfg.s0 cfg.pad, outputs w cfg.pw cfg.s1 cfg.pad]) :
    ∃ dX : Ten ℝ, avgBackward cfg X dY = some dX ∧ dX.shape = [n, c, h, w] ∧
      (num4 n c h w).read dX = handBack cfg (fun _ _ => 1 / ((cfg.ph * cfg.pw : ℕ) : ℝ)) ((num4 n c (outputs h cfg.ph cfg.s0 cfg.pad) (outputs w cfg.pw cfg.s1 cfg.pad)).read dY) := by
  obtain ⟨d1, e1, e2, e3⟩ := cfg.fmt.nchw_some dY n c _ _ (by rw [shape_first cfg hl]; exact hd)
  obtain ⟨z, f1, f2, f3⟩ := poolBack_tensor cfg hl H hs hh hw ((num4 n c (outputs h cfg.ph cfg.s0 cfg.pad) (outputs w cfg.pw cfg.s1 cfg.pad)).read dY) (fun _ _ => 1 / ((cfg.ph * cfg.pw : ℕ) : ℝ))
    (scale (tile4 d1 (cfg.ph * cfg.pw)) (1 / ((cfg.ph * cfg.pw : ℕ) : ℝ)))
    (by unfold scale tile4; dsimp only; rw [e2]; rfl)
    (by
      intro b k i j q _
      unfold scale tile4
      dsimp only [List.take]
      rw [e3, entry_first cfg hl]
      rfl)
  refine ⟨z, ?_, f2, f3⟩
  unfold avgBackward
  simp only [Option.bind_eq_bind]
  rw [e1, Option.bind_some]
  simp only [e2]
  rw [cfg.imgSize_eq X n c h w (by rw [shape_first cfg hl]; exact hX)]
  exact f1

theorem maxBack_tensor (H : cfg.Fits n c h w) (hs : cfg.s0 = cfg.s1)
    (hh : h ≤ covered h cfg.ph cfg.s0 cfg.pad) (hw : w ≤ covered w cfg.pw cfg.s1 cfg.pad) (X dY Y a : Ten ℝ) (hX : X.shape = [n, c, h, w])
    (hf : maxForward cfg X = some (Y, a))
    (hd : dY.shape = [n, c, outputs h cfg.ph cfg.s0 cfg.pad, outputs w cfg.pw cfg.s1 cfg.pad]) :
    ∃ dX : Ten ℝ, maxBackward cfg X a dY = some dX ∧ dX.shape = [n, c, h, w] ∧
      (num4 n c h w).read dX = handBack cfg (maxWeight cfg ((num4 n c h w).read X)) ((num4 n c (outputs h cfg.ph cfg.s0 cfg.pad) (outputs w cfg.pw cfg.s1 cfg.pad)).read dY) := by
  obtain ⟨Y', a', a1, g1, _, _, g4, g5, g6⟩ := max_tensor cfg hl H X hX
  obtain ⟨rfl, rfl⟩ := Prod.mk.inj (Option.some.inj (hf.symm.trans g1))
  obtain ⟨d1, e1, e2, e3⟩ := cfg.fmt.nchw_some dY n c _ _ (by rw [shape_first cfg hl]; exact hd)
  have hsh : (tile4 d1 (cfg.ph * cfg.pw)).shape = a1.shape := by unfold tile4; dsimp only; rw [e2, g5]; rfl
  obtain ⟨z, f1, f2, f3⟩ := poolBack_tensor cfg hl H hs hh hw ((num4 n c (outputs h cfg.ph cfg.s0 cfg.pad) (outputs w cfg.pw cfg.s1 cfg.pad)).read dY) (maxWeight cfg ((num4 n c h w).read X))
    ⟨(tile4 d1 (cfg.ph * cfg.pw)).shape, fun idx => (tile4 d1 (cfg.ph * cfg.pw)).get idx * a1.get idx⟩
    (hsh.trans g5)
    (by
      intro b k i j q hq
      unfold tile4
      dsimp only [List.take]
      rw [e3, entry_first cfg hl, g6 b k i j q hq]
      rfl)
  refine ⟨z, ?_, f2, f3⟩
  unfold maxBackward
  simp only [Option.bind_eq_bind]
  rw [e1, Option.bind_some, g4, Option.bind_some]
  simp only [g5]
  unfold times
  rw [if_pos hsh, Option.bind_some, cfg.imgSize_eq X n c h w (by rw [shape_first cfg hl]; exact hX)]
  exact f1

end

theorem covers_iff {size k s : ℕ} (hs : 0 < s) (hk : 0 < k) (hv : k ≤ size) :
    size ≤ covered size k s .valid ↔ s ∣ size - k := by
  unfold covered
  rw [outputs_span _ _ _ hs hk hv, Nat.add_sub_cancel]
  have h1 := Nat.div_mul_le_self (size - k) s
  constructor
  · intro h
    exact ⟨(size - k) / s, by rw [mul_comm]; omega⟩
  · intro h
    have := Nat.div_mul_cancel h
    omega

/-- No window has two largest entries. -/
def OneLargest (X : Ten ℝ) (n c ho wo ph pw s : ℕ) : Prop :=
  ∀ b k i j a a' e e', b < n → k < c → i < ho → j < wo → a < ph → a' < pw → e < ph → e' < pw →
    (∀ r r', r < ph → r' < pw → X.get [b, k, i * s + r, j * s + r'] ≤ X.get [b, k, i * s + a, j * s + a']) →
    (∀ r r', r < ph → r' < pw → X.get [b, k, i * s + r, j * s + r'] ≤ X.get [b, k, i * s + e, j * s + e']) → a = e ∧ a' = e'

theorem tap_inside {size k s i a : ℕ} (hs : 0 < s) (hk : 0 < k) (hv : k ≤ size) (hi : i < outputs size k s .valid) (ha : a < k) :
    i * s + a < size := by
  rw [outputs_span _ _ _ hs hk hv] at hi
  have h1 : i ≤ (size - k) / s := by omega
  have h2 : i * s ≤ size - k := le_trans (Nat.mul_le_mul_right _ h1) (Nat.div_mul_le_self _ _)
  omega

theorem clear_of_one {ph pw s n c h w : ℕ} (hs : 0 < s) (hp : 0 < ph) (hq : 0 < pw) (hh : ph ≤ h) (hw : pw ≤ w) (X : Ten ℝ)
    (hX : OneLargest X n c (outputs h ph s .valid) (outputs w pw s .valid) ph pw s) :
    (⟨ph, pw, s, s, .valid, false⟩ : PoolCfg).Clear (outputs h ph s .valid) (outputs w pw s .valid) ((num4 n c h w).read X) := by
  intro i q q' hq1 hq2 h1 h2
  left
  have hwin : ∀ r, r < ph * pw → (⟨ph, pw, s, s, .valid, false⟩ : PoolCfg).win ((num4 n c h w).read X) i r =
      X.get [(i.1 : ℕ), (i.2.1 : ℕ), i.2.2.1 * s + r / pw, i.2.2.2 * s + r % pw] := by
    intro r hr
    rw [← window_read]
    have a1 := tap_inside hs hp hh i.2.2.1.2 ((Nat.div_lt_iff_lt_mul hq).2 hr)
    have a2 := tap_inside hs hq hw i.2.2.2.2 (Nat.mod_lt r hq)
    unfold extend PoolCfg.row PoolCfg.col frontPad
    dsimp only
    rw [show ((i.2.2.1 : ℕ) : ℤ) * (s : ℤ) + ((r / pw : ℕ) : ℤ) - 0 = ((i.2.2.1 * s + r / pw : ℕ) : ℤ) by push_cast; ring,
      show ((i.2.2.2 : ℕ) : ℤ) * (s : ℤ) + ((r % pw : ℕ) : ℤ) - 0 = ((i.2.2.2 * s + r % pw : ℕ) : ℤ) by push_cast; ring,
      if_pos ⟨Int.natCast_nonneg _, Int.ofNat_lt.2 a1, Int.natCast_nonneg _, Int.ofNat_lt.2 a2⟩]
    rfl
  have key : ∀ q, q < ph * pw → (∀ r, r < ph * pw → (⟨ph, pw, s, s, .valid, false⟩ : PoolCfg).win ((num4 n c h w).read X) i r ≤
      (⟨ph, pw, s, s, .valid, false⟩ : PoolCfg).win ((num4 n c h w).read X) i q) →
      ∀ r r', r < ph → r' < pw → X.get [(i.1 : ℕ), (i.2.1 : ℕ), i.2.2.1 * s + r, i.2.2.2 * s + r'] ≤
        X.get [(i.1 : ℕ), (i.2.1 : ℕ), i.2.2.1 * s + q / pw, i.2.2.2 * s + q % pw] := by
    intro q hq0 hmax r r' hr hr'
    have hlt : r * pw + r' < ph * pw := by
      calc r * pw + r' < r * pw + pw := by omega
        _ = (r + 1) * pw := by ring
        _ ≤ ph * pw := Nat.mul_le_mul_right _ hr
    have := hmax (r * pw + r') hlt
    rw [hwin _ hlt, hwin _ hq0] at this
    have e1 : (r * pw + r') / pw = r := by
      rw [mul_comm, Nat.mul_add_div hq, Nat.div_eq_of_lt hr', add_zero]
    have e2 : (r * pw + r') % pw = r' := by
      rw [mul_comm, Nat.mul_add_mod, Nat.mod_eq_of_lt hr']
    rw [e1, e2] at this
    exact this
  obtain ⟨e1, e2⟩ := hX i.1 i.2.1 i.2.2.1 i.2.2.2 (q / pw) (q % pw) (q' / pw) (q' % pw) i.1.2 i.2.1.2 i.2.2.1.2 i.2.2.2.2
    ((Nat.div_lt_iff_lt_mul hq).2 hq1) (Nat.mod_lt _ hq) ((Nat.div_lt_iff_lt_mul hq).2 hq2) (Nat.mod_lt _ hq) (key q hq1 h1) (key q' hq2 h2)
  rw [← Nat.div_add_mod q pw, ← Nat.div_add_mod q' pw, e1, e2]

theorem avgNode_forward {as : List Attr} {ph pw s0 s1 c h w : ℕ} (H : PoolAttrs as ph pw s0 s1) (hs0 : 0 < s0) (hs1 : 0 < s1)
    (hp : 0 < ph) (hq : 0 < pw) (hh : ph ≤ h) (hw : pw ≤ w) : ∃ nd, avgNode as [.shape [-1, (c : ℤ), (h : ℤ), (w : ℤ)]] = .ok nd ∧
      ∀ x, nd.forward [x] = (orShape (avgForward ⟨ph, pw, s0, s1, .valid, false⟩ x)).map fun y => [y] := by
  refine ⟨{ outShapes := [[-1, (c : ℤ), (outputs h ph s0 .valid : ℤ), (outputs w pw s1 .valid : ℤ)]]
            forward := fun xs => do
              let x ← argAt xs 0
              let y ← orShape (avgForward ⟨ph, pw, s0, s1, .valid, false⟩ x)
              .ok [y] }, ?_, ?_⟩
  · unfold avgNode
    show ((poolArgs as).bind _) = _
    rw [H.args, ok_bind]
    show ((imageDims [-1, (c : ℤ), (h : ℤ), (w : ℤ)]).bind _) = _
    rw [imageDims_nat, ok_bind]
    show ((declare (-1) (poolShape ⟨ph, pw, s0, s1, .valid, false⟩ [0, c, h, w])).bind _) = _
    rw [pool_declares hs0 hs1 hp hq hh hw]
    rfl
  · intro x
    show ((orShape (avgForward ⟨ph, pw, s0, s1, .valid, false⟩ x)).bind _) = _
    cases orShape (avgForward ⟨ph, pw, s0, s1, .valid, false⟩ x) <;> rfl

theorem maxNode_forward {as : List Attr} {ph pw s0 s1 c h w : ℕ} (H : PoolAttrs as ph pw s0 s1) (hs0 : 0 < s0) (hs1 : 0 < s1)
    (hp : 0 < ph) (hq : 0 < pw) (hh : ph ≤ h) (hw : pw ≤ w) : ∃ nd, maxNode as [.shape [-1, (c : ℤ), (h : ℤ), (w : ℤ)]] = .ok nd ∧
      ∀ x, nd.forward [x] = (orShape (maxForward ⟨ph, pw, s0, s1, .valid, false⟩ x)).map fun y => [y.1] := by
  refine ⟨{ outShapes := [[-1, (c : ℤ), (outputs h ph s0 .valid : ℤ), (outputs w pw s1 .valid : ℤ)]]
            forward := fun xs => do
              let x ← argAt xs 0
              let y ← orShape (maxForward ⟨ph, pw, s0, s1, .valid, false⟩ x)
              .ok [y.1] }, ?_, ?_⟩
  · unfold maxNode
    show ((poolArgs as).bind _) = _
    rw [H.args, ok_bind]
    show ((imageDims [-1, (c : ℤ), (h : ℤ), (w : ℤ)]).bind _) = _
    rw [imageDims_nat, ok_bind]
    show ((declare (-1) (poolShape ⟨ph, pw, s0, s1, .valid, false⟩ [0, c, h, w])).bind _) = _
    rw [pool_declares hs0 hs1 hp hq hh hw]
    rfl
  · intro x
    show ((orShape (maxForward ⟨ph, pw, s0, s1, .valid, false⟩ x)).bind _) = _
    cases orShape (maxForward ⟨ph, pw, s0, s1, .valid, false⟩ x) <;> rfl

/-- **C79 (AveragePool).** For every image and window and equal strides: if the windows cover the image `backward` returns
the gradient of the input, otherwise it raises. -/
theorem avg_gradient {as : List Attr} {ph pw s n c h w : ℕ} (A : PoolAttrs as ph pw s s) (hs : 0 < s) (hp : 0 < ph) (hq : 0 < pw)
    (hn : 0 < n) (hc : 0 < c) (hh : ph ≤ h) (hw : pw ≤ w) (X dY : Ten ℝ)
    (hX : X.shape = [n, c, h, w]) (hd : dY.shape = [n, c, outputs h ph s .valid, outputs w pw s .valid]) :
    ∃ nd, avgNode as [.shape [-1, (c : ℤ), (h : ℤ), (w : ℤ)]] = .ok nd ∧
      if s ∣ h - ph ∧ s ∣ w - pw then
        ∃ dX, avgBack ⟨ph, pw, s, s, .valid, false⟩ X [dY] = .ok ([], [dX]) ∧ IsGradientOf nd.forward [X] [dY] [dX]
      else avgBack ⟨ph, pw, s, s, .valid, false⟩ X [dY] = .error .shape := by
  have H : (⟨ph, pw, s, s, .valid, false⟩ : PoolCfg).Fits n c h w :=
    ⟨hp, hq, hs, hs, hn, hc, by omega, by omega, .inr ⟨rfl, hh, hw⟩⟩
  obtain ⟨nd, e1, e2⟩ := avgNode_forward (c := c) A hs hs hp hq hh hw
  refine ⟨nd, e1, ?_⟩
  split_ifs with hcov <;> rw [← covers_iff hs hp hh, ← covers_iff hs hq hw] at hcov
  · obtain ⟨dX, f1, f2, f3⟩ := avgBack_tensor (⟨ph, pw, s, s, .valid, false⟩ : PoolCfg) rfl H rfl hcov.1 hcov.2 X dY hX hd
    refine ⟨dX, ?_, ?_⟩
    · show ((orShape (avgBackward _ X dY)).bind _) = _
      rw [f1]; rfl
    · refine gradient_plain (num4 n c h w) (num4 n c (outputs h ph s .valid) (outputs w pw s .valid)) nd.forward
        (avgPool ⟨ph, pw, s, s, .valid, false⟩ n c h w).call X dY dX hX hd f2 (fun Z hZ => ?_) ?_
      · obtain ⟨Y, g1, g2, g3⟩ := avg_tensor (⟨ph, pw, s, s, .valid, false⟩ : PoolCfg) rfl H Z hZ
        exact ⟨Y, by rw [e2, g1]; rfl, g2, g3⟩
      · rw [f3]
        exact avgPool_exact_partial ⟨ph, pw, s, s, .valid, false⟩ n c h w H rfl _ _ _ _ _
          (avgPool_back ⟨ph, pw, s, s, .valid, false⟩ n c h w H rfl hcov.1 hcov.2 false _ _ _)
  · have : avgBackward ⟨ph, pw, s, s, .valid, false⟩ X dY = none := by
      unfold avgBackward
      simp only [Option.bind_eq_bind]
      obtain ⟨d1, g1, g2, g3⟩ := (⟨ph, pw, s, s, .valid, false⟩ : PoolCfg).fmt.nchw_some dY n c _ _ hd
      rw [g1, Option.bind_some]
      simp only [g2]
      rw [(⟨ph, pw, s, s, .valid, false⟩ : PoolCfg).imgSize_eq X n c h w hX]
      refine poolBack_none _ n c _ _ h w _ ?_
      unfold covered at hcov
      dsimp only
      omega
    show ((orShape (avgBackward _ X dY)).bind _) = _
    rw [this]; rfl

/-- **C79 (MaxPool).** The same, where the maximum is differentiable: no window has two largest entries. -/
theorem max_gradient {as : List Attr} {ph pw s n c h w : ℕ} (A : PoolAttrs as ph pw s s) (hs : 0 < s) (hp : 0 < ph) (hq : 0 < pw)
    (hn : 0 < n) (hc : 0 < c) (hh : ph ≤ h) (hw : pw ≤ w) (X dY : Ten ℝ)
    (hX : X.shape = [n, c, h, w]) (hd : dY.shape = [n, c, outputs h ph s .valid, outputs w pw s .valid])
    (hone : OneLargest X n c (outputs h ph s .valid) (outputs w pw s .valid) ph pw s) :
    ∃ nd, maxNode as [.shape [-1, (c : ℤ), (h : ℤ), (w : ℤ)]] = .ok nd ∧
      if s ∣ h - ph ∧ s ∣ w - pw then
        ∃ dX, maxBack ⟨ph, pw, s, s, .valid, false⟩ X [dY] = .ok ([], [dX]) ∧ IsGradientOf nd.forward [X] [dY] [dX]
      else maxBack ⟨ph, pw, s, s, .valid, false⟩ X [dY] = .error .shape := by
  have H : (⟨ph, pw, s, s, .valid, false⟩ : PoolCfg).Fits n c h w :=
    ⟨hp, hq, hs, hs, hn, hc, by omega, by omega, .inr ⟨rfl, hh, hw⟩⟩
  obtain ⟨nd, e1, e2⟩ := maxNode_forward (c := c) A hs hs hp hq hh hw
  obtain ⟨Y, a, a1, m1, _, _, m4, m5, _⟩ := max_tensor (⟨ph, pw, s, s, .valid, false⟩ : PoolCfg) rfl H X hX
  refine ⟨nd, e1, ?_⟩
  split_ifs with hcov <;> rw [← covers_iff hs hp hh, ← covers_iff hs hq hw] at hcov
  · obtain ⟨dX, f1, f2, f3⟩ := maxBack_tensor (⟨ph, pw, s, s, .valid, false⟩ : PoolCfg) rfl H rfl hcov.1 hcov.2 X dY Y a hX m1 hd
    refine ⟨dX, ?_, ?_⟩
    · show ((orShape (maxForward _ X)).bind _) = _
      rw [m1]
      show ((orShape (maxBackward _ X a dY)).bind _) = _
      rw [f1]; rfl
    · refine gradient_plain (num4 n c h w) (num4 n c (outputs h ph s .valid) (outputs w pw s .valid)) nd.forward
        (maxPool ⟨ph, pw, s, s, .valid, false⟩ n c h w).call X dY dX hX hd f2 (fun Z hZ => ?_) ?_
      · obtain ⟨Y, _, _, g1, g2, g3, _⟩ := max_tensor (⟨ph, pw, s, s, .valid, false⟩ : PoolCfg) rfl H Z hZ
        exact ⟨Y, by rw [e2, g1]; rfl, g2, g3⟩
      · rw [f3]
        exact maxPool_exact_partial ⟨ph, pw, s, s, .valid, false⟩ n c h w H rfl _ _ (clear_of_one hs hp hq hh hw X hone) _ _ _
          (maxPool_back ⟨ph, pw, s, s, .valid, false⟩ n c h w H rfl hcov.1 hcov.2 false _ _ _)
  · have : maxBackward ⟨ph, pw, s, s, .valid, false⟩ X a dY = none := by
      unfold maxBackward
      simp only [Option.bind_eq_bind]
      obtain ⟨d1, g1, g2, g3⟩ := (⟨ph, pw, s, s, .valid, false⟩ : PoolCfg).fmt.nchw_some dY n c _ _ hd
      rw [g1, Option.bind_some, m4, Option.bind_some]
      simp only [m5]
      unfold times
      split
      · rw [Option.bind_some, (⟨ph, pw, s, s, .valid, false⟩ : PoolCfg).imgSize_eq X n c h w hX]
        refine poolBack_none _ n c _ _ h w _ ?_
        unfold covered at hcov
        dsimp only
        omega
      · rfl
    show ((orShape (maxForward _ X)).bind _) = _
    rw [m1]
    show ((orShape (maxBackward _ X a dY)).bind _) = _
    rw [this]; rfl

/-- Windows of 2 × 3 with stride 2. -/
def poolAttrs : List Attr := [⟨"kernel_shape", .ints [2, 3]⟩, ⟨"strides", .ints [2, 2]⟩]

theorem poolAttrs_ok : PoolAttrs poolAttrs 2 3 2 2 :=
  ⟨by decide, rfl, rfl, .inl rfl, .inl rfl, .inl rfl, .inl rfl⟩

/-- An image of 4 × 5 is covered. -/
example : ∃ nd dX, avgNode poolAttrs [.shape [-1, 1, 4, 5]] = .ok nd ∧
    avgBack ⟨2, 3, 2, 2, .valid, false⟩ ⟨[1, 1, 4, 5], fun i => i.sum⟩ [⟨[1, 1, 2, 2], fun _ => 1⟩] = .ok ([], [dX]) ∧
    IsGradientOf nd.forward [⟨[1, 1, 4, 5], fun i => i.sum⟩] [⟨[1, 1, 2, 2], fun _ => 1⟩] [dX] := by
  obtain ⟨nd, e1, e2⟩ := avg_gradient (n := 1) (c := 1) (h := 4) (w := 5) poolAttrs_ok (by decide) (by decide) (by decide) (by decide)
    (by decide) (by decide) (by decide) ⟨[1, 1, 4, 5], fun i => i.sum⟩ ⟨[1, 1, 2, 2], fun _ => 1⟩ rfl rfl
  rw [if_pos (by decide)] at e2
  obtain ⟨dX, e3, e4⟩ := e2
  exact ⟨nd, dX, e1, e3, e4⟩

/-- An image of 5 × 5 is not. -/
example : avgBack ⟨2, 3, 2, 2, .valid, false⟩ ⟨[1, 1, 5, 5], fun i => i.sum⟩ [⟨[1, 1, 2, 2], fun _ => 1⟩] = .error .shape := by
  obtain ⟨nd, e1, e2⟩ := avg_gradient (n := 1) (c := 1) (h := 5) (w := 5) poolAttrs_ok (by decide) (by decide) (by decide) (by decide)
    (by decide) (by decide) (by decide) ⟨[1, 1, 5, 5], fun i => i.sum⟩ ⟨[1, 1, 2, 2], fun _ => 1⟩ rfl rfl
  rwa [if_neg (by decide)] at e2

/-- A growing image has one largest entry in each window. -/
theorem growing_one : OneLargest ⟨[1, 1, 4, 5], fun i => (i.sum : ℝ)⟩ 1 1 2 2 2 3 2 := by
  intro b k i j a a' e e' _ _ _ _ ha ha' he he' h1 h2
  have k1 := h1 1 2 (by decide) (by decide)
  have k2 := h2 1 2 (by decide) (by decide)
  simp only [List.sum_cons, List.sum_nil, Nat.cast_le] at k1 k2
  omega

example : ∃ nd dX, maxNode poolAttrs [.shape [-1, 1, 4, 5]] = .ok nd ∧
    maxBack ⟨2, 3, 2, 2, .valid, false⟩ ⟨[1, 1, 4, 5], fun i => i.sum⟩ [⟨[1, 1, 2, 2], fun _ => 1⟩] = .ok ([], [dX]) ∧
    IsGradientOf nd.forward [⟨[1, 1, 4, 5], fun i => i.sum⟩] [⟨[1, 1, 2, 2], fun _ => 1⟩] [dX] := by
  obtain ⟨nd, e1, e2⟩ := max_gradient (n := 1) (c := 1) (h := 4) (w := 5) poolAttrs_ok (by decide) (by decide) (by decide) (by decide)
    (by decide) (by decide) (by decide) ⟨[1, 1, 4, 5], fun i => i.sum⟩ ⟨[1, 1, 2, 2], fun _ => 1⟩ rfl rfl growing_one
  rw [if_pos (by decide)] at e2
  obtain ⟨dX, e3, e4⟩ := e2
  exact ⟨nd, dX, e1, e3, e4⟩

end Verif.Convert
