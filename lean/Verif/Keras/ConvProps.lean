import Verif.Keras.ConvExact
import Verif.Keras.GradProps

/-!
# C66: convolution layers

`Conv2D` computes the strided, padded cross-correlation with its kernel (`correlation`), plus the bias,
and its `backward` hands out the exact gradients (`Layer.Exact`) — when the two strides are equal and the
windows reach the border of the image. Otherwise it raises, or for unequal strides may hand out something
else.
-/

namespace Verif.Keras

open Verif.Tensor

/-- Sizes for which the layer has a forward pass: nothing is empty, the padding is one of the two, and
without padding the kernel fits into the image. -/
structure ConvCfg.Fits (cfg : ConvCfg) (n c h w o : ℕ) : Prop where
  kpos : 0 < cfg.k
  s0pos : 0 < cfg.s0
  s1pos : 0 < cfg.s1
  npos : 0 < n
  cpos : 0 < c
  opos : 0 < o
  hpos : 0 < h
  wpos : 0 < w
  pad : cfg.pad = .same ∨ cfg.pad = .valid ∧ cfg.k ≤ h ∧ cfg.k ≤ w

theorem ConvCfg.Fits.padh {cfg : ConvCfg} {n c h w o : ℕ} (H : cfg.Fits n c h w o) :
    cfg.pad = .same ∨ cfg.pad = .valid ∧ cfg.k ≤ h := by have := H.pad; tauto

theorem ConvCfg.Fits.padw {cfg : ConvCfg} {n c h w o : ℕ} (H : cfg.Fits n c h w o) :
    cfg.pad = .same ∨ cfg.pad = .valid ∧ cfg.k ≤ w := by have := H.pad; tauto

theorem ConvCfg.Fits.m {cfg : ConvCfg} {n c h w o : ℕ} (H : cfg.Fits n c h w o) :
    0 < outputs h cfg.k cfg.s0 cfg.pad := outputs_pos _ _ _ H.s0pos H.kpos H.hpos _ H.padh

theorem ConvCfg.Fits.m' {cfg : ConvCfg} {n c h w o : ℕ} (H : cfg.Fits n c h w o) :
    0 < outputs w cfg.k cfg.s1 cfg.pad := outputs_pos _ _ _ H.s1pos H.kpos H.wpos _ H.padw

/-- **The forward pass** is the cross-correlation plus the bias, in both data formats and with any
strides. -/
theorem conv_forward {α : Type} [Ring α] (cfg : ConvCfg) (x kernel : Ten α) (bias : Option (Ten α))
    (n c h w o : ℕ) (H : cfg.Fits n c h w o) (hx : x.shape = cfg.shape n c h w)
    (hk : kernel.shape = [cfg.k, cfg.k, c, o]) :
    ∃ y : Ten α, convForward cfg x kernel bias = some y ∧
      y.shape = cfg.shape n o (outputs h cfg.k cfg.s0 cfg.pad) (outputs w cfg.k cfg.s1 cfg.pad) ∧
      ∀ b q i j, b < n → q < o → i < outputs h cfg.k cfg.s0 cfg.pad → j < outputs w cfg.k cfg.s1 cfg.pad →
        cfg.entry y b q i j = correlation (fun b y u r => cfg.entry x b r y u)
          (fun a a' r q => kernel.get [a, a', r, q]) h w c cfg.k cfg.k cfg.s0 cfg.s1 cfg.pad b i j q +
          match bias with
          | none => 0
          | some t => t.get [q, 0, 0] := by
  obtain ⟨x1, e1, e2, e3⟩ := cfg.nchw_some x n c h w hx
  obtain ⟨z, f1, f2, f3⟩ := conv2d_nchw x1 kernel n c h w cfg.k cfg.k o cfg.s0 cfg.s1 cfg.pad e2 hk H.s0pos H.s1pos H.kpos H.kpos
    H.cpos H.opos H.pad
  have hb : (addBias z bias).shape = [n, o, outputs h cfg.k cfg.s0 cfg.pad, outputs w cfg.k cfg.s1 cfg.pad] := by
    cases bias <;> exact f2
  obtain ⟨y, g1, g2, g3⟩ := cfg.layout_some (addBias z bias) _ _ _ _ hb
  refine ⟨y, ?_, g2, ?_⟩
  · unfold convForward
    simp only [Option.bind_eq_bind]
    rw [e1, Option.bind_some, f1, Option.bind_some, g1]
  · intro b q i j hb hq hi hj
    have hcorr := f3 b q i j hb hq hi hj
    simp only [e3] at hcorr
    rw [g3, ← hcorr]
    cases bias with
    | none => exact (add_zero _).symm
    | some t => rfl

/-- **When the backward pass succeeds**: with equal strides, exactly when the windows cover the image
(without padding: when the stride divides what is left of the first window). Otherwise the assertion
about the shape fails. -/
theorem conv_backward_total {α : Type} [Field α] (cfg : ConvCfg) (lazy : Bool) (x kernel d : Ten α)
    (n c h w o : ℕ) (H : cfg.Fits n c h w o) (hs : cfg.s0 = cfg.s1) (hx : x.shape = cfg.shape n c h w)
    (hk : kernel.shape = [cfg.k, cfg.k, c, o])
    (hd : d.shape = cfg.shape n o (outputs h cfg.k cfg.s0 cfg.pad) (outputs w cfg.k cfg.s1 cfg.pad)) :
    if h ≤ covered h cfg.k cfg.s0 cfg.pad ∧ w ≤ covered w cfg.k cfg.s1 cfg.pad then
      ∃ dk db dx : Ten α, convBackward cfg lazy x kernel d = .ok (dk, db, dx) ∧
        dk.shape = [cfg.k, cfg.k, c, o] ∧ db.shape = [o, 1, 1] ∧ dx.shape = cfg.shape n c h w
    else convBackward cfg lazy x kernel d = .error .assertion := by
  have p0 := cfg.padH_total h H.s0pos H.kpos H.hpos H.padh
  have p1 := cfg.padW_total w H.s1pos H.kpos H.wpos H.padw
  have hm := H.m
  have hm' := H.m'
  have hk0 := H.kpos
  have hc0 : covered h cfg.k cfg.s0 cfg.pad = (outputs h cfg.k cfg.s0 cfg.pad - 1) * cfg.s0 + cfg.k := rfl
  have hc1 : covered w cfg.k cfg.s1 cfg.pad = (outputs w cfg.k cfg.s1 cfg.pad - 1) * cfg.s0 + cfg.k := by
    rw [hs]; rfl
  obtain ⟨dk, db, dx, e1, e2, e3, e4, _, _, _⟩ := convBackCore_some cfg lazy x kernel d n c h w o _ _ H.s0pos H.kpos H.npos H.cpos
    H.opos hm hm' hx hk hd (by omega) (by omega)
  unfold convBackward
  rw [e1]
  simp only
  rw [e2, e4, hx, hk]
  split_ifs with hcov hsh hsh
  · refine ⟨dk, db, dx, rfl, ?_, e3, ?_⟩
    · rw [e2]; congr 1; · omega
      congr 1; omega
    · rw [e4]; congr 1 <;> omega
  · exfalso
    apply hsh
    refine ⟨by congr 1 <;> omega, ?_⟩
    congr 1; · omega
    congr 1; omega
  · exfalso
    have h2 := hsh.2
    simp only [List.cons.injEq, and_true] at h2
    have h1 := hsh.1
    have : (outputs h cfg.k cfg.s0 cfg.pad - 1) * cfg.s0 + cfg.k - (cfg.padH h).2 - (cfg.padH h).1 = h ∧
        (outputs w cfg.k cfg.s1 cfg.pad - 1) * cfg.s0 + cfg.k - (cfg.padW w).2 - (cfg.padW w).1 = w := by
      unfold ConvCfg.shape at h1
      cases hl : cfg.last <;> simp only [hl, if_true, Bool.false_eq_true, if_false, List.cons.injEq, and_true, true_and] at h1 <;> omega
    have := H.hpos
    have := H.wpos
    omega
  · rfl

/-- The forward pass on indexed tensors, as a bilinear form. -/
theorem convCall_eq (cfg : ConvCfg) (n c h w o : ℕ) (H : cfg.Fits n c h w o) (hs : cfg.s0 = cfg.s1) (bias : Bool)
    (ws : (Fin cfg.k × Fin cfg.k × Fin c × Fin o) ⊕ {_j : Fin o // bias = true} → ℝ)
    (x : Fin n × Fin c × Fin h × Fin w → ℝ)
    (i : Fin n × Fin o × Fin (outputs h cfg.k cfg.s0 cfg.pad) × Fin (outputs w cfg.k cfg.s1 cfg.pad)) :
    convCall cfg bias ws x i =
      (∑ p, ∑ q, coeff cfg.s0 (cfg.padH h).1 (cfg.padW w).1 i p q * ws (.inl p) * x q) +
        ∑ b : {_j : Fin o // bias = true}, (if b.1 = i.2.1 then 1 else 0) * ws (.inr b) := by
  obtain ⟨y, e1, _, e3⟩ := conv_forward cfg (cfg.tensor x) (kernelTensor ws) (biasTensor bias ws) n c h w o H rfl rfl
  unfold convCall
  rw [e1]
  refine (e3 i.1 i.2.1 i.2.2.1 i.2.2.2 i.1.2 i.2.1.2 i.2.2.1.2 i.2.2.2.2).trans ?_
  have p0 := (cfg.padH_total h H.s0pos H.kpos H.hpos H.padh).2
  have p1 := (cfg.padW_total w H.s1pos H.kpos H.wpos H.padw).2
  congr 1
  · rw [coeff_call]
    unfold correlation
    rw [Finset.sum_range]
    refine Finset.sum_congr rfl fun a _ => ?_
    rw [Finset.sum_range]
    refine Finset.sum_congr rfl fun a' _ => ?_
    rw [Finset.sum_range]
    refine Finset.sum_congr rfl fun r _ => ?_
    dsimp only
    rw [show (kernelTensor ws).get [(a : ℕ), (a' : ℕ), (r : ℕ), (i.2.1 : ℕ)] = ws (.inl (a, a', r, i.2.1)) from
      at4_fin (fun i => ws (.inl i)) a a' r i.2.1]
    congr 1
    rw [← extend_sel x i.1 r cfg.s0 (cfg.padH h).1 (cfg.padW w).1 i.2.2.1 i.2.2.2 a a', p0, p1]
    simp only [cfg.tensor_entry]
    have hz : (cfg.s1 : ℤ) = cfg.s0 := by rw [hs]
    rw [hz]
    push_cast
    rfl
  · unfold biasTensor
    by_cases hb : bias = true
    swap
    · simp only [hb]
      symm
      exact Finset.sum_eq_zero fun b _ => absurd b.2 hb
    · subst hb
      simp only [dif_pos]
      rw [Finset.sum_eq_single ⟨i.2.1, rfl⟩]
      · simp
      · intro b _ hb
        rw [if_neg (fun h => hb (Subtype.ext h)), zero_mul]
      · intro hn; exact absurd (Finset.mem_univ _) hn

/-- The backward pass on indexed tensors, when it succeeds. -/
theorem convBack_eq (cfg : ConvCfg) (n c h w o : ℕ) (H : cfg.Fits n c h w o) (hs : cfg.s0 = cfg.s1) (bias lazy : Bool)
    (ws : (Fin cfg.k × Fin cfg.k × Fin c × Fin o) ⊕ {_j : Fin o // bias = true} → ℝ)
    (x : Fin n × Fin c × Fin h × Fin w → ℝ)
    (d : Fin n × Fin o × Fin (outputs h cfg.k cfg.s0 cfg.pad) × Fin (outputs w cfg.k cfg.s1 cfg.pad) → ℝ)
    (hh : h ≤ covered h cfg.k cfg.s0 cfg.pad) (hw : w ≤ covered w cfg.k cfg.s1 cfg.pad) :
    convBack cfg bias lazy ws x d = .ok
      (fun i => match i with
        | .inl p => (∑ i, ∑ q, d i * (coeff cfg.s0 (cfg.padH h).1 (cfg.padW w).1 i p q * x q)) / if lazy then (n : ℝ) else 1
        | .inr b => (∑ i, d i * if b.1 = i.2.1 then 1 else 0) / if lazy then (n : ℝ) else 1,
       fun q => ∑ i, ∑ p, d i * (coeff cfg.s0 (cfg.padH h).1 (cfg.padW w).1 i p q * ws (.inl p))) := by
  have p0 := cfg.padH_total h H.s0pos H.kpos H.hpos H.padh
  have p1 := cfg.padW_total w H.s1pos H.kpos H.wpos H.padw
  have hm := H.m
  have hm' := H.m'
  have hk0 := H.kpos
  have hc0 : covered h cfg.k cfg.s0 cfg.pad = (outputs h cfg.k cfg.s0 cfg.pad - 1) * cfg.s0 + cfg.k := rfl
  have hc1 : covered w cfg.k cfg.s1 cfg.pad = (outputs w cfg.k cfg.s1 cfg.pad - 1) * cfg.s0 + cfg.k := by
    rw [hs]; rfl
  have htot := conv_backward_total cfg lazy (cfg.tensor x) (kernelTensor ws) (cfg.tensor d) n c h w o H hs rfl rfl rfl
  rw [if_pos ⟨hh, hw⟩] at htot
  obtain ⟨dk', db', dx', e1', _, _, _⟩ := htot
  obtain ⟨dk, db, dx, e1, e2, e3, e4, g1, g2, g3⟩ := convBackCore_some cfg lazy (cfg.tensor x) (kernelTensor ws)
    (cfg.tensor d) n c h w o _ _ H.s0pos H.kpos H.npos H.cpos H.opos hm hm' rfl rfl rfl (by omega) (by omega)
  have heq : convBackward cfg lazy (cfg.tensor x) (kernelTensor ws) (cfg.tensor d) = .ok (dk, db, dx) := by
    unfold convBackward at e1' ⊢
    rw [e1] at e1' ⊢
    simp only at e1' ⊢
    split_ifs at e1' ⊢ with hc
    rfl
  unfold convBack
  rw [heq]
  refine congrArg Except.ok (Prod.ext ?_ ?_)
  · funext i
    cases i with
    | inl p =>
      refine (g1 p.1 p.2.1 p.2.2.1 p.2.2.2 (by omega) (by omega) p.2.2.1.2 p.2.2.2.2).trans ?_
      dsimp only
      rw [coeff_kernel]
      congr 1
      rw [Finset.sum_range]
      refine Finset.sum_congr rfl fun i _ => ?_
      rw [Finset.sum_range]
      refine Finset.sum_congr rfl fun j _ => ?_
      rw [Finset.sum_range]
      refine Finset.sum_congr rfl fun b _ => ?_
      rw [cfg.tensor_entry, at4_fin, ← extend_sel]
      congr 2
      funext y u
      exact cfg.tensor_entry x _ _ _ _
    | inr b =>
      refine (g2 b.1).trans ?_
      dsimp only
      congr 1
      rw [coeff_bias, Finset.sum_range]
      refine Finset.sum_congr rfl fun i _ => ?_
      rw [Finset.sum_range]
      refine Finset.sum_congr rfl fun j _ => ?_
      rw [Finset.sum_range]
      refine Finset.sum_congr rfl fun b _ => ?_
      rw [cfg.tensor_entry, at4_fin]
  · funext q
    refine (g3 q.1 q.2.1 q.2.2.1 q.2.2.2 q.1.2 q.2.1.2 (by omega) (by omega)).trans ?_
    dsimp only
    rw [coeff_input, Finset.sum_range]
    refine Finset.sum_congr rfl fun a _ => ?_
    rw [Finset.sum_range]
    refine Finset.sum_congr rfl fun a' _ => ?_
    rw [Finset.sum_range]
    refine Finset.sum_congr rfl fun r _ => ?_
    rw [show (kernelTensor ws).get [(a : ℕ), (a' : ℕ), (q.2.1 : ℕ), (r : ℕ)] = ws (.inl (a, a', q.2.1, r)) from
      at4_fin (fun i => ws (.inl i)) a a' q.2.1 r]
    congr 1
    rw [Finset.sum_range]
    refine Finset.sum_congr rfl fun i _ => ?_
    rw [Finset.sum_range]
    refine Finset.sum_congr rfl fun j _ => ?_
    rw [cfg.tensor_entry, at4_fin]

/-- Without the cover condition the backward pass raises. -/
theorem convBack_raises (cfg : ConvCfg) (n c h w o : ℕ) (H : cfg.Fits n c h w o) (hs : cfg.s0 = cfg.s1) (bias lazy : Bool)
    (ws : (Fin cfg.k × Fin cfg.k × Fin c × Fin o) ⊕ {_j : Fin o // bias = true} → ℝ)
    (x : Fin n × Fin c × Fin h × Fin w → ℝ)
    (d : Fin n × Fin o × Fin (outputs h cfg.k cfg.s0 cfg.pad) × Fin (outputs w cfg.k cfg.s1 cfg.pad) → ℝ)
    (hh : ¬(h ≤ covered h cfg.k cfg.s0 cfg.pad ∧ w ≤ covered w cfg.k cfg.s1 cfg.pad)) :
    convBack cfg bias lazy ws x d = .error .assertion := by
  have htot := conv_backward_total cfg lazy (cfg.tensor x) (kernelTensor ws) (cfg.tensor d) n c h w o H hs rfl rfl rfl
  rw [if_neg hh] at htot
  unfold convBack
  rw [htot]
  rfl

/-- The gradients of the convolution itself. -/
theorem conv_exact (cfg : ConvCfg) (n c h w o : ℕ) (H : cfg.Fits n c h w o) (hs : cfg.s0 = cfg.s1) (bias : Bool)
    (ws : (Fin cfg.k × Fin cfg.k × Fin c × Fin o) ⊕ {_j : Fin o // bias = true} → ℝ)
    (x : Fin n × Fin c × Fin h × Fin w → ℝ)
    (d : Fin n × Fin o × Fin (outputs h cfg.k cfg.s0 cfg.pad) × Fin (outputs w cfg.k cfg.s1 cfg.pad) → ℝ)
    (gw : (Fin cfg.k × Fin cfg.k × Fin c × Fin o) ⊕ {_j : Fin o // bias = true} → ℝ)
    (gx : Fin n × Fin c × Fin h × Fin w → ℝ) (hb : convBack cfg bias false ws x d = .ok (gw, gx))
    (γ : ℝ → (Fin cfg.k × Fin cfg.k × Fin c × Fin o) ⊕ {_j : Fin o // bias = true} → ℝ)
    (v : (Fin cfg.k × Fin cfg.k × Fin c × Fin o) ⊕ {_j : Fin o // bias = true} → ℝ)
    (χ : ℝ → Fin n × Fin c × Fin h × Fin w → ℝ) (u : Fin n × Fin c × Fin h × Fin w → ℝ) (t : ℝ)
    (h1 : γ t = ws) (h2 : Moves γ v t) (h3 : χ t = x) (h4 : Moves χ u t) :
    ∃ y, Moves (fun s => convCall (m := outputs h cfg.k cfg.s0 cfg.pad) (m' := outputs w cfg.k cfg.s1 cfg.pad) cfg bias
        (γ s) (χ s)) y t ∧ ∑ j, d j * y j = ∑ i, gw i * v i + ∑ i, gx i * u i := by
  by_cases hc : h ≤ covered h cfg.k cfg.s0 cfg.pad ∧ w ≤ covered w cfg.k cfg.s1 cfg.pad
  swap
  · rw [convBack_raises cfg n c h w o H hs bias false ws x d hc] at hb
    cases hb
  rw [convBack_eq cfg n c h w o H hs bias false ws x d hc.1 hc.2] at hb
  obtain ⟨e1, e2⟩ := Prod.mk.inj (Except.ok.inj hb)
  obtain ⟨y, k1, k2⟩ := bilinear_exact (coeff cfg.s0 (cfg.padH h).1 (cfg.padW w).1)
    (fun i (b : {_j : Fin o // bias = true}) => if b.1 = i.2.1 then 1 else 0) ws x d γ v χ u t h1 h2 h3 h4
  refine ⟨y, ?_, ?_⟩
  · intro j
    have := k1 j
    simp only [convCall_eq cfg n c h w o H hs bias]
    exact this
  · rw [k2, ← e1, ← e2, Fintype.sum_sum_type]
    simp only [Bool.false_eq_true, if_false, div_one]

/-- **`Conv2D` hands out exact gradients**: for every number of images, channels and filters, every size
of image and kernel, SAME or VALID padding, either data format, equal strides, with or without bias and
with any activation that has a backward pass — whenever `backward` returns. -/
theorem conv2D_exact_partial (cfg : ConvCfg) (n c h w o : ℕ) (H : cfg.Fits n c h w o) (hs : cfg.s0 = cfg.s1) (act : Act)
    (bias : Bool) (ws : (conv2D cfg n c h w o act bias).W → ℝ) (x : Fin n × Fin c × Fin h × Fin w → ℝ)
    (hsm : act.Smooth (convCall (m := outputs h cfg.k cfg.s0 cfg.pad) (m' := outputs w cfg.k cfg.s1 cfg.pad) cfg bias
      ws x)) : (conv2D cfg n c h w o act bias).Exact ws x := by
  intro d gw gx hb γ v χ u t h1 h2 h3 h4
  by_cases ha : act = .none
  · subst ha
    exact conv_exact cfg n c h w o H hs bias ws x d gw gx hb γ v χ u t h1 h2 h3 h4
  · have hcall : ∀ ws x, (conv2D cfg n c h w o act bias).call ws x = act.apply (convCall cfg bias ws x) := by
      intro ws x
      cases act <;> first | rfl | exact absurd rfl ha
    have hb : (act.deriv (act.apply (convCall cfg bias ws x)) d).bind (convBack cfg bias false ws x) = .ok (gw, gx) := by
      refine Eq.trans ?_ hb
      cases act <;> first | rfl | exact absurd rfl ha
    cases hd : act.deriv (act.apply (convCall cfg bias ws x)) d with
    | error e => rw [hd] at hb; cases hb
    | ok d' =>
      rw [hd] at hb
      obtain ⟨z, k1, k2⟩ := conv_exact cfg n c h w o H hs bias ws x d' gw gx hb γ v χ u t h1 h2 h3 h4
      obtain ⟨y, k3, k4⟩ := act_exact act hsm hd (χ := fun s => convCall cfg bias (γ s) (χ s)) (t := t)
        (by rw [h1, h3]) k1
      refine ⟨y, ?_, k4.trans k2⟩
      intro j
      have := k3 j
      simp only [hcall]
      exact this

/-- **`Conv2D.backward` returns** exactly when the windows cover the image (equal strides, no
activation). -/
theorem conv2D_backward_ok (cfg : ConvCfg) (n c h w o : ℕ) (H : cfg.Fits n c h w o) (hs : cfg.s0 = cfg.s1) (bias lazy : Bool)
    (ws : (conv2D cfg n c h w o .none bias).W → ℝ) (x d) :
    (∃ r, (conv2D cfg n c h w o .none bias).backward lazy ws x d = .ok r) ↔
      h ≤ covered h cfg.k cfg.s0 cfg.pad ∧ w ≤ covered w cfg.k cfg.s1 cfg.pad := by
  constructor
  · rintro ⟨r, hr⟩
    by_contra hc
    have : convBack cfg bias lazy ws x d = .ok r := hr
    rw [convBack_raises cfg n c h w o H hs bias lazy ws x d hc] at this
    cases this
  · intro hc
    exact ⟨_, convBack_eq cfg n c h w o H hs bias lazy ws x d hc.1 hc.2⟩

/-- The cover condition without padding: the stride divides the rest. -/
theorem covered_valid (size k s : ℕ) (hs : 0 < s) (hk : 0 < k) (h : k ≤ size) :
    size ≤ covered size k s .valid ↔ s ∣ size - k := by
  have hle := covered_valid_le size k s hs hk h
  unfold covered at hle ⊢
  rw [outputs_valid _ _ _ hs hk] at hle ⊢
  rw [show size + 1 - k + s - 1 = (size - k) + s by omega, Nat.add_div_right _ hs] at hle ⊢
  simp only [Nat.succ_eq_add_one, Nat.add_sub_cancel] at hle ⊢
  constructor
  · intro h1
    refine ⟨(size - k) / s, ?_⟩
    rw [Nat.mul_comm]
    omega
  · intro h1
    rw [Nat.div_mul_cancel h1]
    omega

/-- The cover condition with SAME padding: it always holds if the kernel is at least as large as the
stride. -/
theorem covered_same (size k s : ℕ) (hs : 0 < s) (hn : 0 < size) (hk : s ≤ k) : size ≤ covered size k s .same := by
  unfold covered outputs
  have h := Nat.div_add_mod (size + s - 1) s
  have h2 := Nat.mod_lt (size + s - 1) hs
  have hpos : 0 < (size + s - 1) / s := Nat.div_pos (by omega) hs
  generalize (size + s - 1) / s = q at *
  obtain ⟨r, rfl⟩ : ∃ r, q = r + 1 := ⟨q - 1, by omega⟩
  rw [Nat.mul_comm, Nat.succ_mul] at h
  simp only [Nat.add_sub_cancel]
  omega

/-- **The documented claim fails when the stride does not divide the rest**: a 4 × 4 image, kernel 3 × 3, stride 2, no
padding — a model with this layer predicts, but `backward` raises an
`AssertionError`, whatever the weights, the images and the gradient. -/
theorem conv_remainder_raises_false (last bias lazy : Bool) (n c o : ℕ) (hn : 0 < n) (hc : 0 < c) (ho : 0 < o)
    (ws : (conv2D ⟨3, 2, 2, .valid, last⟩ n c 4 4 o .none bias).W → ℝ) (x d) :
    (conv2D ⟨3, 2, 2, .valid, last⟩ n c 4 4 o .none bias).backward lazy ws x d = .error .assertion :=
  convBack_raises ⟨3, 2, 2, .valid, last⟩ n c 4 4 o
    ⟨(by decide : 0 < 3), (by decide : 0 < 2), (by decide : 0 < 2), hn, hc, ho, by decide, by decide,
      .inr ⟨rfl, (by decide : 3 ≤ 4), (by decide : 3 ≤ 4)⟩⟩ rfl bias lazy ws x d
    (by show ¬(4 ≤ covered 4 3 2 .valid ∧ 4 ≤ covered 4 3 2 .valid); decide)

/-- **Lazy normalization** (dividing by the batch size in the layer) of the convolution. -/
theorem conv2D_lazy (cfg : ConvCfg) (n c h w o : ℕ) (H : cfg.Fits n c h w o) (hs : cfg.s0 = cfg.s1) (bias : Bool) :
    (conv2D cfg n c h w o .none bias).Lazy n := by
  intro ws x d gw gx hb
  have hn : (n : ℝ) ≠ 0 := Nat.cast_ne_zero.2 (Nat.pos_iff_ne_zero.1 H.npos)
  have hb : convBack cfg bias false ws x d = .ok (gw, gx) := hb
  show convBack cfg bias true ws x (fun j => n * d j) = _
  by_cases hc : h ≤ covered h cfg.k cfg.s0 cfg.pad ∧ w ≤ covered w cfg.k cfg.s1 cfg.pad
  swap
  · rw [convBack_raises cfg n c h w o H hs bias false ws x d hc] at hb
    cases hb
  rw [convBack_eq cfg n c h w o H hs bias false ws x d hc.1 hc.2] at hb
  obtain ⟨e1, e2⟩ := Prod.mk.inj (Except.ok.inj hb)
  rw [convBack_eq cfg n c h w o H hs bias true ws x _ hc.1 hc.2, ← e1, ← e2]
  refine congrArg Except.ok (Prod.ext ?_ ?_)
  · funext i
    cases i with
    | inl p =>
      simp only [if_true, Bool.false_eq_true, if_false, div_one, mul_assoc, ← Finset.mul_sum]
      rw [mul_comm, mul_div_assoc, div_self hn, mul_one]
    | inr b =>
      simp only [if_true, Bool.false_eq_true, if_false, div_one, mul_assoc, ← Finset.mul_sum]
      rw [mul_comm, mul_div_assoc, div_self hn, mul_one]
  · funext q
    simp only [mul_assoc, ← Finset.mul_sum]

/-! ## Unequal strides -/

/-- **The claim fails for unequal strides, silently**: kernel 2 × 2, strides (3, 2), no padding, a 5 × 5
image. The second column of windows starts at column 2, but its gradient is handed to columns 3 and 4.
Kernel of ones, and a gradient of 1 for the window in the first row and second column: pixel (0, 2) is in
that window and gets gradient 0, pixel (0, 4) is in no window at all and gets gradient 1. -/
theorem conv_strides_false :
    let cfg : ConvCfg := ⟨2, 3, 2, .valid, false⟩
    let kernel : Ten ℚ := ⟨[2, 2, 1, 1], fun _ => 1⟩
    let d : Ten ℚ := ⟨[1, 1, 2, 2], fun idx => if idx = [0, 0, 0, 1] then 1 else 0⟩
    (outputs 5 2 3 .valid, outputs 5 2 2 .valid) = (2, 2) ∧
    (∀ x : Ten ℚ, x.shape = [1, 1, 5, 5] → ∃ dk db dx : Ten ℚ, convBackward cfg false x kernel d = .ok (dk, db, dx) ∧
      dx.get [0, 0, 0, 2] = 0 ∧ dx.get [0, 0, 0, 4] = 1) ∧
    ∀ x : Ten ℚ, x.shape = [1, 1, 5, 5] → ∃ y : Ten ℚ, convForward cfg x kernel none = some y ∧
      y.get [0, 0, 0, 1] = x.get [0, 0, 0, 2] + x.get [0, 0, 0, 3] + (x.get [0, 0, 1, 2] + x.get [0, 0, 1, 3]) := by
  intro cfg kernel d
  refine ⟨by decide, ?_, ?_⟩
  · intro x hx
    obtain ⟨dk, db, dx, e1, e2, e3, e4, g1, g2, g3⟩ := convBackCore_some cfg false x kernel d 1 1 5 5 1 2 2 (by decide)
      (by decide) (by decide) (by decide) (by decide) (by decide) (by decide) hx rfl rfl (by decide) (by decide)
    refine ⟨dk, db, dx, ?_, ?_, ?_⟩
    · unfold convBackward
      rw [e1]
      simp only
      rw [e2, e4, hx]
      rw [if_pos (by decide)]
    · refine (g3 0 0 0 2 (by decide) (by decide) (by decide) (by decide)).trans ?_
      decide +kernel
    · refine (g3 0 0 0 4 (by decide) (by decide) (by decide) (by decide)).trans ?_
      decide +kernel
  · intro x hx
    obtain ⟨y, e1, e2, e3⟩ := conv_forward cfg x kernel none 1 1 5 5 1
      ⟨by decide, by decide, by decide, by decide, by decide, by decide, by decide, by decide,
        .inr ⟨rfl, by decide, by decide⟩⟩ hx rfl
    refine ⟨y, e1, ?_⟩
    refine (e3 0 0 0 1 (by decide) (by decide) (by decide) (by decide)).trans ?_
    simp [correlation, Finset.sum_range_succ, extend, frontPad, kernel, cfg, ConvCfg.entry]

/-- **The reported output shape** is the shape of the output, for equal strides. -/
theorem conv_shape (cfg : ConvCfg) (n c h w o : ℕ) (H : cfg.Fits n c h w o) (hs : cfg.s0 = cfg.s1) :
    convShape cfg o (cfg.shape n c h w) =
      some (cfg.shape n o (outputs h cfg.k cfg.s0 cfg.pad) (outputs w cfg.k cfg.s1 cfg.pad)) := by
  have hp : ∀ u, cfg.pad ≠ .other u := by rcases H.pad with h | h <;> simp [h]
  have hv : cfg.pad = .valid → cfg.k ≤ h ∧ cfg.k ≤ w := by rcases H.pad with h | h <;> simp [h]
  have o1 := outSize_eq h cfg.k cfg.s0 H.s0pos H.kpos cfg.pad hp (fun e => (hv e).1)
  have o2 := outSize_eq w cfg.k cfg.s0 H.s0pos H.kpos cfg.pad hp (fun e => (hv e).2)
  unfold convShape ConvCfg.shape
  cases hl : cfg.last <;> simp [o1, o2, ← hs]

/-- **The reported output shape is wrong for unequal strides**: the stride of the rows is used for the
columns. For a 5 × 5 image, kernel 1 × 1 and strides (1, 2) the layer reports 5 × 5 and computes 5 × 3. -/
theorem conv_shape_false :
    let cfg : ConvCfg := ⟨1, 1, 2, .valid, false⟩
    convShape cfg 1 [1, 1, 5, 5] = some [1, 1, 5, 5] ∧
      ∀ x kernel : Ten ℚ, x.shape = [1, 1, 5, 5] → kernel.shape = [1, 1, 1, 1] →
        ∃ y, convForward cfg x kernel none = some y ∧ y.shape = [1, 1, 5, 3] := by
  intro cfg
  refine ⟨by decide, ?_⟩
  intro x kernel hx hk
  obtain ⟨y, e1, e2, _⟩ := conv_forward cfg x kernel none 1 1 5 5 1
    ⟨by decide, by decide, by decide, by decide, by decide, by decide, by decide, by decide,
      .inr ⟨rfl, by decide, by decide⟩⟩ hx hk
  exact ⟨y, e1, e2.trans (by decide)⟩

/-! ## A convolutional network -/

/-- `Conv2D` with a rectifier, `Reshape` to vectors, `Dense`. -/
noncomputable def convnet (cfg : ConvCfg) (n c h w o : ℕ) (δ κ : Type) [Fintype δ] [Fintype κ] (bias : Bool) {size : ℕ}
    (e : Fin n × Fin o × Fin (outputs h cfg.k cfg.s0 cfg.pad) × Fin (outputs w cfg.k cfg.s1 cfg.pad) ≃ Fin size)
    (f : Fin n × δ ≃ Fin size) : Seq (Fin n × Fin c × Fin h × Fin w) (Fin n × κ) :=
  .cons inferInstance (conv2D cfg n c h w o .relu bias)
    (.cons inferInstance (reshape e f) (.cons inferInstance (dense n δ κ .none bias) .nil))

theorem Seq.backward_cons_ok {ι κ μ : Type} (apply : ℝ → ℝ → ℝ) (lazy : Bool) (hκ : Fintype κ) (l : Layer ι κ)
    (rest : Seq κ μ) (hl : ∀ w x d, ∃ r, l.backward lazy w x d = .ok r)
    (hr : ∀ w x d, ∃ r, rest.backward apply lazy w x d = .ok r) (w : (Seq.cons hκ l rest).W → ℝ) (x : ι → ℝ) (d : μ → ℝ) :
    ∃ r, (Seq.cons hκ l rest).backward apply lazy w x d = .ok r := by
  simp only [Seq.backward]
  obtain ⟨⟨a, b⟩, h1⟩ := hr (fun i => w (.inr i)) (l.call (fun i => w (.inl i)) x) d
  rw [h1]
  obtain ⟨⟨a', b'⟩, h2⟩ := hl (fun i => w (.inl i)) x b
  simp only
  rw [h2]
  exact ⟨_, rfl⟩

/-- **A convolutional network follows the gradient**: `fit_batch` with the mean squared error moves the
kernel, the bias and the weights behind them by the learning rate times their partial derivatives,
provided no unit of the convolution sits exactly at zero. -/
theorem convnet_descends (cfg : ConvCfg) (n c h w o : ℕ) (H : cfg.Fits n c h w o) (hs : cfg.s0 = cfg.s1)
    (hh : h ≤ covered h cfg.k cfg.s0 cfg.pad) (hw : w ≤ covered w cfg.k cfg.s1 cfg.pad)
    (δ κ : Type) [Fintype δ] [Fintype κ] (bias : Bool) {size : ℕ}
    (e : Fin n × Fin o × Fin (outputs h cfg.k cfg.s0 cfg.pad) × Fin (outputs w cfg.k cfg.s1 cfg.pad) ≃ Fin size)
    (f : Fin n × δ ≃ Fin size) (rate : ℝ) (y : Fin n × κ → ℝ) (x : Fin n × Fin c × Fin h × Fin w → ℝ)
    (ws : (convnet cfg n c h w o δ κ bias e f).W → ℝ)
    (hsm : ∀ i, convCall (m := outputs h cfg.k cfg.s0 cfg.pad) (m' := outputs w cfg.k cfg.s1 cfg.pad) (o := o) cfg bias
      (fun i => ws (Sum.inl i)) x i ≠ 0) :
    ∃ g w' : (convnet cfg n c h w o δ κ bias e f).W → ℝ,
      Gradient (fun ws => ∑ k, mse y ((convnet cfg n c h w o δ κ bias e f).call ws x) k) g ws ∧
      (convnet cfg n c h w o δ κ bias e f).fitBatch (mseGrad y) false rate ws x = .ok w' ∧
      ∀ i, w' i = ws i - g i * rate := by
  have he : (convnet cfg n c h w o δ κ bias e f).Exact inferInstance ws x :=
    ⟨conv2D_exact_partial cfg n c h w o H hs .relu bias (fun i => ws (Sum.inl i)) x hsm,
      reshape_exact e f _ _, dense_exact n δ κ .none bias true (fun i => ws (Sum.inr (Sum.inr (Sum.inl i)))) _ trivial,
      trivial⟩
  have hok : ∃ w', (convnet cfg n c h w o δ κ bias e f).fitBatch (mseGrad y) false rate ws x = .ok w' := by
    have h3 : ∀ w x d, ∃ r, (dense n δ κ .none bias).backward false w x d = .ok r := fun w x d => ⟨_, rfl⟩
    have h2 : ∀ w x d, ∃ r, (reshape e f).backward false w x d = .ok r := fun w x d => ⟨_, rfl⟩
    have h1 : ∀ v x d, ∃ r, (conv2D cfg n c h w o .relu bias).backward false v x d = .ok r :=
      fun v x d => ⟨_, convBack_eq cfg n c h w o H hs bias false _ x _ hh hw⟩
    obtain ⟨r, hr⟩ := Seq.backward_cons_ok (fun w g => w - g * rate) false inferInstance _ _ h1
      (Seq.backward_cons_ok (fun w g => w - g * rate) false inferInstance _ _ h2
        (Seq.backward_cons_ok (fun w g => w - g * rate) false inferInstance _ .nil h3 fun w x d => ⟨_, rfl⟩))
      ws x (mseGrad y ((convnet cfg n c h w o δ κ bias e f).call ws x))
    exact ⟨r.1, congrArg (Except.map Prod.fst) hr⟩
  obtain ⟨w', hw'⟩ := hok
  obtain ⟨g, h1, -, h3⟩ := fitBatch_descends _ (convnet cfg n c h w o δ κ bias e f) (fun p => ∑ k, mse y p k) (mseGrad y)
    rate ws w' x he (mse_gradient y _) hw'
  exact ⟨g, w', h1, hw', h3⟩

/-- The conditions are met by the layer of the repository's examples: 28 × 28 images, one channel,
kernel 3 × 3, stride 1, SAME padding, and by kernel 5 × 5, stride 2, SAME padding. -/
example : (ConvCfg.mk 3 1 1 .same true).Fits 128 1 28 28 16 ∧ 28 ≤ covered 28 3 1 .same ∧ 28 ≤ covered 28 5 2 .same :=
  ⟨⟨by decide, by decide, by decide, by decide, by decide, by decide, by decide, by decide, .inl rfl⟩,
    covered_same 28 3 1 (by decide) (by decide) (by decide), covered_same 28 5 2 (by decide) (by decide) (by decide)⟩

end Verif.Keras
