import Verif.Convert.LayerGradPool
import Verif.Convert.NodesConv
import Verif.Keras.ConvProps

/-!
# C79: gradients of the convolution node
-/

namespace Verif.Convert

open Verif.Tensor Verif.Keras Verif.Convert.Onnx

/-! ## Padding -/

section
variable {n c h w : ℕ} (P : Pads)

/-- The padded image. -/
def padRead (x : Fin n × Fin c × Fin h × Fin w → ℝ) (q : Fin n × Fin c × Fin (P.p2 + h + P.p0) × Fin (P.p1 + w + P.p3)) : ℝ :=
  if hq : P.p2 ≤ (q.2.2.1 : ℕ) ∧ (q.2.2.1 : ℕ) < P.p2 + h ∧ P.p1 ≤ (q.2.2.2 : ℕ) ∧ (q.2.2.2 : ℕ) < P.p1 + w then
    x (q.1, q.2.1, ⟨q.2.2.1 - P.p2, by omega⟩, ⟨q.2.2.2 - P.p1, by omega⟩) else 0

/-- Where a pixel is in the padded image. -/
def padAt (i : Fin n × Fin c × Fin h × Fin w) : Fin n × Fin c × Fin (P.p2 + h + P.p0) × Fin (P.p1 + w + P.p3) :=
  (i.1, i.2.1, ⟨P.p2 + i.2.2.1, by omega⟩, ⟨P.p1 + i.2.2.2, by omega⟩)

theorem padRead_at (x : Fin n × Fin c × Fin h × Fin w → ℝ) (i : Fin n × Fin c × Fin h × Fin w) : padRead P x (padAt P i) = x i := by
  unfold padRead padAt
  rw [dif_pos ⟨by simp, by simp, by simp, by simp⟩]
  congr 1
  exact Prod.ext rfl (Prod.ext rfl (Prod.ext (Fin.ext (by simp)) (Fin.ext (by simp))))

theorem padAt_inj : Function.Injective (padAt P : Fin n × Fin c × Fin h × Fin w → _) := by
  intro i j e
  unfold padAt at e
  simp only [Prod.mk.injEq, Fin.mk.injEq] at e
  exact Prod.ext e.1 (Prod.ext e.2.1 (Prod.ext (Fin.ext (by omega)) (Fin.ext (by omega))))

theorem padRead_sum (g : Fin n × Fin c × Fin (P.p2 + h + P.p0) × Fin (P.p1 + w + P.p3) → ℝ) (u : Fin n × Fin c × Fin h × Fin w → ℝ) :
    ∑ q, g q * padRead P u q = ∑ i, g (padAt P i) * u i := by
  symm
  refine Fintype.sum_of_injective (padAt P) (padAt_inj P) _ _ (fun q hq => ?_) (fun i => by rw [padRead_at])
  unfold padRead
  rw [dif_neg, mul_zero]
  rintro ⟨h1, h2, h3, h4⟩
  refine hq ⟨(q.1, q.2.1, ⟨q.2.2.1 - P.p2, by omega⟩, ⟨q.2.2.2 - P.p1, by omega⟩), ?_⟩
  exact Prod.ext rfl (Prod.ext rfl (Prod.ext (Fin.ext (Nat.add_sub_of_le h1)) (Fin.ext (Nat.add_sub_of_le h3))))

theorem padRead_moves {χ : ℝ → Fin n × Fin c × Fin h × Fin w → ℝ} {u : Fin n × Fin c × Fin h × Fin w → ℝ} {t : ℝ} (hm : Moves χ u t) :
    Moves (fun s => padRead P (χ s)) (padRead P u) t := by
  intro q
  by_cases hq : P.p2 ≤ (q.2.2.1 : ℕ) ∧ (q.2.2.1 : ℕ) < P.p2 + h ∧ P.p1 ≤ (q.2.2.2 : ℕ) ∧ (q.2.2.2 : ℕ) < P.p1 + w
  · have e (x : Fin n × Fin c × Fin h × Fin w → ℝ) : padRead P x q =
        x (q.1, q.2.1, ⟨q.2.2.1 - P.p2, by omega⟩, ⟨q.2.2.2 - P.p1, by omega⟩) := dif_pos hq
    simp only [e]
    exact hm _
  · have e (x : Fin n × Fin c × Fin h × Fin w → ℝ) : padRead P x q = 0 := dif_neg hq
    simp only [e]
    exact hasDerivAt_const _ _

/-- The gradient of a layer on the padded image, cut out. -/
theorem exact_pad {ω κ : Type} [Fintype ω] [Fintype κ]
    {call : (ω → ℝ) → (Fin n × Fin c × Fin (P.p2 + h + P.p0) × Fin (P.p1 + w + P.p3) → ℝ) → κ → ℝ} {ws : ω → ℝ}
    {x : Fin n × Fin c × Fin h × Fin w → ℝ} {d : κ → ℝ} {gw : ω → ℝ}
    {gx : Fin n × Fin c × Fin (P.p2 + h + P.p0) × Fin (P.p1 + w + P.p3) → ℝ}
    (he : ExactAt call ws (padRead P x) d gw gx) : ExactAt (fun ws x => call ws (padRead P x)) ws x d gw (fun i => gx (padAt P i)) := by
  intro γ v χ u t h1 h2 h3 h4
  obtain ⟨y, e1, e2⟩ := he γ v (fun s => padRead P (χ s)) (padRead P u) t h1 h2 (by rw [h3]) (padRead_moves P h4)
  exact ⟨y, e1, by rw [e2, padRead_sum]⟩

/-- The padded tensor. -/
theorem padImage_read (p : Option Pads) (Z : Ten ℝ) (hZ : Z.shape = [n, c, h, w]) :
    ∃ z, padImage p Z = .ok z ∧ z.shape = [n, c, (padded p).p2 + h + (padded p).p0, (padded p).p1 + w + (padded p).p3] ∧
      (num4 n c ((padded p).p2 + h + (padded p).p0) ((padded p).p1 + w + (padded p).p3)).read z =
        padRead (padded p) ((num4 n c h w).read Z) := by
  obtain ⟨z, e1, e2, e3⟩ := padImage_some p Z n c h w hZ
  refine ⟨z, e1, e2, ?_⟩
  funext q
  refine (e3 q.1 q.2.1 q.1.2 q.2.1.2 q.2.2.1 q.2.2.2 q.2.2.1.2 q.2.2.2.2).trans ?_
  unfold padRead
  by_cases hq : (padded p).p2 ≤ (q.2.2.1 : ℕ) ∧ (q.2.2.1 : ℕ) < (padded p).p2 + h ∧ (padded p).p1 ≤ (q.2.2.2 : ℕ) ∧
      (q.2.2.2 : ℕ) < (padded p).p1 + w
  · rw [if_pos hq, dif_pos hq]; rfl
  · rw [if_neg hq, dif_neg hq]

/-- Cutting the gradient out. -/
theorem cutImage_read (p : Option Pads) (t : Ten ℝ)
    (ht : t.shape = [n, c, (padded p).p2 + h + (padded p).p0, (padded p).p1 + w + (padded p).p3]) :
    (cutImage p t).shape = [n, c, h, w] ∧ (num4 n c h w).read (cutImage p t) = fun i =>
      (num4 n c ((padded p).p2 + h + (padded p).p0) ((padded p).p1 + w + (padded p).p3)).read t (padAt (padded p) i) := by
  cases p with
  | none =>
      refine ⟨by show t.shape = _; simpa [padded] using ht, ?_⟩
      funext i
      show t.get [(i.1 : ℕ), (i.2.1 : ℕ), (i.2.2.1 : ℕ), (i.2.2.2 : ℕ)] =
        t.get [(i.1 : ℕ), (i.2.1 : ℕ), 0 + (i.2.2.1 : ℕ), 0 + (i.2.2.2 : ℕ)]
      rw [zero_add, zero_add]
  | some p =>
      refine ⟨?_, ?_⟩
      · unfold cutImage crop
        simp only [ht, padded, Option.getD_some]
        simp
      · funext i
        show t.get [(i.1 : ℕ), (i.2.1 : ℕ), (i.2.2.1 : ℕ) + p.p2, (i.2.2.2 : ℕ) + p.p1] =
          t.get [(i.1 : ℕ), (i.2.1 : ℕ), p.p2 + (i.2.2.1 : ℕ), p.p1 + (i.2.2.2 : ℕ)]
        rw [Nat.add_comm _ p.p2, Nat.add_comm _ p.p1]

end

/-! ## Tensors and indexed tensors -/

section
variable {n c h w o k s : ℕ}

theorem conv_tensor (H : (⟨k, s, s, .valid, false⟩ : ConvCfg).Fits n c h w o) (bias : Bool) (z K B : Ten ℝ)
    (hz : z.shape = [n, c, h, w]) (hK : K.shape = [k, k, c, o]) :
    ∃ Y, convForward ⟨k, s, s, .valid, false⟩ z K (if bias then some B else none) = some Y ∧
      Y.shape = [n, o, outputs h k s .valid, outputs w k s .valid] ∧
      ∀ j, Y.get ((num4 n o (outputs h k s .valid) (outputs w k s .valid)).at_ j) =
        convCall ⟨k, s, s, .valid, false⟩ bias (readWeights (num4 k k c o) (num111 o) bias K B) ((num4 n c h w).read z) j := by
  obtain ⟨Y, e1, e2, e3⟩ := conv_forward ⟨k, s, s, .valid, false⟩ z K (if bias then some B else none) n c h w o H hz hK
  refine ⟨Y, e1, e2, fun i => ?_⟩
  obtain ⟨Y', f1, _, f3⟩ := conv_forward ⟨k, s, s, .valid, false⟩ ((⟨k, s, s, .valid, false⟩ : ConvCfg).tensor ((num4 n c h w).read z))
    (kernelTensor (readWeights (num4 k k c o) (num111 o) bias K B)) (biasTensor bias (readWeights (num4 k k c o) (num111 o) bias K B))
    n c h w o H rfl rfl
  unfold convCall
  rw [f1]
  refine (e3 i.1 i.2.1 i.2.2.1 i.2.2.2 i.1.2 i.2.1.2 i.2.2.1.2 i.2.2.2.2).trans
    (Eq.trans ?_ (f3 i.1 i.2.1 i.2.2.1 i.2.2.2 i.1.2 i.2.1.2 i.2.2.1.2 i.2.2.2.2).symm)
  congr 1
  · unfold correlation
    refine Finset.sum_congr rfl fun a ha => Finset.sum_congr rfl fun a' ha' => Finset.sum_congr rfl fun r hr => ?_
    rw [Finset.mem_range] at ha ha' hr
    refine congrArg₂ (· * ·) ?_ ?_
    · exact (at4_fin (fun i => readWeights (num4 k k c o) (num111 o) bias K B (.inl i)) ⟨a, ha⟩ ⟨a', ha'⟩ ⟨r, hr⟩ i.2.1).symm
    · refine extend_congr h w _ _ _ _ fun y u hy hu => ?_
      exact (at4_fin ((num4 n c h w).read z) i.1 ⟨r, hr⟩ ⟨y, hy⟩ ⟨u, hu⟩).symm
  · cases bias with
    | false => rfl
    | true =>
        show B.get [(i.2.1 : ℕ), 0, 0] = if h : (i.2.1 : ℕ) < o then _ else 0
        rw [dif_pos i.2.1.2]
        rfl

theorem conv_back_tensor (H : (⟨k, s, s, .valid, false⟩ : ConvCfg).Fits n c h w o) (bias : Bool) (z K B D : Ten ℝ)
    (hz : z.shape = [n, c, h, w]) (hK : K.shape = [k, k, c, o]) (hD : D.shape = [n, o, outputs h k s .valid, outputs w k s .valid])
    (hh : h ≤ covered h k s .valid) (hw : w ≤ covered w k s .valid) :
    ∃ dK dB dz : Ten ℝ, convBackward ⟨k, s, s, .valid, false⟩ false z K D = .ok (dK, dB, dz) ∧ dK.shape = [k, k, c, o] ∧
      dB.shape = [o, 1, 1] ∧ dz.shape = [n, c, h, w] ∧
      convBack ⟨k, s, s, .valid, false⟩ bias false (readWeights (num4 k k c o) (num111 o) bias K B) ((num4 n c h w).read z)
        ((num4 n o (outputs h k s .valid) (outputs w k s .valid)).read D) =
        .ok (readWeights (num4 k k c o) (num111 o) bias dK dB, (num4 n c h w).read dz) := by
  have T := conv_backward_total ⟨k, s, s, .valid, false⟩ false z K D n c h w o H rfl hz hK hD
  rw [if_pos ⟨hh, hw⟩] at T
  obtain ⟨dK, dB, dz, t1, t2, t3, t4⟩ := T
  refine ⟨dK, dB, dz, t1, t2, t3, t4, ?_⟩
  have hm := H.m
  have hm' := H.m'
  have p0 := (⟨k, s, s, .valid, false⟩ : ConvCfg).padH_total h H.s0pos H.kpos H.hpos H.padh
  have p1 := (⟨k, s, s, .valid, false⟩ : ConvCfg).padW_total w H.s1pos H.kpos H.wpos H.padw
  have hk0 : 0 < k := H.kpos
  have hc0 : covered h k s .valid = (outputs h k s .valid - 1) * s + k := rfl
  have hc1 : covered w k s .valid = (outputs w k s .valid - 1) * s + k := rfl
  have hpH : (⟨k, s, s, .valid, false⟩ : ConvCfg).padH h = (0, 0) := rfl
  have hpW : (⟨k, s, s, .valid, false⟩ : ConvCfg).padW w = (0, 0) := rfl
  obtain ⟨ek, eb, ex, e1, e2, e3, e4, g1, g2, g3⟩ := convBackCore_some ⟨k, s, s, .valid, false⟩ false z K D n c h w o _ _ H.s0pos H.kpos
    H.npos H.cpos H.opos hm hm' hz hK hD (by dsimp only at *; omega) (by dsimp only at *; omega)
  have heq : convBackward ⟨k, s, s, .valid, false⟩ false z K D = .ok (ek, eb, ex) := by
    unfold convBackward at t1 ⊢
    rw [e1] at t1 ⊢
    simp only at t1 ⊢
    split_ifs at t1 ⊢ with hc
    rfl
  rw [heq] at t1
  obtain ⟨rfl, rfl, rfl⟩ : ek = dK ∧ eb = dB ∧ ex = dz := by
    have := Except.ok.inj t1
    simpa using this
  have hDat (b q i j : ℕ) (hb : b < n) (hq : q < o) (hi : i < outputs h k s .valid) (hj : j < outputs w k s .valid) :
      (⟨k, s, s, .valid, false⟩ : ConvCfg).entry ((⟨k, s, s, .valid, false⟩ : ConvCfg).tensor
        ((num4 n o (outputs h k s .valid) (outputs w k s .valid)).read D)) b q i j =
      (⟨k, s, s, .valid, false⟩ : ConvCfg).entry D b q i j :=
    at4_fin ((num4 n o (outputs h k s .valid) (outputs w k s .valid)).read D) ⟨b, hb⟩ ⟨q, hq⟩ ⟨i, hi⟩ ⟨j, hj⟩
  have hzat (b r y x : ℕ) (hb : b < n) (hr : r < c) (hy : y < h) (hx : x < w) :
      (⟨k, s, s, .valid, false⟩ : ConvCfg).entry ((⟨k, s, s, .valid, false⟩ : ConvCfg).tensor ((num4 n c h w).read z)) b r y x =
      (⟨k, s, s, .valid, false⟩ : ConvCfg).entry z b r y x :=
    at4_fin ((num4 n c h w).read z) ⟨b, hb⟩ ⟨r, hr⟩ ⟨y, hy⟩ ⟨x, hx⟩
  have hKat (a a' r q : ℕ) (ha : a < k) (ha' : a' < k) (hr : r < c) (hq : q < o) :
      (kernelTensor (readWeights (num4 k k c o) (num111 o) bias K B)).get [a, a', r, q] = K.get [a, a', r, q] :=
    at4_fin (fun i => readWeights (num4 k k c o) (num111 o) bias K B (.inl i)) ⟨a, ha⟩ ⟨a', ha'⟩ ⟨r, hr⟩ ⟨q, hq⟩
  have T' := conv_backward_total ⟨k, s, s, .valid, false⟩ false ((⟨k, s, s, .valid, false⟩ : ConvCfg).tensor ((num4 n c h w).read z))
    (kernelTensor (readWeights (num4 k k c o) (num111 o) bias K B)) ((⟨k, s, s, .valid, false⟩ : ConvCfg).tensor
        ((num4 n o (outputs h k s .valid) (outputs w k s .valid)).read D)) n c h w o H rfl rfl rfl rfl
  rw [if_pos ⟨hh, hw⟩] at T'
  obtain ⟨dK', dB', dz', t1', _, _, _⟩ := T'
  obtain ⟨ek', eb', ex', e1', e2', e3', e4', g1', g2', g3'⟩ := convBackCore_some ⟨k, s, s, .valid, false⟩ false
    ((⟨k, s, s, .valid, false⟩ : ConvCfg).tensor ((num4 n c h w).read z))
    (kernelTensor (readWeights (num4 k k c o) (num111 o) bias K B)) ((⟨k, s, s, .valid, false⟩ : ConvCfg).tensor
        ((num4 n o (outputs h k s .valid) (outputs w k s .valid)).read D)) n c h w o _ _ H.s0pos H.kpos
    H.npos H.cpos H.opos hm hm' rfl rfl rfl (by dsimp only at *; omega) (by dsimp only at *; omega)
  have heq' : convBackward ⟨k, s, s, .valid, false⟩ false ((⟨k, s, s, .valid, false⟩ : ConvCfg).tensor ((num4 n c h w).read z))
    (kernelTensor (readWeights (num4 k k c o) (num111 o) bias K B)) ((⟨k, s, s, .valid, false⟩ : ConvCfg).tensor
        ((num4 n o (outputs h k s .valid) (outputs w k s .valid)).read D)) = .ok (ek', eb', ex') := by
    unfold convBackward at t1' ⊢
    rw [e1'] at t1' ⊢
    simp only at t1' ⊢
    split_ifs at t1' ⊢ with hc
    rfl
  unfold convBack
  rw [heq']
  dsimp only [hpH, hpW] at *
  refine congrArg Except.ok (Prod.ext ?_ ?_)
  · funext i
    cases i with
    | inl i =>
      refine (g1' i.1 i.2.1 i.2.2.1 i.2.2.2 (by omega) (by omega) i.2.2.1.2 i.2.2.2.2).trans
        (Eq.trans ?_ (g1 i.1 i.2.1 i.2.2.1 i.2.2.2 (by omega) (by omega) i.2.2.1.2 i.2.2.2.2).symm)
      congr 1
      refine Finset.sum_congr rfl fun a ha => Finset.sum_congr rfl fun a' ha' => Finset.sum_congr rfl fun b hb => ?_
      rw [Finset.mem_range] at ha ha' hb
      rw [hDat b _ a a' hb i.2.2.2.2 ha ha']
      congr 1
      exact extend_congr h w _ _ _ _ fun y x hy hx => hzat b _ y x hb i.2.2.1.2 hy hx
    | inr i =>
      refine (g2' i.1).trans (Eq.trans ?_ (g2 i.1).symm)
      congr 1
      refine Finset.sum_congr rfl fun a ha => Finset.sum_congr rfl fun a' ha' => Finset.sum_congr rfl fun b hb => ?_
      rw [Finset.mem_range] at ha ha' hb
      rw [hDat b _ a a' hb i.1.2 ha ha']
  · funext i
    refine (g3' i.1 i.2.1 i.2.2.1 i.2.2.2 i.1.2 i.2.1.2 (by omega) (by omega)).trans
      (Eq.trans ?_ (g3 i.1 i.2.1 i.2.2.1 i.2.2.2 i.1.2 i.2.1.2 (by omega) (by omega)).symm)
    refine Finset.sum_congr rfl fun a ha => Finset.sum_congr rfl fun a' ha' => Finset.sum_congr rfl fun q hq => ?_
    rw [Finset.mem_range] at ha ha' hq
    rw [hKat a a' _ q ha ha' i.2.1.2 hq]
    congr 1
    refine Finset.sum_congr rfl fun y hy => Finset.sum_congr rfl fun x hx => ?_
    rw [Finset.mem_range] at hy hx
    rw [hDat _ q y x i.1.2 hq hy hx]

end

/-! ## The node -/

section
variable {n c h w o k s : ℕ} {p : Option Pads}

theorem convNodeForward_ok
    (H : (⟨k, s, s, .valid, false⟩ : ConvCfg).Fits n c ((padded p).p2 + h + (padded p).p0) ((padded p).p1 + w + (padded p).p3) o)
    (bias : Bool) (K B Z : Ten ℝ) (hK : K.shape = [k, k, c, o]) (hZ : Z.shape = [n, c, h, w]) :
    ∃ Y, convNodeForward ⟨k, s, s, .valid, false⟩ p K (if bias then some B else none) [Z] = .ok [Y] ∧
      Y.shape = [n, o, outputs ((padded p).p2 + h + (padded p).p0) k s .valid, outputs ((padded p).p1 + w + (padded p).p3) k s .valid] ∧
      ∀ j, Y.get ((num4 n o (outputs ((padded p).p2 + h + (padded p).p0) k s .valid)
          (outputs ((padded p).p1 + w + (padded p).p3) k s .valid)).at_ j) =
        convCall ⟨k, s, s, .valid, false⟩ bias (readWeights (num4 k k c o) (num111 o) bias K B)
          (padRead (padded p) ((num4 n c h w).read Z)) j := by
  obtain ⟨z, e1, e2, e3⟩ := padImage_read p Z hZ
  obtain ⟨Y, f1, f2, f3⟩ := conv_tensor H bias z K B e2 hK
  refine ⟨Y, ?_, f2, fun j => by rw [f3, e3]⟩
  show ((padImage p Z).bind _) = _
  rw [e1]
  show ((orShape (convForward ⟨k, s, s, .valid, false⟩ z K (if bias then some B else none))).bind _) = _
  rw [f1]
  rfl

theorem convNodeBack_ok
    (H : (⟨k, s, s, .valid, false⟩ : ConvCfg).Fits n c ((padded p).p2 + h + (padded p).p0) ((padded p).p1 + w + (padded p).p3) o)
    (bias : Bool) (K B X D : Ten ℝ) (hK : K.shape = [k, k, c, o]) (hX : X.shape = [n, c, h, w])
    (hD : D.shape = [n, o, outputs ((padded p).p2 + h + (padded p).p0) k s .valid, outputs ((padded p).p1 + w + (padded p).p3) k s .valid])
    (hh : (padded p).p2 + h + (padded p).p0 ≤ covered ((padded p).p2 + h + (padded p).p0) k s .valid)
    (hw : (padded p).p1 + w + (padded p).p3 ≤ covered ((padded p).p1 + w + (padded p).p3) k s .valid) :
    ∃ dK dB dX : Ten ℝ, convNodeBack ⟨k, s, s, .valid, false⟩ p K bias X [D] = .ok (dK :: (if bias then [dB] else []), [dX]) ∧
      dK.shape = [k, k, c, o] ∧ dB.shape = [o, 1, 1] ∧ dX.shape = [n, c, h, w] ∧
      ExactAt (fun ws x => convCall ⟨k, s, s, .valid, false⟩ bias ws (padRead (padded p) x))
        (readWeights (num4 k k c o) (num111 o) bias K B) ((num4 n c h w).read X)
        ((num4 n o (outputs ((padded p).p2 + h + (padded p).p0) k s .valid) (outputs ((padded p).p1 + w + (padded p).p3) k s .valid)).read D)
        (readWeights (num4 k k c o) (num111 o) bias dK dB) ((num4 n c h w).read dX) := by
  obtain ⟨z, e1, e2, e3⟩ := padImage_read p X hX
  obtain ⟨dK, dB, dz, f1, f2, f3, f4, f5⟩ := conv_back_tensor H bias z K B D e2 hK hD hh hw
  obtain ⟨c1, c2⟩ := cutImage_read p dz f4
  refine ⟨dK, dB, cutImage p dz, ?_, f2, f3, c1, ?_⟩
  · show ((padImage p X).bind _) = _
    rw [e1]
    show ((ofLayer (convBackward ⟨k, s, s, .valid, false⟩ false z K D)).bind _) = _
    rw [f1]
    rfl
  · rw [c2]
    refine exact_pad (padded p) ?_
    rw [e3] at f5
    exact conv_exact ⟨k, s, s, .valid, false⟩ n c _ _ o H rfl bias _ _ _ _ _ f5

/-- **C79 (convolutions).** For all weights of the layer of `Conv2dNode`, all images and paddings: if the windows cover the
padded image `backward` returns the gradients of the kernel, of the bias if there is one, and of the input, otherwise
it raises. -/
theorem conv_layer_gradient (p : Option Pads) (K X dY : Ten ℝ) (b : Option (Ten ℝ)) (n c h w o k s : ℕ) (hs : 0 < s) (hk : 0 < k)
    (hn : 0 < n) (hc : 0 < c) (ho : 0 < o) (hh : k ≤ (padded p).p2 + h + (padded p).p0) (hw : k ≤ (padded p).p1 + w + (padded p).p3)
    (hK : K.shape = [k, k, c, o]) (hb : ∀ t, b = some t → t.shape = [o, 1, 1]) (hX : X.shape = [n, c, h, w])
    (hd : dY.shape = [n, o, outputs ((padded p).p2 + h + (padded p).p0) k s .valid,
      outputs ((padded p).p1 + w + (padded p).p3) k s .valid]) :
    if s ∣ (padded p).p2 + h + (padded p).p0 - k ∧ s ∣ (padded p).p1 + w + (padded p).p3 - k then
      ∃ dK dbs dX, convNodeBack ⟨k, s, s, .valid, false⟩ p K b.isSome X [dY] = .ok (dK :: dbs, [dX]) ∧
        IsGradientOf (ofWeights (convNodeForward ⟨k, s, s, .valid, false⟩ p) b.isSome) (K :: b.toList ++ [X]) [dY] (dK :: dbs ++ [dX])
    else convNodeBack ⟨k, s, s, .valid, false⟩ p K b.isSome X [dY] = .error .assertion := by
  have H : (⟨k, s, s, .valid, false⟩ : ConvCfg).Fits n c ((padded p).p2 + h + (padded p).p0) ((padded p).p1 + w + (padded p).p3) o :=
    ⟨hk, hs, hs, hn, hc, ho, by omega, by omega, .inr ⟨rfl, hh, hw⟩⟩
  split_ifs with hcov <;> rw [← covers_iff hs hk hh, ← covers_iff hs hk hw] at hcov
  · cases b with
    | none =>
        obtain ⟨dK, dB, dX, e1, e2, e3, e4, e5⟩ := convNodeBack_ok H false K K X dY hK hX hd hcov.1 hcov.2
        refine ⟨dK, [], dX, e1, ?_⟩
        exact gradient_kernel (num4 k k c o) (num111 o) (num4 n c h w) (num4 n o _ _) (convNodeForward ⟨k, s, s, .valid, false⟩ p)
          (fun ws x => convCall ⟨k, s, s, .valid, false⟩ false ws (padRead (padded p) x)) K K X dY dK dB dX hK hX hd e2 e4
          (fun K' Z h1 h2 => convNodeForward_ok H false K' K Z h1 h2) e5
    | some B =>
        obtain ⟨dK, dB, dX, e1, e2, e3, e4, e5⟩ := convNodeBack_ok H true K B X dY hK hX hd hcov.1 hcov.2
        refine ⟨dK, [dB], dX, e1, ?_⟩
        exact gradient_bias (num4 k k c o) (num111 o) (num4 n c h w) (num4 n o _ _) (convNodeForward ⟨k, s, s, .valid, false⟩ p)
          (fun ws x => convCall ⟨k, s, s, .valid, false⟩ true ws (padRead (padded p) x)) K B X dY dK dB dX hK (hb B rfl) hX hd e2 e3 e4
          (fun K' B' Z h1 _ h2 => convNodeForward_ok H true K' B' Z h1 h2) e5
  · obtain ⟨z, e1, e2, e3⟩ := padImage_read p X hX
    have T := conv_backward_total ⟨k, s, s, .valid, false⟩ false z K dY n c _ _ o H rfl e2 hK hd
    rw [if_neg hcov] at T
    show ((padImage p X).bind _) = _
    rw [e1]
    show ((ofLayer (convBackward ⟨k, s, s, .valid, false⟩ false z K dY)).bind _) = _
    rw [T]
    rfl

/-- The bias of the layer. -/
theorem convBias_layer (b : Option (Ten ℝ)) (o : ℕ) (hb : ∀ t, b = some t → t.shape = [o]) :
    ∃ v, putBias (b.map expandBias) [o, 1, 1] = .ok v ∧ (∀ t, v = some t → t.shape = [o, 1, 1]) ∧ v.isSome = b.isSome ∧
      ∀ q, q < o → biasOf v q = Onnx.vecAt b q := by
  obtain ⟨v, e1, e2⟩ := bias_expand b o hb
  refine ⟨v, e1, ?_, ?_, e2⟩
  · cases b with
    | none => intro t ht; cases e1; cases ht
    | some u =>
        have hs : (expandBias u).shape = [1, o, 1, 1] := by simp [expandBias, hb u rfl]
        have e : putBias ((some u).map expandBias) [o, 1, 1] =
            .ok (some ⟨[o, 1, 1], fun idx => (expandBias u).get (unflat [1, o, 1, 1] (flat [o, 1, 1] idx))⟩) := by
          show (putWeight (expandBias u) [o, 1, 1]).map some = _
          unfold putWeight Tensor.reshape
          rw [hs, if_pos (by simp)]
          rfl
        rw [e] at e1
        intro t ht
        rw [← Except.ok.inj e1] at ht
        rw [← Option.some.inj ht]
  · cases b with
    | none => cases e1; rfl
    | some u =>
        cases v with
        | some _ => rfl
        | none =>
            exfalso
            have e1 : (putWeight (expandBias u) [o, 1, 1]).map some = .ok none := e1
            cases hp : putWeight (expandBias u) [o, 1, 1] with
            | error e => rw [hp] at e1; cases e1
            | ok t => rw [hp] at e1; cases e1

theorem argGrad {f : List (Ten ℝ) → Except NErr (List (Ten ℝ))} {g : Ten ℝ → Option (Ten ℝ) → List (Ten ℝ) → Except NErr (List (Ten ℝ))}
    {K X dY dX dK : Ten ℝ} {b : Option (Ten ℝ)} {dbs : List (Ten ℝ)} (e : f = g K b)
    (h : IsGradientOf (ofWeights g b.isSome) (K :: b.toList ++ [X]) [dY] (dK :: dbs ++ [dX])) : IsGradientOf f [X] [dY] [dX] := by
  subst e
  cases b with
  | none =>
      obtain rfl : dbs = [] := by
        have := h.1
        match dbs, this with
        | [], _ => rfl
        | [_], .cons _ (.cons _ h) => cases h
        | _ :: _ :: _, .cons _ (.cons _ h) => cases h
      exact IsGradientOf.kernel_input h
  | some B =>
      obtain ⟨dB, rfl⟩ : ∃ dB, dbs = [dB] := by
        have := h.1
        match dbs, this with
        | [], .cons _ (.cons _ h) => cases h
        | [dB], _ => exact ⟨dB, rfl⟩
        | _ :: _ :: [], .cons _ (.cons _ (.cons _ h)) => cases h
        | _ :: _ :: _ :: _, .cons _ (.cons _ (.cons _ h)) => cases h
      exact IsGradientOf.bias_input h

/-- **C79 (Conv without groups).** The node has a kernel with the entries of the constant and a bias with those of the
third input, if there is one. If the windows cover the padded image `backward` returns the gradients of these weights
and of the input, otherwise it raises. -/
theorem conv_gradient {as : List Attr} {n c h w o k s : ℕ} {p : Option Pads} (A : ConvAttrs as 1 s s p) (hs : 0 < s) (hk : 0 < k)
    (hn : 0 < n) (hc : 0 < c) (ho : 0 < o) (hh : k ≤ (padded p).p2 + h + (padded p).p0) (hw : k ≤ (padded p).p1 + w + (padded p).p3)
    (W X dY : Ten ℝ) (b : Option (Ten ℝ)) (hW : W.shape = [o, c, k, k]) (hb : ∀ t, b = some t → t.shape = [o])
    (hX : X.shape = [n, c, h, w]) (hd : dY.shape = [n, o, outputs ((padded p).p2 + h + (padded p).p0) k s .valid,
      outputs ((padded p).p1 + w + (padded p).p3) k s .valid]) :
    ∃ nd K B, convNode as (.shape [-1, (c : ℤ), (h : ℤ), (w : ℤ)] :: .real W :: biasInput b) = .ok nd ∧
      nd.forward = convNodeForward ⟨k, s, s, .valid, false⟩ p K B ∧
      (∀ a a' r q, a < k → a' < k → r < c → q < o → K.get [a, a', r, q] = W.get [q, r, a, a']) ∧ B.isSome = b.isSome ∧
      (∀ q, q < o → biasOf B q = Onnx.vecAt b q) ∧
      if s ∣ (padded p).p2 + h + (padded p).p0 - k ∧ s ∣ (padded p).p1 + w + (padded p).p3 - k then
        ∃ dK dbs dX, convNodeBack ⟨k, s, s, .valid, false⟩ p K b.isSome X [dY] = .ok (dK :: dbs, [dX]) ∧
          IsGradientOf (ofWeights (convNodeForward ⟨k, s, s, .valid, false⟩ p) b.isSome) (K :: B.toList ++ [X]) [dY] (dK :: dbs ++ [dX]) ∧
          IsGradientOf nd.forward [X] [dY] [dX]
      else convNodeBack ⟨k, s, s, .valid, false⟩ p K b.isSome X [dY] = .error .assertion := by
  obtain ⟨K, ek, hKs, hKg⟩ := putWeight_same (kernelOf W k c o) [k, k, c, o] rfl
  obtain ⟨B, eb, hBs, hBi, hBg⟩ := convBias_layer b o hb
  have o1 := outSize_eq ((padded p).p0 + h + (padded p).p2) k s hs hk .valid (by simp) (fun _ => by omega)
  have o2 := outSize_eq ((padded p).p1 + w + (padded p).p3) k s hs hk .valid (by simp) (fun _ => hw)
  obtain ⟨d, ed⟩ : ∃ d, declare (-1) (convShape ⟨k, s, s, .valid, false⟩ o
      [0, c, (padded p).p0 + h + (padded p).p2, (padded p).p1 + w + (padded p).p3]) = .ok [d] := by
    have : convShape ⟨k, s, s, .valid, false⟩ o [0, c, (padded p).p0 + h + (padded p).p2, (padded p).p1 + w + (padded p).p3] =
        some [0, o, outputs ((padded p).p0 + h + (padded p).p2) k s .valid, outputs ((padded p).p1 + w + (padded p).p3) k s .valid] := by
      simp [convShape, o1, o2]
    rw [this]
    exact ⟨_, rfl⟩
  refine ⟨⟨[d], convNodeForward ⟨k, s, s, .valid, false⟩ p K B⟩, K, B, ?_, rfl, ?_, hBi, hBg, ?_⟩
  · rw [convNode_layer A W b hW, if_pos rfl]
    unfold plainLayer
    simp only []
    rw [ek, eb, ed]
    rfl
  · intro a a' r q h1 h2 h3 h4
    rw [hKg [a, a', r, q] ⟨h1, h2, h3, h4, trivial⟩]
    rfl
  · have G := conv_layer_gradient p K X dY B n c h w o k s hs hk hn hc ho hh hw hKs hBs hX hd
    rw [hBi] at G
    split_ifs at G ⊢ with hcov
    · obtain ⟨dK, dbs, dX, g1, g2⟩ := G
      exact ⟨dK, dbs, dX, g1, g2, argGrad (K := K) (b := B) rfl (by rw [hBi]; exact g2)⟩
    · exact G

end

/-- Two rows more below, one column on each side, stride 2. -/
def convAttrs : List Attr := [⟨"strides", .ints [2, 2]⟩, ⟨"group", .int 1⟩, ⟨"pads", .ints [2, 1, 0, 1]⟩]

theorem convAttrs_ok : ConvAttrs convAttrs 1 2 2 (some ⟨2, 1, 0, 1⟩) := ⟨by decide, rfl, rfl, .inl rfl, .inl rfl, rfl, rfl⟩

/-- Two images of 3 × 3 with one channel become 5 × 5 and are covered by windows of 3 × 3. -/
example : ∃ nd K B dK dbs dX, convNode convAttrs (.shape [-1, 1, 3, 3] :: .real ⟨[2, 1, 3, 3], fun i => i.sum⟩ :: biasInput (some ⟨[2], fun _ => 7⟩)) = .ok nd ∧
    nd.forward = convNodeForward ⟨3, 2, 2, .valid, false⟩ (some ⟨2, 1, 0, 1⟩) K B ∧ B.isSome ∧
    convNodeBack ⟨3, 2, 2, .valid, false⟩ (some ⟨2, 1, 0, 1⟩) K true ⟨[2, 1, 3, 3], fun i => i.sum⟩ [⟨[2, 2, 2, 2], fun _ => 1⟩] = .ok (dK :: dbs, [dX]) ∧
    IsGradientOf nd.forward [⟨[2, 1, 3, 3], fun i => i.sum⟩] [⟨[2, 2, 2, 2], fun _ => 1⟩] [dX] := by
  obtain ⟨nd, K, B, e1, e2, -, e3, -, e4⟩ := conv_gradient (n := 2) (c := 1) (h := 3) (w := 3) (o := 2) (k := 3) convAttrs_ok (by decide)
    (by decide) (by decide) (by decide) (by decide) (by decide) (by decide) ⟨[2, 1, 3, 3], fun i => i.sum⟩ ⟨[2, 1, 3, 3], fun i => i.sum⟩
    ⟨[2, 2, 2, 2], fun _ => 1⟩ (some ⟨[2], fun _ => 7⟩) rfl (by rintro t ⟨⟩; rfl) rfl rfl
  rw [if_pos (by decide)] at e4
  obtain ⟨dK, dbs, dX, e5, -, e6⟩ := e4
  exact ⟨nd, K, B, dK, dbs, dX, e1, e2, e3, e5, e6⟩

/-- Without padding and with an image of 4 × 4 the windows leave out the last row. -/
example : convNodeBack ⟨3, 2, 2, .valid, false⟩ none ⟨[3, 3, 1, 2], fun i => i.sum⟩ false ⟨[2, 1, 4, 4], fun i => i.sum⟩
    [⟨[2, 2, 1, 1], fun _ => 1⟩] = .error .assertion := by
  have := conv_layer_gradient none ⟨[3, 3, 1, 2], fun i => i.sum⟩ ⟨[2, 1, 4, 4], fun i => i.sum⟩ ⟨[2, 2, 1, 1], fun _ => 1⟩ none 2 1 4 4 2 3 2
    (by decide) (by decide) (by decide) (by decide) (by decide) (by decide) (by decide) rfl (by simp) rfl rfl
  rwa [if_neg (by decide)] at this

end Verif.Convert
