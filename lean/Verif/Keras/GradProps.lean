import Verif.Keras.GradLemmas

/-!
# C65: training follows the gradient of the loss

In exact arithmetic, for every stack of layers and every size: one call of `fit_batch` moves every weight
against the partial derivative of the loss by that weight. The layers and losses are gone through one by
one; some are not what they claim to be.
-/

namespace Verif.Keras

open Verif.Aby3 (logistic logistic_pos logistic_lt_one)

variable {ι κ μ : Type}

/-! ## The layers -/

/-- **`Dense`**, with or without bias, without activation or with one of those that can be trained. -/
theorem dense_exact (n : ℕ) (δ κ : Type) [Fintype δ] [Fintype κ] (act : Act) (bias trainable : Bool)
    (w : (dense n δ κ act bias trainable).W → ℝ) (x : Fin n × δ → ℝ) (hs : act.Smooth (affine bias w x)) :
    (dense n δ κ act bias trainable).Exact w x := by
  intro d gw gx hb γ v χ u t h1 h2 h3 h4
  by_cases ha : act = .none
  · subst ha
    have hb := Except.ok.inj hb
    obtain ⟨y, k1, k2⟩ := affine_exact bias w x d γ v χ u t h1 h2 h3 h4
    have e1 : (affineBack bias false w x d).1 = gw := by rw [hb]
    have e2 : (affineBack bias false w x d).2 = gx := by rw [hb]
    rw [e1, e2] at k2
    exact ⟨y, k1, k2⟩
  · have hcall : ∀ w x, (dense n δ κ act bias trainable).call w x = act.apply (affine bias w x) := by
      intro w x
      cases act <;> first | rfl | exact absurd rfl ha
    have hb : (act.deriv (act.apply (affine bias w x)) d).map (affineBack bias false w x) = .ok (gw, gx) := by
      refine Eq.trans ?_ hb
      cases act <;> first | rfl | exact absurd rfl ha
    cases hd : act.deriv (act.apply (affine bias w x)) d with
    | error e => rw [hd] at hb; cases hb
    | ok d' =>
      rw [hd] at hb
      have hb := Except.ok.inj hb
      obtain ⟨z, k1, k2⟩ := affine_exact bias w x d' γ v χ u t h1 h2 h3 h4
      obtain ⟨y, k3, k4⟩ := act_exact act hs hd (χ := fun s => affine bias (γ s) (χ s)) (t := t)
        (by rw [h1, h3]) k1
      have e1 : (affineBack bias false w x d').1 = gw := by rw [hb]
      have e2 : (affineBack bias false w x d').2 = gx := by rw [hb]
      rw [e1, e2] at k2
      refine ⟨y, ?_, k4.trans k2⟩
      intro j
      have := k3 j
      simp only [hcall]
      exact this

/-- **`Activation`.** -/
theorem activation_exact (n : ℕ) (κ : Type) [Fintype κ] (act : Act) (w : (activation n κ act).W → ℝ)
    (x : Fin n × κ → ℝ) (hs : act.Smooth x) : (activation n κ act).Exact w x := by
  intro d gw gx hb γ v χ u t h1 h2 h3 h4
  have hb : (act.deriv (act.apply x) d).map (fun d => ((fun i => i.elim : Empty → ℝ), d)) = .ok (gw, gx) := hb
  cases hd : act.deriv (act.apply x) d with
  | error e => rw [hd] at hb; cases hb
  | ok d' =>
    rw [hd] at hb
    have hb := (Prod.mk.inj (Except.ok.inj hb)).2
    obtain ⟨y, k3, k4⟩ := act_exact act hs hd h3 h4
    refine ⟨y, k3, ?_⟩
    have e : (∑ i : (activation n κ act).W, gw i * v i) = 0 := Finset.sum_eq_zero fun i _ => i.elim
    rw [e, zero_add, k4, hb]

/-- A layer without weights that moves entries. -/
theorem moves_exact {ι κ : Type} [Fintype ι] [Fintype κ] {l : Layer ι κ} (hW : l.W → False) (e : κ ≃ ι)
    (hc : ∀ w x j, l.call w x j = x (e j)) (hb : ∀ w x d gw gx, l.backward false w x d = .ok (gw, gx) →
      ∀ j, gx (e j) = d j) (w : l.W → ℝ) (x : ι → ℝ) : l.Exact w x := by
  intro d gw gx h γ v χ u t h1 h2 h3 h4
  refine ⟨fun j => u (e j), fun j => ?_, ?_⟩
  · simp only [hc]
    exact h4 (e j)
  · have e0 : (∑ i : l.W, gw i * v i) = 0 := Finset.sum_eq_zero fun i _ => (hW i).elim
    rw [e0, zero_add, ← Equiv.sum_comp e]
    exact Finset.sum_congr rfl fun j _ => by rw [hb _ _ _ _ _ h]

/-- **`Flatten` of channels-last data.** -/
theorem flattenLast_exact (n s c : ℕ) (w : (flattenLast n s c).W → ℝ) (x : Fin n × Fin s × Fin c → ℝ) :
    (flattenLast n s c).Exact w x := by
  refine moves_exact (fun i : Empty => i.elim) (Equiv.prodCongr (Equiv.refl _) finProdFinEquiv.symm) (fun _ _ _ => rfl) ?_ w x
  intro w x d gw gx h j
  have h := (Prod.mk.inj (Except.ok.inj h)).2
  rw [← h]
  show d (j.1, finProdFinEquiv (finProdFinEquiv.symm j.2)) = d j
  rw [Equiv.apply_symm_apply]

/-- **`Reshape`.** -/
theorem reshape_exact {ι κ : Type} [Fintype ι] [Fintype κ] {size : ℕ} (e : ι ≃ Fin size) (f : κ ≃ Fin size)
    (w : (reshape e f).W → ℝ) (x : ι → ℝ) : (reshape e f).Exact w x := by
  refine moves_exact (fun i : Empty => i.elim) (f.trans e.symm) (fun _ _ _ => rfl) ?_ w x
  intro w x d gw gx h j
  have h := (Prod.mk.inj (Except.ok.inj h)).2
  rw [← h]
  show d (f.symm (e (e.symm (f j)))) = d j
  rw [Equiv.apply_symm_apply, Equiv.symm_apply_apply]

/-- **`Flatten` of channels-first data is wrong**: the way back does not undo the transposition. With two
channels and two positions, the gradient by the second position of the first channel is reported for the
first position of the second channel. -/
theorem flattenFirst_false (w : (flattenFirst 1 2 2).W → ℝ) (x : Fin 1 × Fin 2 × Fin 2 → ℝ) :
    ¬ (flattenFirst 1 2 2).Exact w x := by
  intro h
  have hm : Moves (fun s i => x i + s * (if i = ((0 : Fin 1), (0 : Fin 2), (1 : Fin 2)) then 1 else 0))
      (fun i => if i = ((0 : Fin 1), (0 : Fin 2), (1 : Fin 2)) then 1 else 0) 0 := by
    intro i
    have := ((hasDerivAt_id (0 : ℝ)).mul_const (if i = ((0 : Fin 1), (0 : Fin 2), (1 : Fin 2)) then (1 : ℝ) else 0)).const_add (x i)
    simpa using this
  have hd : ((finProdFinEquiv ((1 : Fin 2), (0 : Fin 2))) : Fin (2 * 2)) = 2 := by decide
  obtain ⟨y, k1, k2⟩ := h (fun j => if j.2 = 2 then 1 else 0) _ _ rfl (fun _ => w) (fun _ => 0) _ _ 0 rfl
    (fun i => i.elim) (by funext i; simp) hm
  have hy : y (0, 2) = 1 := by
    refine (k1 (0, 2)).unique ?_
    exact hm (0, 0, 1)
  have h1 : (∑ j : Fin 1 × Fin (2 * 2), (if j.2 = 2 then (1 : ℝ) else 0) * y j) = 1 := by
    rw [Fintype.sum_prod_type]
    simp [hy]
  rw [h1] at k2
  have h2 : (∑ i : Fin 1 × Fin 2 × Fin 2, (if (Fin.cast (Nat.mul_comm 2 2) (finProdFinEquiv i.2) : Fin (2 * 2)) = 2
      then (1 : ℝ) else 0) * (if i = ((0 : Fin 1), (0 : Fin 2), (1 : Fin 2)) then 1 else 0)) = 0 := by
    refine Finset.sum_eq_zero fun i _ => ?_
    by_cases hi : i = ((0 : Fin 1), (0 : Fin 2), (1 : Fin 2))
    · subst hi
      rw [if_neg (by decide), zero_mul]
    · rw [if_neg hi, mul_zero]
  have h3 : (∑ i : (flattenFirst 1 2 2).W, (fun i : Empty => i.elim : Empty → ℝ) i * (0 : ℝ)) = 0 :=
    Finset.sum_eq_zero fun i _ => i.elim
  rw [h2] at k2
  have h4 : (∑ i : (flattenFirst 1 2 2).W, ((fun i => i.elim : Empty → ℝ) i) * (fun _ => (0 : ℝ)) i) = 0 :=
    Finset.sum_eq_zero fun i _ => i.elim
  rw [h4] at k2
  norm_num at k2

/-- **`ReLU`**, where no input is exactly zero. -/
theorem relu_exact (ι : Type) [Fintype ι] (w : (reluLayer ι).W → ℝ) (x : ι → ℝ) (hx : ∀ i, x i ≠ 0) :
    (reluLayer ι).Exact w x := by
  intro d gw gx h γ v χ u t h1 h2 h3 h4
  have h := (Prod.mk.inj (Except.ok.inj h)).2
  refine ⟨fun i => if x i > 0 then u i else 0, fun i => ?_, ?_⟩
  · have := relu_moves (h4 i) (by rw [h3]; exact hx i)
    rw [h3] at this
    have e : (fun s => (reluLayer ι).call (γ s) (χ s) i) = fun s => max (χ s i) 0 := by
      funext s
      show (if χ s i > 0 then χ s i else 0) = _
      split_ifs with hp
      · exact (max_eq_left (le_of_lt hp)).symm
      · exact (max_eq_right (not_lt.1 hp)).symm
    simp only [e]
    refine this.congr_deriv ?_
    by_cases hp : x i > 0
    · rw [if_pos hp, if_neg (not_le.2 hp)]
    · rw [if_neg hp, if_pos (not_lt.1 hp)]
  · have e0 : (∑ i : (reluLayer ι).W, gw i * v i) = 0 := Finset.sum_eq_zero fun i _ => i.elim
    rw [e0, zero_add, ← h]
    refine Finset.sum_congr rfl fun i _ => ?_
    show d i * (if x i > 0 then u i else 0) = (if x i > 0 then d i else 0) * u i
    split_ifs <;> simp

/-- **`GlobalAveragePooling2D`.** -/
theorem globalAverage_exact {ι : Type} [Fintype ι] (n h w c : ℕ) (place : ι ≃ Fin n × (Fin h × Fin w) × Fin c)
    (W : (globalAverage n h w c place).W → ℝ) (x : ι → ℝ) : (globalAverage n h w c place).Exact W x := by
  intro d gw gx hb γ v χ u t h1 h2 h3 h4
  have hb := (Prod.mk.inj (Except.ok.inj hb)).2
  refine ⟨fun i => (∑ p, ∑ q, u (place.symm (i.1, (p, q), i.2))) * (1 / ((h * w : ℕ) : ℝ)), fun i => ?_, ?_⟩
  · refine HasDerivAt.mul_const ?_ _
    refine HasDerivAt.fun_sum fun p _ => HasDerivAt.fun_sum fun q _ => h4 _
  · have e0 : (∑ i : (globalAverage n h w c place).W, gw i * v i) = 0 := Finset.sum_eq_zero fun i _ => i.elim
    rw [e0, zero_add, ← hb, ← Equiv.sum_comp place.symm]
    simp only [Equiv.apply_symm_apply, Fintype.sum_prod_type, Finset.mul_sum, Finset.sum_mul]
    refine Finset.sum_congr rfl fun b _ => ?_
    rw [Finset.sum_comm]
    refine Finset.sum_congr rfl fun p _ => ?_
    rw [Finset.sum_comm]
    refine Finset.sum_congr rfl fun q _ => Finset.sum_congr rfl fun k _ => ?_
    ring

/-! ## The losses

A loss with one number per output is summed over the outputs. -/

section losses
variable {n : ℕ} {κ : Type} [Fintype κ]

/-- **Mean squared error.** -/
theorem mse_gradient (y p : Fin n × κ → ℝ) : Gradient (fun p => ∑ k, mse y p k) (mseGrad y p) p := by
  intro γ v t h1 h2
  have h : HasDerivAt (fun s => ∑ k, mse y (γ s) k)
      (∑ k, (∑ b, 2 * (y (b, k) - γ t (b, k)) * -v (b, k)) * (1 / (n : ℝ))) t := by
    refine HasDerivAt.fun_sum fun k _ => HasDerivAt.mul_const (HasDerivAt.fun_sum fun b _ => ?_) _
    have := ((h2 (b, k)).const_sub (y (b, k))).pow 2
    refine this.congr_deriv ?_
    simp
  refine h.congr_deriv ?_
  rw [h1, Fintype.sum_prod_type, Finset.sum_comm]
  refine Finset.sum_congr rfl fun k _ => ?_
  rw [Finset.sum_mul]
  refine Finset.sum_congr rfl fun b _ => ?_
  simp only [mseGrad]
  ring

/-- **Binary cross-entropy from logits**, for any targets. -/
theorem bceLogits_gradient (y p : Fin n × κ → ℝ) :
    Gradient (fun p => ∑ k, bceLogits y p k) (bceGrad true false y p) p := by
  intro γ v t h1 h2
  have h : HasDerivAt (fun s => ∑ k, bceLogits y (γ s) k)
      (∑ k, (∑ b, (logistic (γ t (b, k)) - y (b, k)) * v (b, k)) * (1 / (n : ℝ))) t := by
    refine HasDerivAt.fun_sum fun k _ => HasDerivAt.mul_const (HasDerivAt.fun_sum fun b _ => ?_) _
    have hp := logistic_pos (γ t (b, k))
    have hq := logistic_lt_one (γ t (b, k))
    have hl : HasDerivAt (fun s => logistic (γ s (b, k)))
        (logistic (γ t (b, k)) * (1 - logistic (γ t (b, k))) * v (b, k)) t :=
      HasDerivAt.comp (h₂ := logistic) (h := fun s => γ s (b, k)) t (logistic_hasDerivAt (γ t (b, k))) (h2 (b, k))
    have k1 := (hl.log hp.ne').const_mul (y (b, k))
    have k2 := ((hl.const_sub 1).log (by linarith)).const_mul (1 - y (b, k))
    refine ((k1.add k2).neg).congr_deriv ?_
    have hq' : 1 - logistic (γ t (b, k)) ≠ 0 := by linarith
    field_simp
    ring
  refine h.congr_deriv ?_
  rw [h1, Fintype.sum_prod_type, Finset.sum_comm]
  refine Finset.sum_congr rfl fun k _ => ?_
  rw [Finset.sum_mul]
  refine Finset.sum_congr rfl fun b _ => ?_
  simp only [bceGrad, Act.apply, if_true, Bool.false_eq_true, if_false]
  ring

/-- **Categorical cross-entropy from logits**, for targets that are distributions. -/
theorem cceLogits_gradient (y p : Fin n × κ → ℝ) (hy : ∀ b, ∑ k, y (b, k) = 1) :
    Gradient (fun p => cceLogits y p) (cceGrad true false y p) p := by
  intro γ v t h1 h2
  have hpos : ∀ s (i : Fin n × κ), 0 < ∑ k, Real.exp (γ s (i.1, k)) := by
    intro s i
    exact Finset.sum_pos (fun _ _ => Real.exp_pos _) ⟨i.2, Finset.mem_univ _⟩
  have hlog : ∀ i : Fin n × κ, HasDerivAt (fun s => Real.log (Act.softmax.apply (γ s) i))
      (v i - ∑ k, Act.softmax.apply (γ t) (i.1, k) * v (i.1, k)) t := by
    intro i
    have e : (fun s => Real.log (Act.softmax.apply (γ s) i)) =
        fun s => γ s i - Real.log (∑ k, Real.exp (γ s (i.1, k))) := by
      funext s
      simp only [Act.apply]
      rw [Real.log_div (Real.exp_pos _).ne' (hpos s i).ne', Real.log_exp]
    rw [e]
    have hs : HasDerivAt (fun s => ∑ k, Real.exp (γ s (i.1, k))) (∑ k, Real.exp (γ t (i.1, k)) * v (i.1, k)) t :=
      HasDerivAt.fun_sum fun k _ => (h2 (i.1, k)).exp
    refine ((h2 i).sub (hs.log (hpos t i).ne')).congr_deriv ?_
    congr 1
    rw [div_eq_mul_inv, Finset.sum_mul]
    refine Finset.sum_congr rfl fun k _ => ?_
    simp only [Act.apply]
    ring
  have h : HasDerivAt (fun s => cceLogits y (γ s))
      ((∑ i, -y i * (v i - ∑ k, Act.softmax.apply (γ t) (i.1, k) * v (i.1, k))) * (1 / (n : ℝ))) t :=
    HasDerivAt.mul_const (HasDerivAt.fun_sum fun i _ => (hlog i).const_mul _) _
  refine h.congr_deriv ?_
  rw [h1, Finset.sum_mul, Fintype.sum_prod_type, Fintype.sum_prod_type]
  refine Finset.sum_congr rfl fun b _ => ?_
  simp only [cceGrad, if_true, Bool.false_eq_true, if_false]
  have e1 : (∑ k, -y (b, k) * (v (b, k) - ∑ j, Act.softmax.apply p (b, j) * v (b, j)) * (1 / (n : ℝ))) =
      (∑ k, y (b, k)) * ((∑ j, Act.softmax.apply p (b, j) * v (b, j)) * (1 / (n : ℝ))) -
        ∑ k, y (b, k) * v (b, k) * (1 / (n : ℝ)) := by
    rw [Finset.sum_mul, ← Finset.sum_sub_distrib]
    exact Finset.sum_congr rfl fun k _ => by ring
  rw [e1, hy, one_mul, Finset.sum_mul, ← Finset.sum_sub_distrib]
  exact Finset.sum_congr rfl fun k _ => by ring

/-- **With probabilities instead of logits** (the default) the gradient that `BinaryCrossentropy` and
`CategoricalCrossentropy` return is that of *half the squared error*. -/
theorem crossentropy_is_half_mse (y p : Fin n × κ → ℝ) :
    Gradient (fun p => (1 / 2) * ∑ k, mse y p k) (bceGrad false false y p) p ∧
      bceGrad false false y p = cceGrad false false y p := by
  refine ⟨?_, rfl⟩
  intro γ v t h1 h2
  have := (mse_gradient y p γ v t h1 h2).const_mul (1 / 2)
  refine this.congr_deriv ?_
  rw [Finset.mul_sum]
  refine Finset.sum_congr rfl fun i _ => ?_
  simp only [mseGrad, bceGrad, Bool.false_eq_true, if_false]
  ring

end losses

/-- **It is not the gradient of the cross-entropy**: at probability 1/4 for a positive sample the loss
falls at the rate 4, and the gradient says 3/4. -/
theorem bce_gradient_false : ¬ Gradient (fun p : Fin 1 × Unit → ℝ => ∑ k, bce (fun _ => 1) p k)
    (bceGrad false false (fun _ => 1) fun _ => 1 / 4) fun _ => 1 / 4 := by
  intro h
  have hm : Moves (fun s (_ : Fin 1 × Unit) => s) (fun _ => 1) (1 / 4) := fun _ => hasDerivAt_id _
  have h1 := h _ _ (1 / 4) rfl hm
  have h2 : HasDerivAt (fun s : ℝ => -Real.log s) (-(1 / 4)⁻¹) (1 / 4) := (Real.hasDerivAt_log (by norm_num)).neg
  have e : (fun s : ℝ => ∑ k, bce (fun _ : Fin 1 × Unit => (1 : ℝ)) (fun _ => s) k) = fun s => -Real.log s := by
    funext s
    simp [bce]
  rw [e] at h1
  have := h1.unique h2
  rw [Fintype.sum_prod_type] at this
  simp [bceGrad] at this
  norm_num at this

/-- The same for the categorical loss: two classes at probability 1/2 each. -/
theorem cce_gradient_false : ¬ Gradient (fun p : Fin 1 × Fin 2 → ℝ => cce (fun i => if i.2 = 0 then 1 else 0) p)
    (cceGrad false false (fun i => if i.2 = 0 then 1 else 0) fun _ => 1 / 2) fun _ => 1 / 2 := by
  intro h
  have hm : Moves (fun s (i : Fin 1 × Fin 2) => if i.2 = 0 then s else 1 / 2) (fun i => if i.2 = 0 then 1 else 0)
      (1 / 2) := by
    intro i
    by_cases hi : i.2 = 0
    · simp only [hi, if_true]; exact hasDerivAt_id _
    · simp only [hi, if_false]; exact hasDerivAt_const _ _
  have h1 := h _ _ (1 / 2) (by funext i; simp) hm
  have h2 : HasDerivAt (fun s : ℝ => -Real.log s) (-(1 / 2)⁻¹) (1 / 2) := (Real.hasDerivAt_log (by norm_num)).neg
  have e : (fun s : ℝ => cce (fun i : Fin 1 × Fin 2 => if i.2 = 0 then (1 : ℝ) else 0)
      (fun i => if i.2 = 0 then s else 1 / 2)) = fun s => -Real.log s := by
    funext s
    simp [cce, Fintype.sum_prod_type]
  rw [e] at h1
  have := h1.unique h2
  rw [Fintype.sum_prod_type] at this
  simp [cceGrad] at this
  norm_num at this

/-! ## Training -/

/-- **One training step.** For every stack of layers that are exact where they are used, and every loss
whose reported gradient is right: if `fit_batch` succeeds, each weight of each layer has moved by the
learning rate times the partial derivative of the batch's loss by that weight, taken at the old
weights. -/
theorem fitBatch_descends {ι μ : Type} (hι : Fintype ι) [hμ : Fintype μ] (m : Seq ι μ) (loss : (μ → ℝ) → ℝ)
    (lossGrad : (μ → ℝ) → μ → ℝ) (rate : ℝ) (w w' : m.W → ℝ) (x : ι → ℝ) (he : m.Exact hι w x)
    (hl : Gradient loss (lossGrad (m.call w x)) (m.call w x)) (hf : m.fitBatch lossGrad false rate w x = .ok w') :
    ∃ g : m.W → ℝ, Gradient (fun w => loss (m.call w x)) g w ∧
      (∀ [DecidableEq m.W] (i : m.W), HasDerivAt (fun s => loss (m.call (Function.update w i s) x)) (g i) (w i)) ∧
      ∀ i, w' i = w i - g i * rate := by
  unfold Seq.fitBatch at hf
  rw [Seq.backward_apply] at hf
  cases hb : m.backward (fun _ g => g) false w x (lossGrad (m.call w x)) with
  | error e => rw [hb] at hf; cases hf
  | ok r =>
    obtain ⟨g, gx⟩ := r
    rw [hb] at hf
    have hf := Except.ok.inj hf
    have hg : Gradient (fun w => loss (m.call w x)) g w := by
      intro γ v t h1 h2
      obtain ⟨y, k1, k2⟩ := Seq.exact hι hμ m w x he _ g gx hb γ v (fun _ => x) (fun _ => 0) t h1 h2 rfl
        (fun i => hasDerivAt_const _ _)
      have := hl _ y t (by rw [h1]) k1
      refine this.congr_deriv ?_
      rw [k2]
      simp
    exact ⟨g, hg, fun i => hg.partial i, fun i => by rw [← hf]⟩

/-- Two `Dense` layers, the first with a rectifier. -/
noncomputable def perceptron (n : ℕ) (δ η κ : Type) [Fintype δ] [Fintype η] [Fintype κ] (bias : Bool) :
    Seq (Fin n × δ) (Fin n × κ) :=
  .cons inferInstance (dense n δ η .relu bias) (.cons inferInstance (dense n η κ .none bias) .nil)

/-- **A two-layer perceptron** as an instance: for every size, `fit_batch` with the mean squared error
succeeds and follows the gradient, provided no hidden unit sits exactly at zero. -/
theorem perceptron_descends (n : ℕ) (δ η κ : Type) [Fintype δ] [Fintype η] [Fintype κ] (bias : Bool)
    (rate : ℝ) (y : Fin n × κ → ℝ) (x : Fin n × δ → ℝ) (w : (perceptron n δ η κ bias).W → ℝ)
    (hw : ∀ i, affine (n := n) (δ := δ) (κ := η) bias (fun i => w (Sum.inl i)) x i ≠ 0) :
    ∃ g w' : (perceptron n δ η κ bias).W → ℝ,
      Gradient (fun w => ∑ k, mse y ((perceptron n δ η κ bias).call w x) k) g w ∧
      (perceptron n δ η κ bias).fitBatch (mseGrad y) false rate w x = .ok w' ∧ ∀ i, w' i = w i - g i * rate := by
  have he : (perceptron n δ η κ bias).Exact inferInstance w x :=
    ⟨dense_exact n δ η .relu bias true (fun i => w (Sum.inl i)) x hw,
      dense_exact n η κ .none bias true (fun i => w (Sum.inr (Sum.inl i))) _ trivial, trivial⟩
  have hok : ∃ w', (perceptron n δ η κ bias).fitBatch (mseGrad y) false rate w x = .ok w' := ⟨_, rfl⟩
  obtain ⟨w', hw'⟩ := hok
  obtain ⟨g, h1, -, h3⟩ := fitBatch_descends _ (perceptron n δ η κ bias) (fun p => ∑ k, mse y p k) (mseGrad y) rate
    w w' x he (mse_gradient y _) hw'
  exact ⟨g, w', h1, hw', h3⟩

/-- The hypothesis is met, for example, by one hidden unit with bias 1 and weight 1, and input 1. -/
example : ∀ i, affine (n := 1) (δ := Unit) (κ := Unit) true (fun _ => 1) (fun _ => 1) i ≠ 0 := by
  intro i; simp [affine]

/-! ## Lazy normalization -/

/-- A layer under `lazy_normalization`: a gradient that is `N` times too large leaves the weights'
gradients as they were, and is passed on `N` times too large. -/
def Layer.Lazy {ι κ : Type} (N : ℝ) (l : Layer ι κ) : Prop :=
  ∀ w x d gw gx, l.backward false w x d = .ok (gw, gx) →
    l.backward true w x (fun j => N * d j) = .ok (gw, fun i => N * gx i)

/-- Every layer of a stack. -/
def Seq.Lazy (N : ℝ) : {ι μ : Type} → Seq ι μ → Prop
  | _, _, .nil => True
  | _, _, .cons _ l rest => l.Lazy N ∧ rest.Lazy N

theorem dense_lazy {n : ℕ} (hn : n ≠ 0) (δ κ : Type) [Fintype δ] [Fintype κ] (act : Act) (bias trainable : Bool) :
    (dense n δ κ act bias trainable).Lazy n := by
  have hn' : (n : ℝ) ≠ 0 := Nat.cast_ne_zero.2 hn
  have hback : ∀ w x d, affineBack (n := n) (δ := δ) (κ := κ) bias true w x (fun j => n * d j) =
      ((affineBack bias false w x d).1, fun i => n * (affineBack bias false w x d).2 i) := by
    intro w x d
    refine Prod.ext ?_ ?_
    · funext i
      rcases i with ⟨j, k⟩ | ⟨k, h⟩
      · simp only [affineBack, if_true, Bool.false_eq_true, if_false, div_one]
        rw [div_eq_iff hn', Finset.sum_mul]
        exact Finset.sum_congr rfl fun b _ => by ring
      · simp only [affineBack, if_true, Bool.false_eq_true, if_false, div_one]
        rw [div_eq_iff hn', Finset.sum_mul]
        exact Finset.sum_congr rfl fun b _ => by ring
    · funext i
      simp only [affineBack, Finset.mul_sum]
      exact Finset.sum_congr rfl fun b _ => by ring
  have hact : ∀ (y d d' : Fin n × κ → ℝ), act.deriv y d = .ok d' → act.deriv y (fun j => n * d j) = .ok fun j => n * d' j := by
    intro y d d' h
    cases act <;> simp only [Act.deriv] at h ⊢ <;> try cases h
    · rfl
    · congr 1; funext i; by_cases hy : y i ≤ 0 <;> simp [hy]
    · congr 1; funext i; ring
  intro w x d gw gx h
  by_cases ha : act = .none
  · subst ha
    have h := Except.ok.inj h
    exact congrArg Except.ok ((hback w x d).trans (by rw [h]; rfl))
  · have h : (act.deriv (act.apply (affine bias w x)) d).map (affineBack bias false w x) = .ok (gw, gx) := by
      refine Eq.trans ?_ h
      cases act <;> first | rfl | exact absurd rfl ha
    have goal : (act.deriv (act.apply (affine bias w x)) fun j => n * d j).map (affineBack bias true w x) =
        .ok (gw, fun i => n * gx i) := by
      cases hd : act.deriv (act.apply (affine bias w x)) d with
      | error e => rw [hd] at h; cases h
      | ok d' =>
        rw [hd] at h
        have h := Except.ok.inj h
        rw [hact _ _ _ hd]
        exact congrArg Except.ok ((hback w x d').trans (by rw [h]))
    refine Eq.trans ?_ goal
    cases act <;> first | rfl | exact absurd rfl ha

theorem reluLayer_lazy (N : ℝ) (ι : Type) : (reluLayer ι).Lazy N := by
  intro w x d gw gx h
  have h := Prod.mk.inj (Except.ok.inj h)
  show Except.ok ((fun i => i.elim : Empty → ℝ), fun i => if x i > 0 then N * d i else 0) = _
  rw [← h.1, ← h.2]
  congr 2
  funext i
  by_cases hx : x i > 0 <;> simp [hx]

/-- **Lazy normalization trains the same model**: if the loss leaves out the division by the batch size
and all layers put it in, the new weights are the same. -/
theorem lazy_same {ι μ : Type} {N : ℝ} (m : Seq ι μ) (hm : m.Lazy N) (lossGrad lossGrad' : (μ → ℝ) → μ → ℝ)
    (hg : ∀ p j, lossGrad' p j = N * lossGrad p j) (rate : ℝ) (w w' : m.W → ℝ) (x : ι → ℝ)
    (h : m.fitBatch lossGrad false rate w x = .ok w') : m.fitBatch lossGrad' true rate w x = .ok w' := by
  have key : ∀ {ι μ : Type} (m : Seq ι μ), m.Lazy N → ∀ (apply : ℝ → ℝ → ℝ) (w v : m.W → ℝ) (x dx : ι → ℝ) (d : μ → ℝ),
      m.backward apply false w x d = .ok (v, dx) →
      m.backward apply true w x (fun j => N * d j) = .ok (v, fun i => N * dx i) := by
    intro ι μ m
    induction m with
    | nil =>
      intro _ apply w v x dx d h
      have h := Prod.mk.inj (Except.ok.inj h)
      show Except.ok (w, fun j => N * d j) = _
      rw [← h.2, ← h.1]
    | cons hκ l rest ih =>
      intro hm apply w v x dx d h
      simp only [Seq.backward] at h ⊢
      cases hr : rest.backward apply false (fun i => w (.inr i)) (l.call (fun i => w (.inl i)) x) d with
      | error e => rw [hr] at h; cases h
      | ok r =>
        obtain ⟨wr, dm⟩ := r
        rw [hr] at h
        simp only at h
        cases hl : l.backward false (fun i => w (.inl i)) x dm with
        | error e => rw [hl] at h; cases h
        | ok g =>
          obtain ⟨gl, dx'⟩ := g
          rw [hl] at h
          have h := Prod.mk.inj (Except.ok.inj h)
          rw [ih hm.2 apply _ wr _ dm d hr]
          simp only
          rw [hm.1 _ _ _ _ _ hl]
          simp only
          rw [← h.2]
          exact congrArg (fun v => Except.ok (v, fun i => N * dx' i)) h.1
  unfold Seq.fitBatch at h ⊢
  cases hb : m.backward (fun w g => w - g * rate) false w x (lossGrad (m.call w x)) with
  | error e => rw [hb] at h; cases h
  | ok r =>
    obtain ⟨v, dx⟩ := r
    rw [hb] at h
    have h := Except.ok.inj h
    have e : lossGrad' (m.call w x) = fun j => N * lossGrad (m.call w x) j := by funext j; exact hg _ _
    rw [e, key m hm _ _ _ _ _ _ hb]
    exact congrArg Except.ok h

/-- The two losses that have the flag. -/
theorem lossGrad_lazy {n : ℕ} (hn : n ≠ 0) {κ : Type} [Fintype κ] (logits : Bool) (y p : Fin n × κ → ℝ) (i : Fin n × κ) :
    bceGrad logits true y p i = n * bceGrad logits false y p i ∧
      cceGrad logits true y p i = n * cceGrad logits false y p i := by
  have hn' : (n : ℝ) ≠ 0 := Nat.cast_ne_zero.2 hn
  constructor
  · simp only [bceGrad, if_true, Bool.false_eq_true, if_false]
    field_simp
  · simp only [cceGrad, if_true, Bool.false_eq_true, if_false]
    field_simp

/-! ## What cannot be trained, and what is trained although it should not be -/

/-- `tanh`, `softmax` and functions given as such have no derivative: `Dense` and `Activation` raise. -/
theorem untrainable_raises (n : ℕ) (δ κ : Type) [Fintype δ] [Fintype κ] (act : Act)
    (ha : act = .tanh ∨ act = .softmax ∨ ∃ f, act = .fn f) (bias lazy : Bool) (w x d) (w' x' d') :
    (dense n δ κ act bias).backward lazy w x d = .error .notImplemented ∧
      (activation n κ act).backward lazy w' x' d' = .error .notImplemented := by
  rcases ha with rfl | rfl | ⟨f, rfl⟩ <;> exact ⟨rfl, rfl⟩

/-- **`Activation(None)`** works forward, but its `backward` raises a `TypeError`. -/
theorem activation_none_raises_false (n : ℕ) (κ : Type) [Fintype κ] (lazy : Bool) (w x d) :
    (activation n κ .none).call w x = x ∧ (activation n κ .none).backward lazy w x d = .error .typeError :=
  ⟨rfl, rfl⟩

/-- **`trainable=False` has no effect**: a frozen layer with weight 0, fitted to map 1 to 1 with rate 1,
has weight 2 afterwards. -/
theorem frozen_moves_false :
    let l := dense 1 Unit Unit .none false (trainable := false)
    let m : Seq (Fin 1 × Unit) (Fin 1 × Unit) := .cons inferInstance l .nil
    l.trainable = false ∧ ∃ w', m.fitBatch (mseGrad fun _ => 1) false 1 (fun _ => 0) (fun _ => 1) = .ok w' ∧
      w' (.inl (.inl ((), ()))) = 2 := by
  refine ⟨rfl, _, rfl, ?_⟩
  show (0 : ℝ) - (affineBack (n := 1) (δ := Unit) (κ := Unit) false false (fun _ => 0) (fun _ => 1)
    (mseGrad (fun _ => 1) (affine false (fun _ => 0) fun _ => 1))).1 (.inl ((), ())) * 1 = 2
  simp [affineBack, mseGrad, affine]

/-- **`GlobalAveragePooling2D`, shapes**: without `keepdims`, and for channels-first data, `backward`
returns a tensor of the shape of the input. -/
theorem globalAverage_shape (h w b c : ℕ) :
    gapBackShape true false h w [b, c] = [b, h, w, c] ∧ gapBackShape false false h w [b, c] = [b, c, h, w] ∧
      gapBackShape false true h w [b, c, 1, 1] = [b, c, h, w] := by
  simp [gapBackShape]

/-- **With `keepdims` and channels-last data the shape is wrong** unless there is one channel. -/
theorem globalAverage_keepdims_false (h w b c : ℕ) (hc : c ≠ 1) :
    gapBackShape true true h w [b, 1, 1, c] = [b, h, w * c, 1] ∧
      gapBackShape true true h w [b, 1, 1, c] ≠ [b, h, w, c] := by
  have e : gapBackShape true true h w [b, 1, 1, c] = [b, h, w * c, 1] := by simp [gapBackShape, Nat.mul_comm]
  refine ⟨e, ?_⟩
  rw [e]
  intro h'
  simp only [List.cons.injEq, true_and, and_true] at h'
  omega

end Verif.Keras
