import Verif.Keras.ConvLemmas

/-!
# The gradients of `Conv2D`: lemmas

A layer that is bilinear in kernel and input, plus a bias, and the sums that show that `Conv2D` is one.
-/

namespace Verif.Keras

open Verif.Tensor

/-! ## Bilinear layers -/

section bilinear
variable {P Q J B : Type} [Fintype P] [Fintype Q] [Fintype J] [Fintype B]

theorem bilinear_exact (A : J → P → Q → ℝ) (C : J → B → ℝ) (w : P ⊕ B → ℝ) (x : Q → ℝ) (d : J → ℝ)
    (γ : ℝ → P ⊕ B → ℝ) (v : P ⊕ B → ℝ) (χ : ℝ → Q → ℝ) (u : Q → ℝ) (t : ℝ)
    (h1 : γ t = w) (h2 : Moves γ v t) (h3 : χ t = x) (h4 : Moves χ u t) :
    ∃ y, Moves (fun s j => (∑ p, ∑ q, A j p q * γ s (.inl p) * χ s q) + ∑ b, C j b * γ s (.inr b)) y t ∧
      ∑ j, d j * y j = ((∑ p, (∑ j, ∑ q, d j * (A j p q * x q)) * v (.inl p)) + ∑ b, (∑ j, d j * C j b) * v (.inr b)) +
        ∑ q, (∑ j, ∑ p, d j * (A j p q * w (.inl p))) * u q := by
  refine ⟨fun j => (∑ p, ∑ q, (A j p q * v (.inl p) * x q + A j p q * w (.inl p) * u q)) + ∑ b, C j b * v (.inr b),
    ?_, ?_⟩
  · intro j
    refine HasDerivAt.add ?_ ?_
    · refine HasDerivAt.fun_sum fun p _ => HasDerivAt.fun_sum fun q _ => ?_
      have := ((h2 (.inl p)).const_mul (A j p q)).mul (h4 q)
      rw [h1, h3] at this
      exact this
    · exact HasDerivAt.fun_sum fun b _ => (h2 (.inr b)).const_mul (C j b)
  · simp only [mul_add, Finset.sum_add_distrib, Finset.mul_sum, Finset.sum_mul]
    have e1 : ∑ j, ∑ p, ∑ q, d j * (A j p q * v (.inl p) * x q) =
        ∑ p, ∑ j, ∑ q, d j * (A j p q * x q) * v (.inl p) := by
      rw [Finset.sum_comm]
      refine Finset.sum_congr rfl fun p _ => Finset.sum_congr rfl fun j _ => Finset.sum_congr rfl fun q _ => by ring
    have e2 : ∑ j, ∑ p, ∑ q, d j * (A j p q * w (.inl p) * u q) =
        ∑ q, ∑ j, ∑ p, d j * (A j p q * w (.inl p)) * u q := by
      rw [Finset.sum_comm]
      have : ∀ p : P, ∑ j, ∑ q, d j * (A j p q * w (.inl p) * u q) = ∑ q, ∑ j, d j * (A j p q * w (.inl p) * u q) :=
        fun p => Finset.sum_comm
      simp only [this]
      rw [Finset.sum_comm]
      refine Finset.sum_congr rfl fun q _ => ?_
      rw [Finset.sum_comm]
      refine Finset.sum_congr rfl fun j _ => Finset.sum_congr rfl fun p _ => by ring
    have e3 : ∑ j, ∑ b, d j * (C j b * v (.inr b)) = ∑ b, ∑ j, d j * C j b * v (.inr b) := by
      rw [Finset.sum_comm]
      refine Finset.sum_congr rfl fun b _ => Finset.sum_congr rfl fun j _ => by ring
    rw [e1, e2, e3]
    ring

end bilinear

/-! ## Sizes -/

theorem covered_valid_le (size k s : ℕ) (hs : 0 < s) (hk : 0 < k) (h : k ≤ size) :
    covered size k s .valid ≤ size := by
  unfold covered
  rw [outputs_valid _ _ _ hs hk]
  have h1 := Nat.div_mul_le_self (size + 1 - k + s - 1) s
  have h2 : 0 < (size + 1 - k + s - 1) / s := Nat.div_pos (by omega) hs
  generalize (size + 1 - k + s - 1) / s = q at *
  obtain ⟨r, rfl⟩ : ∃ r, q = r + 1 := ⟨q - 1, by omega⟩
  rw [Nat.succ_mul] at h1
  simp only [Nat.add_sub_cancel]
  omega

theorem same_total (size k s : ℕ) (hs : 0 < s) (hn : 0 < size) :
    (padSize size k s).1 + (padSize size k s).2 = covered size k s .same - size := by
  have h := (padSize_correct size k s hs).2
  have hpos : 0 < outputs size k s .same := Nat.div_pos (by omega) hs
  unfold covered
  generalize outputs size k s .same = q at *
  obtain ⟨r, rfl⟩ : ∃ r, q = r + 1 := ⟨q - 1, by omega⟩
  simp only [Nat.add_sub_cancel]
  have e : (((r + 1 : ℕ) : ℤ) - 1) * s = ((r * s : ℕ) : ℤ) := by push_cast; ring
  rw [e] at h
  generalize r * s = m at *
  omega

theorem ConvCfg.padH_total (cfg : ConvCfg) (h : ℕ) (hs : 0 < cfg.s0) (hk : 0 < cfg.k) (hh : 0 < h)
    (hp : cfg.pad = .same ∨ cfg.pad = .valid ∧ cfg.k ≤ h) :
    (cfg.padH h).1 + (cfg.padH h).2 = covered h cfg.k cfg.s0 cfg.pad - h ∧
      ((cfg.padH h).1 : ℤ) = frontPad h cfg.k cfg.s0 cfg.pad := by
  rcases hp with hp | ⟨hp, hle⟩
  · rw [hp]
    unfold ConvCfg.padH
    rw [if_pos hp]
    exact ⟨same_total h cfg.k cfg.s0 hs hh, (padSize_correct h cfg.k cfg.s0 hs).1⟩
  · have := covered_valid_le h cfg.k cfg.s0 hs hk hle
    rw [hp]
    unfold ConvCfg.padH
    rw [if_neg (by simp [hp])]
    exact ⟨by simp; omega, rfl⟩

theorem ConvCfg.padW_total (cfg : ConvCfg) (w : ℕ) (hs : 0 < cfg.s1) (hk : 0 < cfg.k) (hw : 0 < w)
    (hp : cfg.pad = .same ∨ cfg.pad = .valid ∧ cfg.k ≤ w) :
    (cfg.padW w).1 + (cfg.padW w).2 = covered w cfg.k cfg.s1 cfg.pad - w ∧
      ((cfg.padW w).1 : ℤ) = frontPad w cfg.k cfg.s1 cfg.pad := by
  rcases hp with hp | ⟨hp, hle⟩
  · rw [hp]
    unfold ConvCfg.padW
    rw [if_pos hp]
    exact ⟨same_total w cfg.k cfg.s1 hs hw, (padSize_correct w cfg.k cfg.s1 hs).1⟩
  · have := covered_valid_le w cfg.k cfg.s1 hs hk hle
    rw [hp]
    unfold ConvCfg.padW
    rw [if_neg (by simp [hp])]
    exact ⟨by simp; omega, rfl⟩

/-! ## Convolution as a sum over selected pixels -/

theorem extend_sum (h w : ℕ) (f : ℕ → ℕ → ℝ) (Y X : ℤ) :
    extend h w f Y X = ∑ y : Fin h, ∑ x : Fin w, if Y = (y : ℕ) ∧ X = (x : ℕ) then f y x else 0 := by
  unfold extend
  split_ifs with hc
  · rw [Finset.sum_eq_single ⟨Y.toNat, by omega⟩, Finset.sum_eq_single ⟨X.toNat, by omega⟩]
    · rw [if_pos ⟨by show Y = (Y.toNat : ℤ); omega, by show X = (X.toNat : ℤ); omega⟩]
    · intro x _ hx
      rw [if_neg]
      rintro ⟨_, h2⟩
      exact hx (Fin.ext (by show (x : ℕ) = X.toNat; omega))
    · intro hn; exact absurd (Finset.mem_univ _) hn
    · intro y _ hy
      refine Finset.sum_eq_zero fun x _ => if_neg ?_
      rintro ⟨h1, _⟩
      exact hy (Fin.ext (by show (y : ℕ) = Y.toNat; omega))
    · intro hn; exact absurd (Finset.mem_univ _) hn
  · refine (Finset.sum_eq_zero fun y _ => Finset.sum_eq_zero fun x _ => if_neg ?_).symm
    rintro ⟨h1, h2⟩
    have := y.2
    have := x.2
    omega

theorem at4_fin {β γ δ ε : ℕ} (f : Fin β × Fin γ × Fin δ × Fin ε → ℝ) (a : Fin β) (b : Fin γ) (c : Fin δ)
    (d : Fin ε) : at4 f a b c d = f (a, b, c, d) := by
  unfold at4
  rw [dif_pos ⟨a.2, b.2, c.2, d.2⟩]

theorem ConvCfg.tensor_shape (cfg : ConvCfg) {n c h w : ℕ} (f : Fin n × Fin c × Fin h × Fin w → ℝ) :
    (cfg.tensor f).shape = cfg.shape n c h w := rfl

theorem ConvCfg.tensor_entry (cfg : ConvCfg) {n c h w : ℕ} (f : Fin n × Fin c × Fin h × Fin w → ℝ) (b k y x : ℕ) :
    cfg.entry (cfg.tensor f) b k y x = at4 f b k y x := by
  unfold ConvCfg.entry ConvCfg.tensor
  cases cfg.last <;> rfl

/-- Pixel `(y, x)` is read for output `(i, j)` at kernel offset `(a, a')`. -/
def sel (s top left : ℕ) (i j a a' y x : ℕ) : ℝ := if i * s + a = y + top ∧ j * s + a' = x + left then 1 else 0

/-- The coefficients of the convolution. -/
def coeff {n c h w o m m' k : ℕ} (s top left : ℕ) (i : Fin n × Fin o × Fin m × Fin m')
    (p : Fin k × Fin k × Fin c × Fin o) (q : Fin n × Fin c × Fin h × Fin w) : ℝ :=
  if p.2.2.2 = i.2.1 then (if q.1 = i.1 then (if q.2.1 = p.2.2.1 then
    sel s top left i.2.2.1 i.2.2.2 p.1 p.2.1 q.2.2.1 q.2.2.2 else 0) else 0) else 0

theorem extend_sel {n c h w : ℕ} (x : Fin n × Fin c × Fin h × Fin w → ℝ) (b : Fin n) (r : Fin c)
    (s top left i j a a' : ℕ) :
    extend h w (fun y u => at4 x b r y u) (((i * s + a : ℕ) : ℤ) - top) (((j * s + a' : ℕ) : ℤ) - left) =
      ∑ y : Fin h, ∑ u : Fin w, sel s top left i j a a' y u * x (b, r, y, u) := by
  rw [extend_sum]
  refine Finset.sum_congr rfl fun y _ => Finset.sum_congr rfl fun u _ => ?_
  unfold sel
  rw [at4_fin, ite_mul, one_mul, zero_mul]
  refine if_congr ?_ rfl rfl
  constructor <;> rintro ⟨h1, h2⟩ <;> constructor <;> omega

theorem coeff_call {n c h w o m m' k : ℕ} (s top left : ℕ) (i : Fin n × Fin o × Fin m × Fin m')
    (f : Fin k × Fin k × Fin c × Fin o → ℝ) (x : Fin n × Fin c × Fin h × Fin w → ℝ) :
    (∑ p, ∑ q, coeff s top left i p q * f p * x q) =
      ∑ a : Fin k, ∑ a' : Fin k, ∑ r : Fin c, f (a, a', r, i.2.1) *
        ∑ y : Fin h, ∑ u : Fin w, sel s top left i.2.2.1 i.2.2.2 a a' y u * x (i.1, r, y, u) := by
  simp only [Fintype.sum_prod_type, coeff, ite_mul, zero_mul, Finset.sum_ite_irrel, Finset.sum_const_zero,
    Finset.sum_ite_eq', Finset.mem_univ, if_true, Finset.mul_sum]
  refine Finset.sum_congr rfl fun a _ => Finset.sum_congr rfl fun a' _ => Finset.sum_congr rfl fun r _ =>
    Finset.sum_congr rfl fun y _ => Finset.sum_congr rfl fun u _ => by ring

theorem coeff_kernel {n c h w o m m' k : ℕ} (s top left : ℕ) (p : Fin k × Fin k × Fin c × Fin o)
    (d : Fin n × Fin o × Fin m × Fin m' → ℝ) (x : Fin n × Fin c × Fin h × Fin w → ℝ) :
    (∑ i, ∑ q, d i * (coeff s top left i p q * x q)) =
      ∑ i : Fin m, ∑ j : Fin m', ∑ b : Fin n, d (b, p.2.2.2, i, j) *
        ∑ y : Fin h, ∑ u : Fin w, sel s top left i j p.1 p.2.1 y u * x (b, p.2.2.1, y, u) := by
  simp only [Fintype.sum_prod_type, coeff, ite_mul, mul_ite, mul_zero, zero_mul, Finset.sum_ite_irrel,
    Finset.sum_const_zero, Finset.sum_ite_eq', Finset.sum_ite_eq, Finset.mem_univ, if_true, ← Finset.mul_sum]
  rw [Finset.sum_comm]
  refine Finset.sum_congr rfl fun i _ => ?_
  rw [Finset.sum_comm]

theorem coeff_bias {n o m m' : ℕ} (q : Fin o) (d : Fin n × Fin o × Fin m × Fin m' → ℝ) :
    (∑ i, d i * if q = i.2.1 then 1 else 0) = ∑ i : Fin m, ∑ j : Fin m', ∑ b : Fin n, d (b, q, i, j) := by
  have e : ∀ b : Fin n, (∑ j : Fin o × Fin m × Fin m', d (b, j) * if q = j.1 then 1 else 0) =
      ∑ i : Fin m, ∑ j : Fin m', d (b, q, i, j) := by
    intro b
    rw [Fintype.sum_prod_type, Finset.sum_eq_single q]
    · rw [Fintype.sum_prod_type]
      refine Finset.sum_congr rfl fun i _ => Finset.sum_congr rfl fun j _ => ?_
      rw [if_pos rfl, mul_one]
    · intro q' _ hq
      refine Finset.sum_eq_zero fun j _ => ?_
      rw [if_neg (Ne.symm hq), mul_zero]
    · intro hn; exact absurd (Finset.mem_univ _) hn
  rw [Fintype.sum_prod_type]
  rw [Finset.sum_congr rfl fun b _ => e b, Finset.sum_comm]
  exact Finset.sum_congr rfl fun i _ => Finset.sum_comm

theorem coeff_input {n c h w o m m' k : ℕ} (s top left : ℕ) (q : Fin n × Fin c × Fin h × Fin w)
    (d : Fin n × Fin o × Fin m × Fin m' → ℝ) (f : Fin k × Fin k × Fin c × Fin o → ℝ) :
    (∑ i, ∑ p, d i * (coeff s top left i p q * f p)) =
      ∑ a : Fin k, ∑ a' : Fin k, ∑ r : Fin o, f (a, a', q.2.1, r) * ∑ i : Fin m, ∑ j : Fin m',
        if (i : ℕ) * s + a = q.2.2.1 + top ∧ (j : ℕ) * s + a' = q.2.2.2 + left then d (q.1, r, i, j) else 0 := by
  simp only [Fintype.sum_prod_type, coeff, ite_mul, mul_ite, mul_zero, zero_mul, Finset.sum_ite_irrel,
    Finset.sum_const_zero, Finset.sum_ite_eq', Finset.sum_ite_eq, Finset.mem_univ, if_true]
  have e : ∀ (r : Fin o) (i : Fin m) (j : Fin m') (a a' : Fin k),
      d (q.1, r, i, j) * (sel s top left i j a a' q.2.2.1 q.2.2.2 * f (a, a', q.2.1, r)) =
        f (a, a', q.2.1, r) * if (i : ℕ) * s + a = q.2.2.1 + top ∧ (j : ℕ) * s + a' = q.2.2.2 + left then
          d (q.1, r, i, j) else 0 := by
    intro r i j a a'
    unfold sel
    by_cases hc : (i : ℕ) * s + a = q.2.2.1 + top ∧ (j : ℕ) * s + a' = q.2.2.2 + left
    · rw [if_pos hc, if_pos hc]; ring
    · rw [if_neg hc, if_neg hc]; ring
  simp only [e]
  trans ∑ r : Fin o, ∑ a : Fin k, ∑ a' : Fin k, ∑ i : Fin m, ∑ j : Fin m', f (a, a', q.2.1, r) *
    if (i : ℕ) * s + a = q.2.2.1 + top ∧ (j : ℕ) * s + a' = q.2.2.2 + left then d (q.1, r, i, j) else 0
  · refine Finset.sum_congr rfl fun r _ => ?_
    have h1 : ∀ i : Fin m, (∑ j : Fin m', ∑ a : Fin k, ∑ a' : Fin k, f (a, a', q.2.1, r) *
        if (i : ℕ) * s + a = q.2.2.1 + top ∧ (j : ℕ) * s + a' = q.2.2.2 + left then d (q.1, r, i, j) else 0) =
        ∑ a : Fin k, ∑ a' : Fin k, ∑ j : Fin m', f (a, a', q.2.1, r) *
        if (i : ℕ) * s + a = q.2.2.1 + top ∧ (j : ℕ) * s + a' = q.2.2.2 + left then d (q.1, r, i, j) else 0 := by
      intro i
      rw [Finset.sum_comm]
      exact Finset.sum_congr rfl fun a _ => Finset.sum_comm
    simp only [h1]
    rw [Finset.sum_comm]
    exact Finset.sum_congr rfl fun a _ => Finset.sum_comm
  · rw [Finset.sum_comm]
    refine Finset.sum_congr rfl fun a _ => ?_
    rw [Finset.sum_comm]
    simp only [Finset.mul_sum]

end Verif.Keras
