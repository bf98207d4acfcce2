import Mathlib.Analysis.Complex.ExponentialBounds

/-!
# The logistic function and straight lines
-/

namespace Verif.Aby3

/-- The logistic function. -/
noncomputable def logistic (x : ℝ) : ℝ := 1 / (1 + Real.exp (-x))

theorem logistic_neg (x : ℝ) : logistic (-x) = 1 - logistic x := by
  unfold logistic
  rw [neg_neg, Real.exp_neg]
  have := Real.exp_pos x
  field_simp
  ring

theorem logistic_pos (x : ℝ) : 0 < logistic x := by
  unfold logistic
  have := Real.exp_pos (-x)
  positivity

theorem logistic_lt_one (x : ℝ) : logistic x < 1 := by
  have := logistic_pos (-x)
  rw [logistic_neg] at this
  linarith

/-- An upper bound from the tangent of the exponential at `-t`. -/
theorem logistic_le {x t E v : ℝ} (hE : E ≤ Real.exp (-t)) (ht : x ≤ t + 1) (hv : 0 < v)
    (h : 1 ≤ v * (1 + E * (1 - (x - t)))) : logistic x ≤ v := by
  have h1 : E * (1 - (x - t)) ≤ Real.exp (-x) := by
    have k := Real.add_one_le_exp (-(x - t))
    calc E * (1 - (x - t)) ≤ Real.exp (-t) * (1 - (x - t)) := mul_le_mul_of_nonneg_right hE (by linarith)
      _ ≤ Real.exp (-t) * Real.exp (-(x - t)) := mul_le_mul_of_nonneg_left (by linarith) (Real.exp_pos _).le
      _ = Real.exp (-x) := by rw [← Real.exp_add]; congr 1; ring
  unfold logistic
  rw [div_le_iff₀ (by have := Real.exp_pos (-x); linarith)]
  have := mul_le_mul_of_nonneg_left h1 hv.le
  linarith

/-- A lower bound from the tangent of the exponential at `t`. -/
theorem le_logistic {x t F v : ℝ} (hF : F ≤ Real.exp t) (ht : t ≤ x + 1) (hv : v < 1)
    (h : 1 ≤ (1 - v) * (1 + F * (1 + (x - t)))) : v ≤ logistic x := by
  have := logistic_le (x := -x) (t := -t) (E := F) (v := 1 - v) (by rwa [neg_neg]) (by linarith) (by linarith)
    (by rw [show 1 - (-x - -t) = 1 + (x - t) by ring]; exact h)
  rw [logistic_neg] at this
  linarith

theorem exp_half : (1.6487 : ℝ) ≤ Real.exp (1 / 2) ∧ Real.exp (1 / 2) ≤ 1.6488 := by
  have h : Real.exp (1 / 2) * Real.exp (1 / 2) = Real.exp 1 := by
    rw [← Real.exp_add]; norm_num
  have a := Real.exp_one_gt_d9
  have b := Real.exp_one_lt_d9
  have p := Real.exp_pos (1 / 2)
  constructor <;> nlinarith

theorem exp_halves (k : ℕ) : (1.6487 : ℝ) ^ k ≤ Real.exp (k / 2) ∧ 1 / (1.6488 : ℝ) ^ k ≤ Real.exp (-(k / 2)) := by
  have e : Real.exp ((k : ℝ) / 2) = Real.exp (1 / 2) ^ k := by
    rw [← Real.exp_nat_mul]; congr 1; ring
  refine ⟨e ▸ pow_le_pow_left₀ (by norm_num) exp_half.1 k, ?_⟩
  rw [Real.exp_neg, e, ← one_div]
  exact one_div_le_one_div_of_le (pow_pos (Real.exp_pos _) k)
    (pow_le_pow_left₀ (Real.exp_pos _).le exp_half.2 k)

/-- Upper bound on an interval where the line plus the error is given. -/
theorem line_upper (k : ℕ) {x a b p q : ℝ} (hx : a ≤ x ∧ x ≤ b) (hb : b ≤ k / 2 + 1) (hq : 0 ≤ q)
    (hp : 0 < p + q * a)
    (h1 : 1 ≤ (p + q * a) * (1 + 1 / (1.6488 : ℝ) ^ k * (1 - (a - k / 2))))
    (h2 : 1 ≤ (p + q * b) * (1 + 1 / (1.6488 : ℝ) ^ k * (1 - (b - k / 2)))) : logistic x ≤ p + q * x := by
  have hE : (0 : ℝ) ≤ 1 / (1.6488 : ℝ) ^ k := by positivity
  refine logistic_le (exp_halves k).2 (by linarith [hx.2]) (by nlinarith [hx.1]) ?_
  generalize 1 / (1.6488 : ℝ) ^ k = E at *
  rcases eq_or_lt_of_le (hx.1.trans hx.2) with hab | hab
  · have : x = a := le_antisymm (hab ▸ hx.2) hx.1
    rw [this]; exact h1
  · have k1 := mul_nonneg (mul_nonneg hE hq) (mul_nonneg (sub_nonneg.2 hx.1) (sub_nonneg.2 hx.2))
    have k2 := mul_le_mul_of_nonneg_left h1 (sub_nonneg.2 hx.2)
    have k3 := mul_le_mul_of_nonneg_left h2 (sub_nonneg.2 hx.1)
    have k4 := mul_nonneg k1 (sub_nonneg.2 hab.le)
    refine le_of_mul_le_mul_left ?_ (sub_pos.2 hab)
    nlinarith

theorem line_lower (k : ℕ) {x a b p q : ℝ} (hx : a ≤ x ∧ x ≤ b) (ha : k / 2 ≤ a + 1) (hq : 0 ≤ q)
    (hp : p + q * b < 1)
    (h1 : 1 ≤ (1 - (p + q * a)) * (1 + (1.6487 : ℝ) ^ k * (1 + (a - k / 2))))
    (h2 : 1 ≤ (1 - (p + q * b)) * (1 + (1.6487 : ℝ) ^ k * (1 + (b - k / 2)))) : p + q * x ≤ logistic x := by
  have hE : (0 : ℝ) ≤ (1.6487 : ℝ) ^ k := by positivity
  refine le_logistic (exp_halves k).1 (by linarith [hx.1]) (by nlinarith [hx.2]) ?_
  generalize (1.6487 : ℝ) ^ k = E at *
  rcases eq_or_lt_of_le (hx.1.trans hx.2) with hab | hab
  · have : x = a := le_antisymm (hab ▸ hx.2) hx.1
    rw [this]; exact h1
  · have k1 := mul_nonneg (mul_nonneg hE hq) (mul_nonneg (sub_nonneg.2 hx.1) (sub_nonneg.2 hx.2))
    have k2 := mul_le_mul_of_nonneg_left h1 (sub_nonneg.2 hx.2)
    have k3 := mul_le_mul_of_nonneg_left h2 (sub_nonneg.2 hx.1)
    have k4 := mul_nonneg k1 (sub_nonneg.2 hab.le)
    refine le_of_mul_le_mul_left ?_ (sub_pos.2 hab)
    nlinarith

/-! ## The lines of the two approximations -/

theorem five_middle {x : ℝ} (h : |x| ≤ 3 / 2) : |0.5 + 0.212 * x - logistic x| ≤ 0.042 := by
  have main : ∀ x : ℝ, 0 ≤ x → x ≤ 3 / 2 → |0.5 + 0.212 * x - logistic x| ≤ 0.042 := by
    intro x h0 h1
    rw [abs_le]
    constructor
    · have : logistic x ≤ 0.542 + 0.212 * x := by
        rcases le_total x 0.85 with h | h
        · exact line_upper 1 ⟨h0, h⟩ (by norm_num) (by norm_num) (by norm_num) (by norm_num) (by norm_num)
        · exact line_upper 2 ⟨h, h1⟩ (by norm_num) (by norm_num) (by norm_num) (by norm_num) (by norm_num)
      linarith
    · have : 0.458 + 0.212 * x ≤ logistic x := by
        rcases le_total x 0.95 with h | h
        · exact line_lower 0 ⟨h0, h⟩ (by norm_num) (by norm_num) (by norm_num) (by norm_num) (by norm_num)
        · exact line_lower 2 ⟨h, h1⟩ (by norm_num) (by norm_num) (by norm_num) (by norm_num) (by norm_num)
      linarith
  rcases le_total 0 x with h0 | h0
  · exact main x h0 ((le_abs_self x).trans h)
  · have := main (-x) (by linarith) ((neg_le_abs x).trans h)
    rw [logistic_neg, ← abs_neg] at this
    convert this using 2
    ring

theorem five_side {x : ℝ} (h1 : 3 / 2 ≤ x) (h4 : x ≤ 4) : |0.719 + 0.066 * x - logistic x| ≤ 0.042 := by
  rw [abs_le]
  constructor
  · have : logistic x ≤ 0.761 + 0.066 * x := by
      rcases le_total x 2.8 with h | h
      · exact line_upper 5 ⟨h1, h⟩ (by norm_num) (by norm_num) (by norm_num) (by norm_num) (by norm_num)
      · exact line_upper 6 ⟨h, h4⟩ (by norm_num) (by norm_num) (by norm_num) (by norm_num) (by norm_num)
    linarith
  · have : 0.677 + 0.066 * x ≤ logistic x :=
      line_lower 4 ⟨h1, h4⟩ (by norm_num) (by norm_num) (by norm_num) (by norm_num) (by norm_num)
    linarith

theorem logistic_mono {x y : ℝ} (h : x ≤ y) : logistic x ≤ logistic y := by
  unfold logistic
  refine one_div_le_one_div_of_le (by have := Real.exp_pos (-y); linarith) ?_
  have := Real.exp_le_exp.2 (neg_le_neg h)
  linarith

theorem five_outer {x : ℝ} (h4 : 4 ≤ x) : |0.9999 - logistic x| ≤ 0.042 := by
  have h := logistic_mono h4
  have h' : (0.98 : ℝ) + 0 * 4 ≤ logistic 4 :=
    line_lower 8 (a := 4) (b := 4) ⟨le_rfl, le_rfl⟩ (by norm_num) (by norm_num) (by norm_num) (by norm_num) (by norm_num)
  have := logistic_lt_one x
  rw [abs_le]
  constructor <;> linarith

theorem three_middle {x : ℝ} (h : |x| ≤ 5 / 2) : |0.5 + 0.17 * x - logistic x| ≤ 0.076 := by
  have main : ∀ x : ℝ, 0 ≤ x → x ≤ 5 / 2 → |0.5 + 0.17 * x - logistic x| ≤ 0.076 := by
    intro x h0 h1
    rw [abs_le]
    constructor
    · have : logistic x ≤ 0.576 + 0.17 * x := by
        rcases le_total x 0.85 with h | h
        · exact line_upper 1 ⟨h0, h⟩ (by norm_num) (by norm_num) (by norm_num) (by norm_num) (by norm_num)
        rcases le_total x 1.3 with h' | h'
        · exact line_upper 2 ⟨h, h'⟩ (by norm_num) (by norm_num) (by norm_num) (by norm_num) (by norm_num)
        · exact line_upper 3 ⟨h', h1⟩ (by norm_num) (by norm_num) (by norm_num) (by norm_num) (by norm_num)
      linarith
    · have : 0.424 + 0.17 * x ≤ logistic x := by
        rcases le_total x 2.35 with h | h
        · exact line_lower 1 ⟨h0, h⟩ (by norm_num) (by norm_num) (by norm_num) (by norm_num) (by norm_num)
        · exact line_lower 2 ⟨h, h1⟩ (by norm_num) (by norm_num) (by norm_num) (by norm_num) (by norm_num)
      linarith
  rcases le_total 0 x with h0 | h0
  · exact main x h0 ((le_abs_self x).trans h)
  · have := main (-x) (by linarith) ((neg_le_abs x).trans h)
    rw [logistic_neg, ← abs_neg] at this
    convert this using 2
    ring

theorem three_outer {x : ℝ} (h : 5 / 2 ≤ x) : |0.9999 - logistic x| ≤ 0.076 := by
  have h := logistic_mono h
  have h' : (0.9239 : ℝ) + 0 * (5 / 2) ≤ logistic (5 / 2) :=
    line_lower 5 (a := 5 / 2) (b := 5 / 2) ⟨le_rfl, le_rfl⟩ (by norm_num) (by norm_num) (by norm_num) (by norm_num) (by norm_num)
  have := logistic_lt_one x
  rw [abs_le]
  constructor <;> linarith

end Verif.Aby3
