import Verif.Aby3.LogReal
import Verif.Aby3.SigmoidReal
import Mathlib.Analysis.SpecialFunctions.ExpDeriv
import Mathlib.Analysis.Calculus.Deriv.MeanValue

/-!
# Polynomials against the logistic function and the hyperbolic tangent

Both are rational functions of `exp (-x)`, which lies between consecutive partial sums of its series for `x ≥ 0`.
-/

namespace Verif.Pond

open Verif.Aby3.PolyBound

/-- The first `n` coefficients of `exp (-x)`. -/
def expCoeffs (n : ℕ) : List ℚ := (List.range n).map fun i : ℕ => (-1 : ℚ) ^ i / (i.factorial : ℚ)

theorem expCoeffs_eval (n : ℕ) (x : ℝ) :
    evalR (expCoeffs n) x = ∑ i ∈ Finset.range n, (-x) ^ i / (i.factorial : ℝ) := by
  induction n with
  | zero => simp [expCoeffs, evalR_nil]
  | succ n ih =>
    rw [Finset.sum_range_succ, ← ih]
    unfold expCoeffs
    rw [List.range_succ, List.map_append, List.map_singleton, append_eval, List.length_map, List.length_range]
    push_cast
    rw [neg_pow x]
    ring

theorem hasDerivAt_partial (n : ℕ) (x : ℝ) :
    HasDerivAt (fun x : ℝ => ∑ i ∈ Finset.range (n + 1), (-x) ^ i / (i.factorial : ℝ))
      (-∑ i ∈ Finset.range n, (-x) ^ i / (i.factorial : ℝ)) x := by
  have h : ∀ i ∈ Finset.range (n + 1), HasDerivAt (fun x : ℝ => (-x) ^ i / (i.factorial : ℝ))
      ((i : ℝ) * (-x) ^ (i - 1) * (-1) / (i.factorial : ℝ)) x := by
    intro i _
    have := ((hasDerivAt_id x).neg.pow i).div_const (i.factorial : ℝ)
    exact this
  have hs := HasDerivAt.fun_sum h
  refine hs.congr_deriv ?_
  symm
  rw [Finset.sum_range_succ', ← Finset.sum_neg_distrib]
  simp only [Nat.cast_zero, zero_mul, zero_div, add_zero]
  refine Finset.sum_congr rfl fun i _ => ?_
  rw [Nat.add_sub_cancel, Nat.factorial_succ]
  push_cast
  have : (i.factorial : ℝ) ≠ 0 := by positivity
  field_simp

/-- The remainders of the series of `exp (-x)` alternate. -/
theorem remainder_sign (n : ℕ) : ∀ {x : ℝ}, 0 ≤ x →
    0 ≤ (-1) ^ n * (Real.exp (-x) - ∑ i ∈ Finset.range n, (-x) ^ i / (i.factorial : ℝ)) := by
  induction n with
  | zero => intro x _; simp [Real.exp_nonneg]
  | succ n ih =>
    intro x hx
    let g : ℝ → ℝ := fun x => (-1) ^ (n + 1) * (Real.exp (-x) - ∑ i ∈ Finset.range (n + 1), (-x) ^ i / (i.factorial : ℝ))
    have hd : ∀ y, HasDerivAt g ((-1) ^ n * (Real.exp (-y) - ∑ i ∈ Finset.range n, (-y) ^ i / (i.factorial : ℝ))) y := by
      intro y
      have h1 := (hasDerivAt_id y).neg.exp
      have h2 := (h1.sub (hasDerivAt_partial n y)).const_mul ((-1 : ℝ) ^ (n + 1))
      refine h2.congr_deriv ?_
      rw [pow_succ]
      show _ * _ * (Real.exp (-y) * -1 - _) = _
      ring
    have hm : MonotoneOn g (Set.Ici 0) := by
      refine monotoneOn_of_deriv_nonneg (convex_Ici 0) (fun y _ => (hd y).continuousAt.continuousWithinAt)
        (fun y _ => (hd y).differentiableAt.differentiableWithinAt) fun y hy => ?_
      rw [(hd y).deriv]
      rw [interior_Ici] at hy
      exact ih (le_of_lt hy)
    have h0 : g 0 = 0 := by
      show (-1 : ℝ) ^ (n + 1) * (Real.exp (-0) - ∑ i ∈ Finset.range (n + 1), (-0) ^ i / (i.factorial : ℝ)) = 0
      rw [Finset.sum_range_succ']
      simp
    have := hm (Set.mem_Ici.2 le_rfl) (Set.mem_Ici.2 hx) hx
    rw [h0] at this
    exact this

theorem exp_partial {x : ℝ} (hx : 0 ≤ x) (n : ℕ) : |Real.exp (-x) - evalR (expCoeffs n) x| ≤ x ^ n / n.factorial := by
  rw [expCoeffs_eval]
  have h1 := remainder_sign n hx
  have h2 := remainder_sign (n + 1) hx
  rw [Finset.sum_range_succ, pow_succ] at h2
  have e : (-x) ^ n / (n.factorial : ℝ) = (-1) ^ n * (x ^ n / n.factorial) := by rw [neg_pow]; ring
  rw [e] at h2
  have hsq : ((-1 : ℝ) ^ n) * (-1) ^ n = 1 := by rw [← mul_pow]; norm_num
  set R := Real.exp (-x) - ∑ i ∈ Finset.range n, (-x) ^ i / (i.factorial : ℝ) with hR
  have h3 : (-1 : ℝ) ^ n * R ≤ x ^ n / n.factorial := by
    have e2 : Real.exp (-x) - (∑ i ∈ Finset.range n, (-x) ^ i / (i.factorial : ℝ) + (-1) ^ n * (x ^ n / n.factorial)) =
        R - (-1) ^ n * (x ^ n / n.factorial) := by rw [hR]; ring
    rw [e2] at h2
    have : (-1 : ℝ) ^ n * -1 * (R - (-1) ^ n * (x ^ n / n.factorial)) =
        ((-1) ^ n * (-1) ^ n) * (x ^ n / n.factorial) - (-1) ^ n * R := by ring
    rw [this, hsq, one_mul] at h2
    linarith
  have h4 : |R| = (-1 : ℝ) ^ n * R := by
    rw [← abs_of_nonneg h1, abs_mul, abs_pow, abs_neg, abs_one, one_pow, one_mul]
  rw [h4]
  exact h3

/-- Product of polynomials. -/
def mulP : List ℚ → List ℚ → List ℚ
  | [], _ => []
  | a :: p, q => sub (q.map (a * ·)) (0 :: (mulP p q).map fun b => -b)

theorem mulP_eval (p q : List ℚ) (x : ℝ) : evalR (mulP p q) x = evalR p x * evalR q x := by
  induction p with
  | nil => rw [mulP, evalR_nil, zero_mul]
  | cons a p ih =>
    rw [mulP, sub_eval, map_mul_eval, evalR_cons, map_neg_eval, ih, evalR_cons]
    push_cast
    ring

/-- The numerator of `p - (a + b·E) / (1 + E)` with `E` the partial sum of `exp (-c x)`. -/
def ratDiff (p : List ℚ) (c a b : ℚ) (n : ℕ) : List ℚ :=
  sub (sub (mulP p (addConst 1 (scale c (expCoeffs n)))) ((scale c (expCoeffs n)).map (b * ·))) [a]

/-- A polynomial against `(a + b·exp (-c x)) / (1 + exp (-c x))`. -/
theorem rat_close {p : List ℚ} {c a b r M K : ℚ} {n k d : ℕ} (hc : 0 ≤ c)
    (hM : check (ratDiff p c a b n) M k 0 r = true) (hK : check p K d 0 r = true) {x : ℝ} (h0 : 0 ≤ x) (h1 : x ≤ r) :
    |evalR p x - (a + b * Real.exp (-(c * x))) / (1 + Real.exp (-(c * x)))| ≤
      M + (K + |(b : ℝ)|) * ((c * r) ^ n / n.factorial) := by
  have hE := Real.exp_pos (-(c * x))
  have hcr : (0 : ℝ) ≤ c := by exact_mod_cast hc
  have hT := exp_partial (mul_nonneg hcr h0) n
  have hD := check_sound _ M k 0 r hM x (by push_cast; exact h0) h1
  have hP := check_sound _ K d 0 r hK x (by push_cast; exact h0) h1
  rw [ratDiff, sub_eval, sub_eval, mulP_eval, addConst_eval, map_mul_eval, scale_eval, evalR_cons, evalR_nil, mul_zero,
    add_zero] at hD
  set E := Real.exp (-(c * x)) with hEd
  set S := evalR (expCoeffs n) (c * x) with hSd
  set P := evalR p x with hPd
  have h1E : 0 < 1 + E := by linarith
  have e : P - (a + b * E) / (1 + E) = ((P * ((1 : ℚ) + S) - b * S - a) + (P - b) * (E - S)) / (1 + E) := by
    push_cast
    field_simp
    ring
  have hcx : (c * x) ^ n / (n.factorial : ℝ) ≤ (c * r) ^ n / n.factorial := by
    gcongr
  have hb : |P - b| ≤ K + |(b : ℝ)| := by
    calc |P - b| = |P + -b| := by rw [sub_eq_add_neg]
      _ ≤ |P| + |(-b : ℝ)| := abs_add_le _ _
      _ ≤ _ := by rw [abs_neg]; linarith
  rw [e, abs_div, abs_of_pos h1E, div_le_iff₀ h1E]
  have hnum : |(P * ((1 : ℚ) + S) - b * S - a) + (P - b) * (E - S)| ≤ M + (K + |(b : ℝ)|) * ((c * r) ^ n / n.factorial) := by
    refine (abs_add_le _ _).trans (add_le_add hD ?_)
    rw [abs_mul]
    exact mul_le_mul hb (hT.trans hcx) (abs_nonneg _) ((abs_nonneg _).trans hb)
  refine hnum.trans ?_
  have hnn := (abs_nonneg _).trans hnum
  nlinarith

theorem logistic_eq (x : ℝ) : Aby3.logistic x = (((1 : ℚ) : ℝ) + ((0 : ℚ) : ℝ) * Real.exp (-(((1 : ℚ) : ℝ) * x))) / (1 + Real.exp (-(((1 : ℚ) : ℝ) * x))) := by
  unfold Aby3.logistic
  push_cast
  rw [zero_mul, add_zero, one_mul]

theorem tanh_eq (x : ℝ) : Real.tanh x = (((1 : ℚ) : ℝ) + ((-1 : ℚ) : ℝ) * Real.exp (-(((2 : ℚ) : ℝ) * x))) / (1 + Real.exp (-(((2 : ℚ) : ℝ) * x))) := by
  rw [Real.tanh_eq_sinh_div_cosh, Real.sinh_eq, Real.cosh_eq]
  push_cast
  have h : Real.exp (-(2 * x)) = Real.exp (-x) * Real.exp (-x) := by rw [← Real.exp_add]; ring_nf
  have h2 : Real.exp x * Real.exp (-x) = 1 := by rw [← Real.exp_add]; simp
  rw [h]
  have p1 := Real.exp_pos x
  have p2 := Real.exp_pos (-x)
  rw [div_div_div_cancel_right₀ (by norm_num), div_eq_div_iff (by positivity) (by positivity)]
  generalize Real.exp x = a at *
  generalize Real.exp (-x) = b at *
  have h3 : a * b * b = b := by rw [h2, one_mul]
  linear_combination (2 : ℝ) * h3

end Verif.Pond
