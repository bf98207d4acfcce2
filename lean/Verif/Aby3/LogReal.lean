import Verif.Aby3.PolyBound
import Mathlib.Analysis.SpecialFunctions.Log.Deriv
import Mathlib.Analysis.SpecialFunctions.Log.Base
import Mathlib.Analysis.Complex.ExponentialBounds

/-!
# The logarithm and polynomials
-/

namespace Verif.Aby3.PolyBound

/-- The polynomial in `c * x`. -/
def scale (c : ℚ) : List ℚ → List ℚ
  | [] => []
  | a :: p => a :: (scale c p).map (c * ·)

/-- The difference of two polynomials. -/
def sub : List ℚ → List ℚ → List ℚ
  | [], q => q.map fun b => -b
  | p, [] => p
  | a :: p, b :: q => (a - b) :: sub p q

theorem map_mul_eval (c : ℚ) (p : List ℚ) (x : ℝ) : evalR (p.map (c * ·)) x = c * evalR p x := by
  induction p with
  | nil => simp [evalR_nil]
  | cons a p ih => rw [List.map_cons, evalR_cons, evalR_cons, ih]; push_cast; ring

theorem map_neg_eval (p : List ℚ) (x : ℝ) : evalR (p.map fun b => -b) x = -evalR p x := by
  induction p with
  | nil => simp [evalR_nil]
  | cons a p ih => rw [List.map_cons, evalR_cons, evalR_cons, ih]; push_cast; ring

theorem scale_eval (c : ℚ) (p : List ℚ) (x : ℝ) : evalR (scale c p) x = evalR p (c * x) := by
  induction p with
  | nil => rfl
  | cons a p ih => rw [scale, evalR_cons, evalR_cons, map_mul_eval, ih]; ring

theorem sub_eval (p q : List ℚ) (x : ℝ) : evalR (sub p q) x = evalR p x - evalR q x := by
  induction p generalizing q with
  | nil => rw [sub, map_neg_eval, evalR_nil]; ring
  | cons a p ih =>
    cases q with
    | nil => rw [sub, evalR_nil, sub_zero]; intro h; cases h
    | cons b q => rw [sub, evalR_cons, evalR_cons, evalR_cons, ih]; push_cast; ring

theorem append_eval (p : List ℚ) (a : ℚ) (x : ℝ) : evalR (p ++ [a]) x = evalR p x + a * x ^ p.length := by
  induction p with
  | nil => simp [evalR_cons, evalR_nil]
  | cons b p ih => rw [List.cons_append, evalR_cons, evalR_cons, ih, List.length_cons, pow_succ]; ring

/-- The first `n` terms of the series of `log (1 + t)`. -/
def series (n : ℕ) : List ℚ := 0 :: (List.range n).map fun i : ℕ => (-1 : ℚ) ^ i / ((i : ℚ) + 1)

theorem series_eval (n : ℕ) (t : ℝ) :
    evalR (series n) t = -∑ i ∈ Finset.range n, (-t) ^ (i + 1) / (i + 1) := by
  induction n with
  | zero => simp [series, evalR_cons, evalR_nil]
  | succ n ih =>
    rw [Finset.sum_range_succ, neg_add, ← ih]
    unfold series
    rw [List.range_succ, List.map_append, List.map_singleton, evalR_cons, evalR_cons, append_eval, List.length_map,
      List.length_range]
    push_cast
    rw [neg_pow t (n + 1), pow_succ (-1 : ℝ), pow_succ t]
    ring

theorem log_series {t ρ : ℝ} (ht : |t| ≤ ρ) (hρ : ρ < 1) (n : ℕ) :
    |Real.log (1 + t) - evalR (series n) t| ≤ ρ ^ (n + 1) / (1 - ρ) := by
  have h := Real.abs_log_sub_add_sum_range_le (x := -t) (by rw [abs_neg]; linarith) n
  rw [abs_neg, sub_neg_eq_add] at h
  rw [series_eval, sub_neg_eq_add, add_comm]
  refine h.trans (div_le_div₀ (by have := (abs_nonneg t).trans ht; positivity)
    (pow_le_pow_left₀ (abs_nonneg t) ht _) (by linarith) (by linarith))

/-- The polynomial minus the series around `c`, in `t` with `x = c (1 + t)`; `L` stands for `log c`. -/
def logDiff (p : List ℚ) (c L : ℚ) (n : ℕ) : List ℚ := sub (scale c (shift c p)) (addConst L (series n))

/-- **A polynomial is close to the logarithm** on `[a, b]`, by the check. -/
theorem log_close {p : List ℚ} {c L M ρ a b δ : ℚ} {n k : ℕ} (hc : 0 < c) (hL : |Real.log c - L| ≤ δ) (hρ : ρ < 1)
    (ha : c * (1 - ρ) ≤ a) (hb : b ≤ c * (1 + ρ)) (h : check (logDiff p c L n) M k (a / c - 1) (b / c - 1) = true)
    {x : ℝ} (h1 : a ≤ x) (h2 : x ≤ b) :
    |evalR p x - Real.log x| ≤ M + δ + ρ ^ (n + 1) / (1 - ρ) := by
  have hc' : (0 : ℝ) < c := by exact_mod_cast hc
  have hρ' : (ρ : ℝ) < 1 := by exact_mod_cast hρ
  have ha' : (c : ℝ) * (1 - ρ) ≤ a := by exact_mod_cast ha
  have hb' : (b : ℝ) ≤ c * (1 + ρ) := by exact_mod_cast hb
  set t : ℝ := x / c - 1 with ht
  have hx : x = c + c * t := by rw [ht]; field_simp; ring
  have hxc : x = c * (1 + t) := by rw [hx]; ring
  have hpos : 0 < x := lt_of_lt_of_le (by have : (0 : ℝ) < 1 - ρ := by linarith
                                          positivity) (ha'.trans h1)
  have htρ : |t| ≤ ρ := by
    rw [abs_le, ht]
    constructor
    · rw [le_sub_iff_add_le, le_div_iff₀ hc']; linarith
    · rw [sub_le_iff_le_add, div_le_iff₀ hc']; linarith
  have hpos' : 0 < 1 + t := by rw [hxc] at hpos; exact pos_of_mul_pos_right hpos hc'.le
  have s1 := log_series htρ hρ' n
  have s2 := check_sound _ _ _ _ _ h t (by
    push_cast; rw [ht]
    exact sub_le_sub_right ((div_le_div_iff_of_pos_right hc').2 h1) 1) (by
    push_cast; rw [ht]
    exact sub_le_sub_right ((div_le_div_iff_of_pos_right hc').2 h2) 1)
  unfold logDiff at s2
  rw [sub_eval, scale_eval, shift_eval, ← hx, addConst_eval] at s2
  have e : Real.log x = Real.log c + Real.log (1 + t) := by rw [hxc, Real.log_mul hc'.ne' hpos'.ne']
  rw [e]
  rw [abs_le] at *
  constructor <;> linarith

theorem log_pow_two (k : ℤ) : |Real.log ((2 ^ k : ℚ) : ℝ) - ((k * (6931471806 / 10000000000) : ℚ) : ℝ)| ≤ ((|k| * (1 / 10 ^ 9) : ℚ) : ℝ) := by
  have e : Real.log ((2 ^ k : ℚ) : ℝ) = k * Real.log 2 := by
    push_cast; rw [Real.log_zpow]
  rw [e]
  push_cast
  rw [← mul_sub, abs_mul]
  refine mul_le_mul_of_nonneg_left ?_ (abs_nonneg _)
  have a := Real.log_two_gt_d9
  have b := Real.log_two_lt_d9
  rw [abs_le]
  constructor <;> linarith

end Verif.Aby3.PolyBound

namespace Verif.Aby3

open PolyBound

/-- The coefficients of `_log_private` (aby3.py:4316-4321), lowest first. -/
def chebCoeffs : List ℚ := [-335674972 / 10 ^ 8, 1279333646 / 10 ^ 8, -2618955259 / 10 ^ 8, 3024596692 / 10 ^ 8,
  -1730367641 / 10 ^ 8, 382474222 / 10 ^ 8]

set_option maxRecDepth 20000 in
/-- The polynomial is within 0.0367 of the natural logarithm on `[1/10, 3/2]`. -/
theorem cheb_log {x : ℝ} (h1 : 1 / 10 ≤ x) (h2 : x ≤ 3 / 2) : |evalR chebCoeffs x - Real.log x| ≤ 367 / 10000 := by
  have key : ∀ (k : ℤ) (ρ a b : ℚ) (n d : ℕ), ρ < 1 → 2 ^ k * (1 - ρ) ≤ a → b ≤ 2 ^ k * (1 + ρ) →
      check (logDiff chebCoeffs (2 ^ k) (k * (6931471806 / 10000000000)) n)
        (367 / 10000 - |k| * (1 / 10 ^ 9) - ρ ^ (n + 1) / (1 - ρ)) d (a / 2 ^ k - 1) (b / 2 ^ k - 1) = true →
      (a : ℝ) ≤ x → x ≤ b → |evalR chebCoeffs x - Real.log x| ≤ 367 / 10000 := by
    intro k ρ a b n d e1 e2 e3 e4 e5 e6
    have := log_close (x := x) (by positivity) (log_pow_two k) e1 e2 e3 e4 e5 e6
    refine this.trans (le_of_eq ?_)
    push_cast
    ring
  rcases le_total x (1 / 6) with h | h
  · exact key (-3) (1 / 3) (1 / 10) (1 / 6) 8 12 (by norm_num) (by norm_num) (by norm_num) (by decide +kernel)
      (by push_cast; exact h1) (by push_cast; exact h)
  rcases le_total x (1 / 3) with h' | h'
  · exact key (-2) (1 / 3) (1 / 6) (1 / 3) 8 12 (by norm_num) (by norm_num) (by norm_num) (by decide +kernel)
      (by push_cast; exact h) (by push_cast; exact h')
  rcases le_total x (2 / 3) with h'' | h''
  · exact key (-1) (1 / 3) (1 / 3) (2 / 3) 8 12 (by norm_num) (by norm_num) (by norm_num) (by decide +kernel)
      (by push_cast; exact h') (by push_cast; exact h'')
  · exact key 0 (1 / 2) (2 / 3) (3 / 2) 12 12 (by norm_num) (by norm_num) (by norm_num) (by decide +kernel)
      (by push_cast; exact h'') (by push_cast; exact h2)

/-- The coefficients of `_do_fp_log_private` (fp.py:179-181) for base 2, lowest first. -/
def fpCoeffs : List ℚ := [-1843924 / 10 ^ 6, 2276597 / 10 ^ 6, -4326728 / 10 ^ 7]

set_option maxRecDepth 20000 in
/-- The quadratic is within 0.02143 of the binary logarithm on `[1, 2]`. -/
theorem quad_log {x : ℝ} (h1 : 1 ≤ x) (h2 : x ≤ 2) : |evalR fpCoeffs x - Real.logb 2 x| ≤ 2143 / 100000 := by
  have hq : |evalR fpCoeffs x| ≤ 2 := by
    have := check_sound fpCoeffs 2 3 1 2 (by decide +kernel) x (by push_cast; exact h1) (by push_cast; exact h2)
    push_cast at this
    exact this
  have key : ∀ (k : ℤ) (ρ a b : ℚ) (n d : ℕ), ρ < 1 → 2 ^ k * (1 - ρ) ≤ a → b ≤ 2 ^ k * (1 + ρ) →
      check (logDiff (fpCoeffs.map (6931471806 / 10000000000 * ·)) (2 ^ k) (k * (6931471806 / 10000000000)) n)
        (1485 / 100000 - |k| * (1 / 10 ^ 9) - ρ ^ (n + 1) / (1 - ρ)) d (a / 2 ^ k - 1) (b / 2 ^ k - 1) = true →
      (a : ℝ) ≤ x → x ≤ b → |6931471806 / 10000000000 * evalR fpCoeffs x - Real.log x| ≤ 1485 / 100000 := by
    intro k ρ a b n d e1 e2 e3 e4 e5 e6
    have := log_close (x := x) (by positivity) (log_pow_two k) e1 e2 e3 e4 e5 e6
    rw [map_mul_eval] at this
    push_cast at this
    refine this.trans (le_of_eq ?_)
    ring
  have h : |6931471806 / 10000000000 * evalR fpCoeffs x - Real.log x| ≤ 1485 / 100000 := by
    rcases le_total x (3 / 2) with h | h
    · exact key 0 (1 / 2) 1 (3 / 2) 12 12 (by norm_num) (by norm_num) (by norm_num) (by decide +kernel)
        (by push_cast; exact h1) (by push_cast; exact h)
    · exact key 1 (1 / 4) (3 / 2) 2 12 12 (by norm_num) (by norm_num) (by norm_num) (by decide +kernel)
        (by push_cast; exact h) (by push_cast; exact h2)
  have a := Real.log_two_gt_d9
  have b := Real.log_two_lt_d9
  have hl : (0 : ℝ) < Real.log 2 := by linarith
  rw [Real.logb, show evalR fpCoeffs x - Real.log x / Real.log 2 = (Real.log 2 * evalR fpCoeffs x - Real.log x) / Real.log 2 by
    field_simp, abs_div, abs_of_pos hl, div_le_iff₀ hl]
  have h3 : |Real.log 2 * evalR fpCoeffs x - 6931471806 / 10000000000 * evalR fpCoeffs x| ≤ 1 / 10 ^ 9 * 2 := by
    rw [← sub_mul, abs_mul]
    refine mul_le_mul ?_ hq (abs_nonneg _) (by norm_num)
    rw [abs_le]
    constructor <;> linarith
  have h4 := abs_add_le (Real.log 2 * evalR fpCoeffs x - 6931471806 / 10000000000 * evalR fpCoeffs x)
    (6931471806 / 10000000000 * evalR fpCoeffs x - Real.log x)
  rw [sub_add_sub_cancel] at h4
  norm_num at h3 ⊢
  linarith

end Verif.Aby3
