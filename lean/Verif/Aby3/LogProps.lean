import Verif.Aby3.LogLemmas
import Verif.Aby3.RecipProps
import Verif.Aby3.NormProps
import Verif.Aby3.SigmoidProps
import Verif.Aby3.CompareProps

/-!
# C68: the logarithm is close to the real one

For all tensors, sharings and draws. `log` is within 0.037 of the natural logarithm for numbers from 1/10 to
3/2, and off by more than 4 at 2. The logarithms of `fp.py` are within 0.022 (for base 2) of the real ones for
all numbers that fit, except the smallest.
-/

namespace Verif.Aby3

open Verif PolyBound

variable {w n : ℕ}

attribute [local irreducible] M.All M.Sim

/-! ## Words -/

theorem prod_close {a b A B ea eb α β : ℚ} (ha : |a - A| ≤ ea) (hb : |b - B| ≤ eb) (hA : |A| ≤ α) (hβ : |b| ≤ β) :
    |a * b - A * B| ≤ ea * β + α * eb := by
  have e : a * b - A * B = (a - A) * b + A * (b - B) := by ring
  rw [e]
  refine (abs_add_le _ _).trans ?_
  rw [abs_mul, abs_mul]
  exact add_le_add (mul_le_mul ha hβ (abs_nonneg _) ((abs_nonneg _).trans ha))
    (mul_le_mul hA hb (abs_nonneg _) ((abs_nonneg _).trans hA))

/-- A product of numbers of moderate size, with what they stand for. -/
theorem mul_word {frac : ℕ} (hw : 2 * frac + 11 ≤ w) {u v z : BitVec w} {A B ea eb α β γ : ℚ}
    (hz : TruncOk .heuristic frac (u * v) z) (ha : |real frac u - A| ≤ ea) (hb : |real frac v - B| ≤ eb)
    (hA : |A| ≤ α) (hB : |B| ≤ β) (h : (α + ea) * (β + eb) < 512) (hγ : ea * (β + eb) + α * eb + 1 / 2 ^ frac ≤ γ) :
    |real frac z - A * B| ≤ γ := by
  have hu : |real frac u| ≤ α + ea := by
    have := abs_add_le A (real frac u - A)
    rw [add_sub_cancel] at this
    linarith
  have hv : |real frac v| ≤ β + eb := by
    have := abs_add_le B (real frac v - B)
    rw [add_sub_cancel] at this
    linarith
  have h1 := mul_real (frac := frac) (by omega) (z := z) (u := u) (v := v) (by
    rw [abs_mul]
    have h2 : |real frac u| * |real frac v| < 512 :=
      lt_of_le_of_lt (mul_le_mul hu hv (abs_nonneg _) ((abs_nonneg _).trans hu)) h
    have hN : (0 : ℚ) < 2 ^ frac * 2 ^ frac := by positivity
    calc |real frac u| * |real frac v| * (2 ^ frac * 2 ^ frac) < 512 * (2 ^ frac * 2 ^ frac) :=
          mul_lt_mul_of_pos_right h2 hN
      _ = 2 ^ (9 + (frac + frac)) := by rw [pow_add, pow_add]; norm_num
      _ ≤ 2 ^ (w - 2) := pow_le_pow_right₀ (by norm_num) (by omega)) hz
  have h2 := prod_close ha hb hA hv
  have h3 := abs_add_le (real frac z - real frac u * real frac v) (real frac u * real frac v - A * B)
  rw [sub_add_sub_cancel] at h3
  linarith

theorem add_word {frac : ℕ} (hw : frac + 11 ≤ w) {u v : BitVec w} {A B ea eb : ℚ}
    (ha : |real frac u - A| ≤ ea) (hb : |real frac v - B| ≤ eb) (h : |A| + |B| + ea + eb < 1024) :
    |real frac (u + v) - (A + B)| ≤ ea + eb := by
  have e : |real frac u + real frac v - (A + B)| ≤ ea + eb := by
    rw [show real frac u + real frac v - (A + B) = (real frac u - A) + (real frac v - B) by ring]
    exact (abs_add_le _ _).trans (add_le_add ha hb)
  rw [add_real (by omega)]
  · exact e
  · have h1 := abs_add_le (real frac u + real frac v - (A + B)) (A + B)
    rw [sub_add_cancel] at h1
    have h2 := abs_add_le A B
    have hN : (0 : ℚ) < 2 ^ frac := by positivity
    calc |real frac u + real frac v| * 2 ^ frac < 1024 * 2 ^ frac := mul_lt_mul_of_pos_right (by linarith) hN
      _ = 2 ^ (10 + frac) := by rw [pow_add]; norm_num
      _ ≤ 2 ^ (w - 1) := pow_le_pow_right₀ (by norm_num) (by omega)

theorem abs_between {a b : ℚ} (h0 : 0 ≤ a) (h : a ≤ b) : |a| ≤ b := by rwa [abs_of_nonneg h0]

set_option maxHeartbeats 1000000 in
/-- **`log` evaluates its polynomial** up to 400 units in the last place, for numbers from 0 to 2. -/
theorem ChebVal.close {frac : ℕ} (hw : 2 * frac + 11 ≤ w) (h8 : 8 ≤ frac) {x z : BitVec w} (h : ChebVal frac x z)
    (h0 : 0 ≤ real frac x) (h1 : real frac x ≤ 2) :
    |real frac z - (chebCoeffs.getD 5 0 * real frac x ^ 5 + chebCoeffs.getD 4 0 * real frac x ^ 4 +
      chebCoeffs.getD 3 0 * real frac x ^ 3 + chebCoeffs.getD 2 0 * real frac x ^ 2 +
      chebCoeffs.getD 1 0 * real frac x + chebCoeffs.getD 0 0)| ≤ 400 / 2 ^ frac := by
  obtain ⟨x2, x3, x4, x5, y1, y2, y3, y4, y5, e2, e3, e4, e5, f1, f2, f3, f4, f5, rfl⟩ := h
  have c0 := const_real (w := w) (frac := frac) (k := 5) (by omega) (q := chebCoeffs.getD 0 0) (by
    show |(-335674972 / 10 ^ 8 : ℚ)| < 2 ^ 5; norm_num [abs_of_neg, abs_of_pos])
  have c1 := const_real (w := w) (frac := frac) (k := 5) (by omega) (q := chebCoeffs.getD 1 0) (by
    show |(1279333646 / 10 ^ 8 : ℚ)| < 2 ^ 5; norm_num [abs_of_neg, abs_of_pos])
  have c2 := const_real (w := w) (frac := frac) (k := 5) (by omega) (q := chebCoeffs.getD 2 0) (by
    show |(-2618955259 / 10 ^ 8 : ℚ)| < 2 ^ 5; norm_num [abs_of_neg, abs_of_pos])
  have c3 := const_real (w := w) (frac := frac) (k := 5) (by omega) (q := chebCoeffs.getD 3 0) (by
    show |(3024596692 / 10 ^ 8 : ℚ)| < 2 ^ 5; norm_num [abs_of_neg, abs_of_pos])
  have c4 := const_real (w := w) (frac := frac) (k := 5) (by omega) (q := chebCoeffs.getD 4 0) (by
    show |(-1730367641 / 10 ^ 8 : ℚ)| < 2 ^ 5; norm_num [abs_of_neg, abs_of_pos])
  have c5 := const_real (w := w) (frac := frac) (k := 5) (by omega) (q := chebCoeffs.getD 5 0) (by
    show |(382474222 / 10 ^ 8 : ℚ)| < 2 ^ 5; norm_num [abs_of_neg, abs_of_pos])
  have q0 : |chebCoeffs.getD 0 0| ≤ 4 := by show |(-335674972 / 10 ^ 8 : ℚ)| ≤ 4; norm_num [abs_of_neg]
  have q1 : |chebCoeffs.getD 1 0| ≤ 12.8 := by show |(1279333646 / 10 ^ 8 : ℚ)| ≤ 12.8; norm_num [abs_of_pos]
  have q2 : |chebCoeffs.getD 2 0| ≤ 26.2 := by show |(-2618955259 / 10 ^ 8 : ℚ)| ≤ 26.2; norm_num [abs_of_neg]
  have q3 : |chebCoeffs.getD 3 0| ≤ 30.3 := by show |(3024596692 / 10 ^ 8 : ℚ)| ≤ 30.3; norm_num [abs_of_pos]
  have q4 : |chebCoeffs.getD 4 0| ≤ 17.4 := by show |(-1730367641 / 10 ^ 8 : ℚ)| ≤ 17.4; norm_num [abs_of_neg]
  have q5 : |chebCoeffs.getD 5 0| ≤ 3.9 := by show |(382474222 / 10 ^ 8 : ℚ)| ≤ 3.9; norm_num [abs_of_pos]
  have hu : (1 : ℚ) / 2 ^ frac ≤ 1 / 256 :=
    div_le_div_of_nonneg_left (by norm_num) (by norm_num)
      (by calc (256 : ℚ) = 2 ^ 8 := by norm_num
            _ ≤ 2 ^ frac := pow_le_pow_right₀ (by norm_num) h8)
  have hu0 : (0 : ℚ) < 1 / 2 ^ frac := by positivity
  rw [show (400 : ℚ) / 2 ^ frac = 400 * (1 / 2 ^ frac) by ring]
  generalize chebCoeffs.getD 0 0 = w0 at *
  generalize chebCoeffs.getD 1 0 = w1 at *
  generalize chebCoeffs.getD 2 0 = w2 at *
  generalize chebCoeffs.getD 3 0 = w3 at *
  generalize chebCoeffs.getD 4 0 = w4 at *
  generalize chebCoeffs.getD 5 0 = w5 at *
  have hx : |real frac x - real frac x| ≤ 0 := by simp
  have a1 : |real frac x| ≤ 2 := abs_between h0 (by linarith)
  have a2 : |real frac x * real frac x| ≤ 4 := by
    rw [abs_mul]; exact (mul_le_mul a1 a1 (abs_nonneg _) (by norm_num)).trans (by norm_num)
  have a3 : |real frac x * real frac x * real frac x| ≤ 8 := by
    rw [abs_mul]; exact (mul_le_mul a2 a1 (abs_nonneg _) (by norm_num)).trans (by norm_num)
  have a4 : |real frac x * real frac x * real frac x * real frac x| ≤ 16 := by
    rw [abs_mul]; exact (mul_le_mul a3 a1 (abs_nonneg _) (by norm_num)).trans (by norm_num)
  have a5 : |real frac x * real frac x * (real frac x * real frac x * real frac x)| ≤ 32 := by
    rw [abs_mul]; exact (mul_le_mul a2 a3 (abs_nonneg _) (by norm_num)).trans (by norm_num)
  generalize hu' : (1 : ℚ) / 2 ^ frac = u at *
  have uu : u * u ≤ u * (1 / 256) := mul_le_mul_of_nonneg_left hu hu0.le
  have k2 := mul_word (γ := u) hw e2 hx hx a1 a1 (by norm_num) (by rw [hu']; linarith)
  have k3 := mul_word (γ := 3 * u) hw e3 k2 hx a2 a1 (by linarith) (by rw [hu']; linarith)
  have k4 := mul_word (γ := 7 * u) hw e4 k3 hx a3 a1 (by linarith) (by rw [hu']; linarith)
  have k5 := mul_word (γ := 21.1 * u) hw e5 k2 k3 a2 a3 (by linarith) (by rw [hu']; linarith)
  have m1 := mul_word (γ := 3.1 * u) hw f1 hx c1 a1 q1 (by linarith) (by rw [hu']; linarith)
  have m2 := mul_word (γ := 31.4 * u) hw f2 k2 c2 a2 q2 (by linarith) (by rw [hu']; linarith)
  have m3 := mul_word (γ := 100.1 * u) hw f3 k3 c3 a3 q3 (by linarith) (by rw [hu']; linarith)
  have m4 := mul_word (γ := 139.1 * u) hw f4 k4 c4 a4 q4 (by linarith) (by rw [hu']; linarith)
  have m5 := mul_word (γ := 115.5 * u) hw f5 k5 c5 a5 q5 (by linarith) (by rw [hu']; linarith)
  have b1 : |real frac x * w1| ≤ 26 := by
    rw [abs_mul]; exact (mul_le_mul a1 q1 (abs_nonneg _) (by norm_num)).trans (by norm_num)
  have b2 : |real frac x * real frac x * w2| ≤ 105 := by
    rw [abs_mul]; exact (mul_le_mul a2 q2 (abs_nonneg _) (by norm_num)).trans (by norm_num)
  have b3 : |real frac x * real frac x * real frac x * w3| ≤ 243 := by
    rw [abs_mul]; exact (mul_le_mul a3 q3 (abs_nonneg _) (by norm_num)).trans (by norm_num)
  have b4 : |real frac x * real frac x * real frac x * real frac x * w4| ≤ 279 := by
    rw [abs_mul]; exact (mul_le_mul a4 q4 (abs_nonneg _) (by norm_num)).trans (by norm_num)
  have b5 : |real frac x * real frac x * (real frac x * real frac x * real frac x) * w5| ≤ 125 := by
    rw [abs_mul]; exact (mul_le_mul a5 q5 (abs_nonneg _) (by norm_num)).trans (by norm_num)
  have hw' : frac + 11 ≤ w := by omega
  have s4 := add_word hw' m5 m4 (by linarith)
  have t4 := abs_add_le (real frac x * real frac x * (real frac x * real frac x * real frac x) * w5)
    (real frac x * real frac x * real frac x * real frac x * w4)
  have s3 := add_word hw' s4 m3 (by linarith)
  have t3 := (abs_add_le _ _).trans (add_le_add t4 (le_refl |real frac x * real frac x * real frac x * w3|))
  have s2 := add_word hw' s3 m2 (by linarith)
  have t2 := (abs_add_le _ _).trans (add_le_add t3 (le_refl |real frac x * real frac x * w2|))
  have s1 := add_word hw' s2 m1 (by linarith)
  have t1 := (abs_add_le _ _).trans (add_le_add t2 (le_refl |real frac x * w1|))
  have s0 := add_word hw' s1 c0 (by linarith)
  refine le_trans (le_of_eq ?_) (s0.trans (by linarith))
  congr 1
  ring

/-! ## `log` -/

/-- **`log` is close to the natural logarithm** for numbers from 1/10 to 3/2: within 0.0367 plus 400 units in the
last place (0.0428 in the default configuration). -/
theorem log_close_partial {frac : ℕ} (hw : 2 * frac + 11 ≤ w) (h8 : 8 ≤ frac) {x : T (.arith w n)}
    {X : Shares (T (.arith w n))} (hX : Holds x X) (hx : ∀ i, 1 / 10 ≤ real frac (x i) ∧ real frac (x i) ≤ 3 / 2) :
    ∃ p, logPrivate frac X .chebyshev = .ok p ∧ M.All (fun o => ∃ z : T (.arith w n), Holds z o ∧
      ∀ i, |((real frac (z i) : ℚ) : ℝ) - Real.log (real frac (x i) : ℚ)| ≤ 367 / 10000 + 400 / 2 ^ frac) p := by
  obtain ⟨F, hF, hs⟩ := logPrivate_sim (n := n) (w := w) (frac := frac) (by omega)
  refine ⟨F X, hF X, (hs (hX.alike 0)).left ?_⟩
  rintro o o' ⟨z, z', hz, -, ho⟩
  refine ⟨z, ho.1, fun i => ?_⟩
  obtain ⟨h1, h2⟩ := hx i
  have hc := (hz i).close hw h8 (by linarith) (by linarith)
  have hl := cheb_log (x := ((real frac (x i) : ℚ) : ℝ)) (by have := (Rat.cast_le (K := ℝ)).2 h1; push_cast at this; exact this)
    (by have := (Rat.cast_le (K := ℝ)).2 h2; push_cast at this; exact this)
  have hc := cast_abs_le hc
  have e : evalR chebCoeffs ((real frac (x i) : ℚ) : ℝ) = ((chebCoeffs.getD 5 0 * real frac (x i) ^ 5 +
      chebCoeffs.getD 4 0 * real frac (x i) ^ 4 + chebCoeffs.getD 3 0 * real frac (x i) ^ 3 +
      chebCoeffs.getD 2 0 * real frac (x i) ^ 2 + chebCoeffs.getD 1 0 * real frac (x i) + chebCoeffs.getD 0 0 : ℚ) : ℝ) := by
    simp only [chebCoeffs, evalR_cons, evalR_nil, List.getD_cons_zero, List.getD_cons_succ]
    push_cast
    ring
  rw [e] at hl
  rw [Rat.cast_sub] at hc
  have h3 := (abs_add_le _ _).trans (add_le_add hc hl)
  rw [sub_add_sub_cancel] at h3
  push_cast at h3
  linarith

/-- **The claim fails at 2**: the result is larger than 4.9, whatever the draws, and the logarithm is less than
0.7. -/
theorem log_two_false {frac : ℕ} (hw : 2 * frac + 11 ≤ w) (h13 : 13 ≤ frac) {x : T (.arith w n)}
    {X : Shares (T (.arith w n))} (hX : Holds x X) (hx : ∀ i, real frac (x i) = 2) :
    ∃ p, logPrivate frac X .chebyshev = .ok p ∧ M.All (fun o => ∃ z : T (.arith w n), Holds z o ∧
      ∀ i, 4.9 ≤ real frac (z i)) p ∧ Real.log 2 < 0.7 := by
  obtain ⟨F, hF, hs⟩ := logPrivate_sim (n := n) (w := w) (frac := frac) (by omega)
  refine ⟨F X, hF X, (hs (hX.alike 0)).left ?_, by have := Real.log_two_lt_d9; linarith⟩
  rintro o o' ⟨z, z', hz, -, ho⟩
  refine ⟨z, ho.1, fun i => ?_⟩
  have hc := (hz i).close hw (by omega) (by rw [hx]; norm_num) (hx i).le
  rw [hx] at hc
  simp only [chebCoeffs, List.getD_cons_zero, List.getD_cons_succ] at hc
  have hu : (400 : ℚ) / 2 ^ frac ≤ 400 / 8192 :=
    div_le_div_of_nonneg_left (by norm_num) (by norm_num)
      (by calc (8192 : ℚ) = 2 ^ 13 := by norm_num
            _ ≤ 2 ^ frac := pow_le_pow_right₀ (by norm_num) h13)
  have := (abs_le.1 hc).1
  norm_num at *
  linarith

/-- Numbers in the range. -/
example : ∀ i : Fin 2, 1 / 10 ≤ real 16 ((![BitVec.ofInt 64 8000, 98304] : Fin 2 → BitVec 64) i) ∧
    real 16 ((![BitVec.ofInt 64 8000, 98304] : Fin 2 → BitVec 64) i) ≤ 3 / 2 := by
  decide +kernel

example : real 16 (131072 : BitVec 64) = 2 := by decide +kernel

/-- Other values of `approx_type` raise. -/
theorem log_other_raises {frac : ℕ} (X : Shares (T (.arith w n))) : logPrivate frac X .other = .error .notImplemented := rfl

/-! ## The logarithms of `fp.py` -/

/-- The base itself. -/
noncomputable def LogBase.num : LogBase → ℝ
  | .two => 2
  | .ten => 10
  | .e => Real.exp 1

theorem evalR_cast (p : List ℚ) (q : ℚ) : evalR p (q : ℝ) = ((PolyBound.eval p q : ℚ) : ℝ) := by
  induction p with
  | nil => simp [evalR_nil, PolyBound.eval]
  | cons a p ih => rw [evalR_cons, ih, PolyBound.eval]; push_cast; ring

theorem log_ten : |Real.log 10 - 23025850929 / 10000000000| ≤ 4 / 10 ^ 9 := by
  have e : Real.log 10 = 3 * Real.log 2 + Real.log (1 + ((1 / 4 : ℚ) : ℝ)) := by
    rw [show (10 : ℝ) = 2 ^ 3 * (1 + ((1 / 4 : ℚ) : ℝ)) by push_cast; norm_num,
      Real.log_mul (by norm_num) (by push_cast; norm_num), Real.log_pow]
    norm_num
  have h := log_series (t := ((1 / 4 : ℚ) : ℝ)) (ρ := 1 / 4) (by push_cast; rw [abs_of_pos] <;> norm_num) (by norm_num) 20
  rw [evalR_cast] at h
  have h1 : |PolyBound.eval (series 20) (1 / 4) - 2231435513 / 10000000000| ≤ 1 / 10 ^ 10 := by decide +kernel
  have h1 := cast_abs_le h1
  have a := Real.log_two_gt_d9
  have b := Real.log_two_lt_d9
  rw [e]
  generalize ((PolyBound.eval (series 20) (1 / 4) : ℚ)) = q at *
  rw [Rat.cast_sub] at h1
  push_cast at h h1 ⊢
  rw [abs_le] at *
  obtain ⟨h2, h3⟩ := h
  obtain ⟨h4, h5⟩ := h1
  norm_num at h2 h3 h4 h5 ⊢
  constructor <;> linarith

/-- `adjust` is the logarithm of 2 to the base. -/
theorem adjust_close (b : LogBase) : |((b.adjust : ℚ) : ℝ) - Real.logb b.num 2| ≤ 3 / 10 ^ 9 := by
  have l1 := Real.log_two_gt_d9
  have l2 := Real.log_two_lt_d9
  cases b with
  | two =>
    have : Real.logb 2 2 = 1 := Real.logb_self_eq_one (by norm_num)
    rw [show LogBase.two.num = 2 from rfl, this, show LogBase.two.adjust = 1 from rfl]
    norm_num
  | e =>
    have : Real.logb (Real.exp 1) 2 = Real.log 2 := by rw [Real.logb, Real.log_exp, div_one]
    simp only [LogBase.adjust, LogBase.num, this]
    rw [abs_le]
    push_cast
    constructor <;> linarith
  | ten =>
    have h10 := abs_le.1 log_ten
    norm_num at h10
    have hp : (0 : ℝ) < Real.log 10 := by linarith
    simp only [LogBase.adjust, LogBase.num, Real.logb]
    rw [show (((5422874305198591 / 18014398509481984 : ℚ)) : ℝ) - Real.log 2 / Real.log 10 =
      ((5422874305198591 / 18014398509481984 : ℝ) * Real.log 10 - Real.log 2) / Real.log 10 by push_cast; field_simp,
      abs_div, abs_of_pos hp, div_le_iff₀ hp, abs_le]
    norm_num
    constructor <;> linarith

theorem adjust_bounds (b : LogBase) : 0 < b.adjust ∧ b.adjust ≤ 1 := by cases b <;> norm_num [LogBase.adjust]

set_option maxHeartbeats 1000000 in
/-- The polynomial of `fp.py` is evaluated up to a few units in the last place. -/
theorem FpTailVal.close {frac : ℕ} (hw : 2 * frac + 11 ≤ w) (h8 : 8 ≤ frac) {base : LogBase} {f l z : BitVec w}
    (h : FpTailVal frac base f l z) (h0 : 0 ≤ real frac f) (h1 : real frac f ≤ 2) {K : ℚ} (hK : |real frac l| ≤ K)
    (hK' : K ≤ 128) :
    |real frac z - base.adjust * (fpCoeffs.getD 2 0 * real frac f ^ 2 + fpCoeffs.getD 1 0 * real frac f +
      fpCoeffs.getD 0 0 + real frac l)| ≤ (11 + K) / 2 ^ frac := by
  obtain ⟨a, t, v, ha, ht, hv, rfl⟩ := h
  obtain ⟨p0, p1⟩ := adjust_bounds base
  have hK0 : 0 ≤ K := (abs_nonneg _).trans hK
  have d0 : |fpCoeffs.getD 0 0 * base.adjust| ≤ 2 := by
    rw [abs_mul, abs_of_pos p0]
    refine (mul_le_of_le_one_right (abs_nonneg _) p1).trans ?_
    show |(-1843924 / 10 ^ 6 : ℚ)| ≤ 2; norm_num [abs_of_neg]
  have d1 : |fpCoeffs.getD 1 0 * base.adjust| ≤ 2.3 := by
    rw [abs_mul, abs_of_pos p0]
    refine (mul_le_of_le_one_right (abs_nonneg _) p1).trans ?_
    show |(2276597 / 10 ^ 6 : ℚ)| ≤ 2.3; norm_num [abs_of_pos]
  have d2 : |fpCoeffs.getD 2 0 * base.adjust| ≤ 0.44 := by
    rw [abs_mul, abs_of_pos p0]
    refine (mul_le_of_le_one_right (abs_nonneg _) p1).trans ?_
    show |(-4326728 / 10 ^ 7 : ℚ)| ≤ 0.44; norm_num [abs_of_neg]
  have c0 := const_real (w := w) (frac := frac) (k := 2) (by omega) (lt_of_le_of_lt d0 (by norm_num))
  have c1 := const_real (w := w) (frac := frac) (k := 2) (by omega) (lt_of_le_of_lt d1 (by norm_num))
  have c2 := const_real (w := w) (frac := frac) (k := 2) (by omega) (lt_of_le_of_lt d2 (by norm_num))
  have c3 := const_real (w := w) (frac := frac) (k := 2) (by omega) (q := base.adjust)
    (by rw [abs_of_pos p0]; linarith)
  have hu : (1 : ℚ) / 2 ^ frac ≤ 1 / 256 :=
    div_le_div_of_nonneg_left (by norm_num) (by norm_num)
      (by calc (256 : ℚ) = 2 ^ 8 := by norm_num
            _ ≤ 2 ^ frac := pow_le_pow_right₀ (by norm_num) h8)
  have hu0 : (0 : ℚ) < 1 / 2 ^ frac := by positivity
  have a1 : |real frac f| ≤ 2 := abs_between h0 h1
  have hf : |real frac f - real frac f| ≤ 0 := by simp
  have hl : |real frac l - real frac l| ≤ 0 := by simp
  have ha' : |real frac a - real frac l * base.adjust| ≤ (K + 1) * (1 / 2 ^ frac) := by
    have hb : |base.adjust| ≤ 1 := abs_between p0.le p1
    have hprod : (K + 0) * (1 + 1 / 2 ^ frac) < 512 := by
      have := mul_le_mul hK' (show (1 : ℚ) + 1 / 2 ^ frac ≤ 2 by linarith) (by linarith) (by norm_num)
      linarith
    cases base with
    | two =>
      rw [show a = l from ha, show LogBase.two.adjust = 1 from rfl, mul_one, sub_self, abs_zero]
      positivity
    | ten => exact mul_word (γ := (K + 1) * (1 / 2 ^ frac)) hw ha hl c3 hK hb hprod (by linarith)
    | e => exact mul_word (γ := (K + 1) * (1 / 2 ^ frac)) hw ha hl c3 hK hb hprod (by linarith)
  rw [show (11 + K) / 2 ^ frac = (11 + K) * (1 / 2 ^ frac) by ring]
  generalize fpCoeffs.getD 0 0 = w0 at *
  generalize fpCoeffs.getD 1 0 = w1 at *
  generalize fpCoeffs.getD 2 0 = w2 at *
  generalize base.adjust = A at *
  generalize hu' : (1 : ℚ) / 2 ^ frac = u at *
  have uu : u * u ≤ u * (1 / 256) := mul_le_mul_of_nonneg_left hu hu0.le
  have Ku : K * u ≤ 1 := by
    have := mul_le_mul hK' hu hu0.le (by norm_num)
    linarith
  have k1 := mul_word (γ := 3 * u) hw ht hf c2 a1 d2 (by linarith) (by rw [hu']; linarith)
  have b1 : |real frac f * (w2 * A)| ≤ 1 := by
    rw [abs_mul]; exact (mul_le_mul a1 d2 (abs_nonneg _) (by norm_num)).trans (by norm_num)
  have k2 := add_word (by omega) k1 c1 (by linarith)
  have b2 := (abs_add_le _ _).trans (add_le_add b1 d1)
  have k3 := mul_word (γ := 9 * u) hw hv k2 hf b2 a1 (by linarith) (by rw [hu']; linarith)
  have b3 : |(real frac f * (w2 * A) + w1 * A) * real frac f| ≤ 8 := by
    rw [abs_mul]; exact (mul_le_mul b2 a1 (abs_nonneg _) (by norm_num)).trans (by norm_num)
  have k4 := add_word (by omega) k3 c0 (by linarith)
  have b4 := (abs_add_le _ _).trans (add_le_add b3 d0)
  have b5 : |real frac l * A| ≤ 128 := by
    rw [abs_mul, abs_of_pos p0]
    exact (mul_le_mul (hK.trans hK') p1 p0.le (by norm_num)).trans (by norm_num)
  have k5 := add_word (by omega) k4 ha' (by linarith)
  refine le_trans (le_of_eq ?_) (k5.trans (by linarith))
  congr 1
  ring

/-- The logarithm grows by at most as much as its argument, from 1 on. -/
theorem log_lipschitz {a b : ℝ} (ha : 1 ≤ a) (hb : 1 ≤ b) : |Real.log a - Real.log b| ≤ |a - b| := by
  have key : ∀ a b : ℝ, 1 ≤ a → 1 ≤ b → Real.log a - Real.log b ≤ |a - b| := by
    intro a b ha hb
    have h := Real.log_le_sub_one_of_pos (x := a / b) (by positivity)
    rw [Real.log_div (by positivity) (by positivity)] at h
    refine h.trans ?_
    have hb0 : (0 : ℝ) < b := by linarith
    rw [div_sub_one hb0.ne', div_le_iff₀ hb0]
    have h1 := le_abs_self (a - b)
    have h2 := mul_le_mul_of_nonneg_left hb (abs_nonneg (a - b))
    linarith
  rw [abs_le]
  have h1 := key a b ha hb
  have h2 := key b a hb ha
  rw [abs_sub_comm] at h2
  constructor <;> linarith

set_option maxHeartbeats 1000000 in
/-- **The logarithms of `fp.py` are close to the real ones**, to base 2, 10 and e: within 0.0215 plus a few units in
the last place, for every number from two units in the last place to the largest that fits. -/
theorem fp_log_close_partial {rev : BitVec w → BitVec w} (hrev : ∀ v, rev v = v.reverse) {frac m : ℕ}
    (h0 : 0 < m) (h63 : m ≤ 63) (hm : m ≤ w) (hmf : m < 2 * frac) (h8 : 8 ≤ frac) (hf : 2 * frac + 11 ≤ w)
    (hw : w = 64 ∨ w = 128) (base : LogBase) {x : T (.arith w n)} {X : Shares (T (.arith w n))} (hX : Holds x X)
    (hx : ∀ i, 2 ≤ (x i).toNat ∧ (x i).toNat < 2 ^ (m - 1)) :
    ∃ p, fpLog rev frac m base X = .ok p ∧ M.All (fun o => ∃ z : T (.arith w n), Holds z o ∧
      ∀ i, |((real frac (z i) : ℚ) : ℝ) - Real.logb base.num (real frac (x i) : ℚ)| ≤
        215 / 10000 + (frac + 13) / 2 ^ frac) p := by
  obtain ⟨plan, hp⟩ := mulPlan_ok (sx := true) (sy := true) (frac := frac) (w := w) fun _ => by omega
  obtain ⟨red, hr, hall⟩ := log_reduce (n := n) hrev h0 h63 hm hmf (by omega) hw hX hx
  refine ⟨red >>= fun r => fpLogTail frac plan base r.1 r.2, by unfold fpLog; rw [hr, hp], M.all_bind.2 ?_⟩
  refine hall.mono ?_
  rintro r ⟨s, l, hs, hl, hv⟩
  refine (fpLogTail_sim hp base (hs.alike 0) (hl.alike 0)).left ?_
  rintro o o' ⟨z, z', hz, -, ho⟩
  refine ⟨z, ho.1, fun i => ?_⟩
  obtain ⟨j, j1, j2, s1, s2, s3, l1⟩ := hv i
  obtain ⟨x1, x2⟩ := hx i
  have hjm : j < m - 1 := (Nat.pow_lt_pow_iff_right (by decide : 1 < 2)).1 (lt_of_le_of_lt j1 x2)
  have hK : |real frac (l i)| ≤ (frac : ℚ) := by
    rw [l1, abs_le]
    have : (j : ℚ) ≤ 2 * frac := by exact_mod_cast (by omega : j ≤ 2 * frac)
    have : (0 : ℚ) ≤ j := by positivity
    constructor <;> linarith
  have hfr : (frac : ℚ) ≤ 128 := by exact_mod_cast (by omega : frac ≤ 128)
  have hc := cast_abs_le ((hz i).close hf h8 (by linarith) s2 hK hfr)
  have hq := quad_log (x := ((real frac (s i) : ℚ) : ℝ)) (by exact_mod_cast s1)
    (by have := (Rat.cast_le (K := ℝ)).2 s2; push_cast at this; exact this)
  -- the real logarithm of the number
  set S : ℝ := ((x i).toNat : ℝ) / 2 ^ j with hS
  have hS1 : 1 ≤ S := by
    rw [hS, le_div_iff₀ (by positivity), one_mul]
    exact_mod_cast j1
  have hS0 : 0 < S := by linarith
  have hsS : |((real frac (s i) : ℚ) : ℝ) - S| ≤ 1 / 2 ^ frac := by
    have := cast_abs_le s3
    push_cast at this
    exact this
  have hxr : ((real frac (x i) : ℚ) : ℝ) = S * 2 ^ j / 2 ^ frac := by
    rw [real_small (by
      have : (2 : ℕ) ^ (m - 1) ≤ 2 ^ (w - 1) := Nat.pow_le_pow_right (by decide) (by omega)
      omega), hS]
    push_cast
    field_simp
  have l2a := Real.log_two_gt_d9
  have l2b := Real.log_two_lt_d9
  have hl2 : (0 : ℝ) < Real.log 2 := by linarith
  have hlogb : Real.logb 2 (((real frac (x i) : ℚ) : ℝ)) = Real.logb 2 S + ((j : ℝ) - frac) := by
    rw [hxr, Real.logb_div (by positivity) (by positivity), Real.logb_mul hS0.ne' (by positivity), Real.logb_pow,
      Real.logb_pow, Real.logb_self_eq_one (by norm_num)]
    ring
  have hbase : Real.logb base.num (((real frac (x i) : ℚ) : ℝ)) = Real.logb base.num 2 * Real.logb 2 (((real frac (x i) : ℚ) : ℝ)) := by
    rw [Real.logb, Real.logb, Real.logb]
    field_simp
  have hA := adjust_close base
  have hA1 : ((base.adjust : ℚ) : ℝ) ≤ 1 := by exact_mod_cast (adjust_bounds base).2
  have hA0 : 0 ≤ ((base.adjust : ℚ) : ℝ) := by exact_mod_cast (adjust_bounds base).1.le
  -- the logarithm of the reduced value
  have hlog : |Real.logb 2 ((real frac (s i) : ℚ) : ℝ) - Real.logb 2 S| ≤ 1.5 * (1 / 2 ^ frac) := by
    have h := (log_lipschitz (a := ((real frac (s i) : ℚ) : ℝ)) (by exact_mod_cast s1) hS1).trans hsS
    rw [Real.logb, Real.logb, ← sub_div, abs_div, abs_of_pos hl2, div_le_iff₀ hl2]
    have hu0 : (0 : ℝ) < 1 / 2 ^ frac := by positivity
    have := mul_le_mul_of_nonneg_left l2a.le hu0.le
    linarith
  have hsize : |Real.logb 2 (((real frac (x i) : ℚ) : ℝ))| ≤ 130 := by
    have hSl : |Real.logb 2 S| ≤ 1 := by
      have hS2 : S ≤ 2 := by
        rw [hS, div_le_iff₀ (by positivity), ← pow_succ']
        exact_mod_cast j2.le
      rw [abs_of_nonneg (Real.logb_nonneg (by norm_num) hS1)]
      have := Real.logb_le_logb_of_le (b := 2) (by norm_num) hS0 hS2
      rwa [Real.logb_self_eq_one (by norm_num)] at this
    have hK' := cast_abs_le hK
    rw [l1] at hK'
    push_cast at hK'
    have hfr' : (frac : ℝ) ≤ 128 := by exact_mod_cast hfr
    rw [hlogb]
    refine (abs_add_le _ _).trans ?_
    linarith
  have e : evalR fpCoeffs ((real frac (s i) : ℚ) : ℝ) = ((fpCoeffs.getD 2 0 * real frac (s i) ^ 2 +
      fpCoeffs.getD 1 0 * real frac (s i) + fpCoeffs.getD 0 0 : ℚ) : ℝ) := by
    simp only [fpCoeffs, evalR_cons, evalR_nil, List.getD_cons_zero, List.getD_cons_succ]
    push_cast
    ring
  rw [l1, Rat.cast_sub, Rat.cast_mul, Rat.cast_add, ← e] at hc
  generalize evalR fpCoeffs ((real frac (s i) : ℚ) : ℝ) = Q at *
  rw [hbase]
  have g1 : |((base.adjust : ℚ) : ℝ) * (Q + (((j : ℚ) - frac : ℚ) : ℝ)) -
      ((base.adjust : ℚ) : ℝ) * Real.logb 2 (((real frac (x i) : ℚ) : ℝ))| ≤ 2143 / 100000 + 1.5 * (1 / 2 ^ frac) := by
    rw [← mul_sub, abs_mul, abs_of_nonneg hA0]
    refine (mul_le_of_le_one_left (abs_nonneg _) hA1).trans ?_
    rw [hlogb]
    have := (abs_add_le _ _).trans (add_le_add hq hlog)
    rw [sub_add_sub_cancel] at this
    refine le_trans (le_of_eq ?_) this
    congr 1
    push_cast
    ring
  have g2 : |((base.adjust : ℚ) : ℝ) * Real.logb 2 (((real frac (x i) : ℚ) : ℝ)) -
      Real.logb base.num 2 * Real.logb 2 (((real frac (x i) : ℚ) : ℝ))| ≤ 3 / 10 ^ 9 * 130 := by
    rw [← sub_mul, abs_mul]
    exact mul_le_mul hA hsize (abs_nonneg _) (by norm_num)
  have g3 := (abs_add_le _ _).trans (add_le_add ((abs_add_le _ _).trans (add_le_add hc g1)) g2)
  rw [sub_add_sub_cancel, sub_add_sub_cancel] at g3
  refine g3.trans ?_
  push_cast
  have hu0 : (0 : ℝ) < 1 / 2 ^ frac := by positivity
  rw [show ((11 : ℝ) + frac) / 2 ^ frac = 11 * (1 / 2 ^ frac) + frac * (1 / 2 ^ frac) by ring,
    show ((frac : ℝ) + 13) / 2 ^ frac = 13 * (1 / 2 ^ frac) + frac * (1 / 2 ^ frac) by ring]
  generalize (1 : ℝ) / 2 ^ frac = u at hu0 ⊢
  norm_num
  linarith

/-- The default configurations: 16 bits behind the point in 64-bit words, 27 in all; and 32 in 128-bit words, 52 in
all. -/
example : 27 < 2 * 16 ∧ 2 * 16 + 11 ≤ 64 ∧ 52 < 2 * 32 ∧ 2 * 32 + 11 ≤ 128 := by decide

theorem four_le_pow {k : ℕ} (h : 4 ≤ k) : 4 * k ≤ 2 ^ k := by
  induction k, h using Nat.le_induction with
  | base => decide
  | succ k hk ih => rw [pow_succ]; omega

/-- **The claim fails for the smallest positive number** `2^-frac`, whose binary logarithm is `-frac`: the result is
less than `-frac - 3/2`, whatever the draws. -/
theorem fp_log_smallest_false {rev : BitVec w → BitVec w} (hrev : ∀ v, rev v = v.reverse) {frac m : ℕ}
    (h2 : 2 ≤ m) (h63 : m ≤ 63) (hm : m ≤ w) (hmf : m < 2 * frac) (h8 : 8 ≤ frac) (hf : 2 * frac + 11 ≤ w)
    (hw : w = 64 ∨ w = 128) {X : Shares (T (.arith w n))} (hX : Holds (fun _ => 1 : T (.arith w n)) X) :
    ∃ p, fpLog rev frac m .two X = .ok p ∧ M.All (fun o => ∃ z : T (.arith w n), Holds z o ∧
      ∀ i, real frac (z i) < -frac - 3 / 2) p ∧
      Real.logb 2 ((real frac (1 : BitVec w) : ℚ) : ℝ) = -frac := by
  have hl : (Nat.log 2 w + 1) * 2 ≤ w := by
    rcases hw with rfl | rfl
    · have : Nat.log 2 64 = 6 := Nat.log_pow (by decide) 6
      omega
    · have : Nat.log 2 128 = 7 := Nat.log_pow (by decide) 7
      omega
  have hone : (1 : BitVec w).toNat = 1 := by
    show 1 % 2 ^ w = 1
    exact Nat.mod_eq_of_lt (Nat.one_lt_two_pow (by omega))
  have hpw : 1 < 2 ^ (w - 1) := Nat.one_lt_two_pow (by omega)
  have hne : (1 : BitVec w) ≠ 0 := fun hc => by rw [hc] at hone; simp at hone
  have hlt : (1 : BitVec w).toNat < 2 ^ (m - 1) := by rw [hone]; exact Nat.one_lt_two_pow (by omega)
  obtain ⟨F, hF, hs⟩ := fpLog_sim (n := n) hrev .two (by omega) h63 hm hmf (by omega) hl
  refine ⟨F X, hF X, (hs (hX.alike 0)).left ?_, ?_⟩
  · rintro o o' ⟨z, z', hz, -, ho⟩
    refine ⟨z, ho.1, fun i => ?_⟩
    obtain ⟨f, hf1, hv⟩ := hz i
    rw [logExpV_eq hrev (by omega) hm hmf (by omega) hlt hne, if_pos hone] at hf1
    have hfn := trunc_nat (by omega) (show ((1 : BitVec w) * 0).toNat = 0 by simp) (by positivity) hf1
    rw [Nat.zero_div] at hfn
    have hfr : 0 ≤ real frac f ∧ real frac f ≤ 1 / 2 ^ frac := by
      rw [real_small (by omega)]
      rcases hfn with h | h <;> rw [h] <;> constructor <;> simp
    rw [posV_eq hw (by omega) hm hlt hne, hone, show Nat.log 2 1 = 0 by simp] at hv
    have hL : real frac (BitVec.ofNat w 0 <<< frac - BitVec.ofNat w (frac * 2 ^ frac)) = -frac := by
      have e : BitVec.ofNat w 0 <<< frac - BitVec.ofNat w (frac * 2 ^ frac) =
          BitVec.ofInt w (-(frac * 2 ^ frac)) := by
        rw [show BitVec.ofNat w 0 <<< frac = 0 by simp, ← Bits.ofInt_natCast,
          show (0 : BitVec w) = BitVec.ofInt w 0 by simp, ← Bits.ofInt_sub]
        congr 1
        push_cast
        ring
      have hb : ((2 : ℤ) ^ 7 * 2 ^ frac) ≤ 2 ^ (w - 1) := by
        rw [← pow_add]
        exact_mod_cast Nat.pow_le_pow_right (by decide : 0 < 2) (by omega : 7 + frac ≤ w - 1)
      have hp : (0 : ℤ) < 2 ^ frac := by positivity
      have hfb : (frac : ℤ) * 2 ^ frac < 2 ^ 7 * 2 ^ frac := mul_lt_mul_of_pos_right (by norm_num; omega) hp
      have hfb0 : (0 : ℤ) ≤ (frac : ℤ) * 2 ^ frac := by positivity
      unfold real
      rw [e, Bits.toInt_ofInt (by omega) (by linarith) (by linarith)]
      push_cast
      field_simp
    have hu : (1 : ℚ) / 2 ^ frac ≤ 1 / 256 :=
      div_le_div_of_nonneg_left (by norm_num) (by norm_num)
        (by calc (256 : ℚ) = 2 ^ 8 := by norm_num
              _ ≤ 2 ^ frac := pow_le_pow_right₀ (by norm_num) h8)
    have hu4 : (frac : ℚ) * (1 / 2 ^ frac) ≤ 1 / 4 := by
      rw [mul_one_div, div_le_div_iff₀ (by positivity) (by norm_num)]
      have := four_le_pow (k := frac) (by omega)
      have : (4 : ℚ) * frac ≤ 2 ^ frac := by exact_mod_cast this
      linarith
    have hc := hv.close (by omega) h8 hfr.1 (by linarith [hfr.2]) (K := frac) (by rw [hL, abs_neg]; simp)
      (by exact_mod_cast (by omega : frac ≤ 128))
    rw [hL, show LogBase.two.adjust = 1 from rfl, one_mul] at hc
    simp only [fpCoeffs, List.getD_cons_zero, List.getD_cons_succ] at hc
    have h3 := (abs_le.1 hc).2
    have h4 : 0 ≤ real frac f ^ 2 := sq_nonneg _
    rw [show (11 + (frac : ℚ)) / 2 ^ frac = 11 * (1 / 2 ^ frac) + frac * (1 / 2 ^ frac) by ring] at h3
    obtain ⟨f0, f1⟩ := hfr
    generalize (1 : ℚ) / 2 ^ frac = u at *
    norm_num at h3 ⊢
    linarith
  · rw [real_small (by omega), hone]
    push_cast
    rw [Real.logb_div (by norm_num) (by positivity), Real.logb_one, Real.logb_pow, Real.logb_self_eq_one (by norm_num)]
    ring

/-- A precision that is too small for the reduction is refused. -/
theorem fp_log_refused {rev : BitVec w → BitVec w} {frac m : ℕ} (h : 2 * frac ≤ m) (base : LogBase)
    (X : Shares (T (.arith w n))) : fpLog rev frac m base X = .error .assertion := by
  obtain ⟨-, -, h3⟩ := normalize_refused (rev := rev) h X
  unfold fpLog
  rw [h3]

/-- **C68** (secrecy): what any one server sees has the same distribution for all inputs. -/
theorem log_secrecy {frac : ℕ} (hf : 2 * frac + 2 ≤ w) (σ : Fin 3) (x x' : T (.arith w n)) :
    (∃ F : Shares (T (.arith w n)) → M (Shares (T (.arith w n))), (∀ X, logPrivate frac X .chebyshev = .ok (F X)) ∧
        M.view σ (share x >>= F) = M.view σ (share x' >>= F)) ∧
    ∀ {rev : BitVec w → BitVec w}, (∀ v, rev v = v.reverse) → ∀ {m : ℕ} (base : LogBase), 0 < m → m ≤ 63 → m ≤ w →
      m < 2 * frac → (Nat.log 2 w + 1) * 2 ≤ w →
      ∃ F : Shares (T (.arith w n)) → M (Shares (T (.arith w n))), (∀ X, fpLog rev frac m base X = .ok (F X)) ∧
        M.view σ (share x >>= F) = M.view σ (share x' >>= F) := by
  obtain ⟨F, hF, hs⟩ := logPrivate_sim (n := n) (w := w) (frac := frac) (by omega)
  refine ⟨⟨F, hF, hides_of_sim fun _ _ h => hs h⟩, ?_⟩
  intro rev hrev m base h0 h63 hm hmf hl
  obtain ⟨G, hG, hs'⟩ := fpLog_sim (n := n) hrev base h0 h63 hm hmf hf hl
  exact ⟨G, hG, hides_of_sim fun _ _ h => hs' h⟩

example : (Nat.log 2 64 + 1) * 2 ≤ 64 := by decide +kernel

end Verif.Aby3
