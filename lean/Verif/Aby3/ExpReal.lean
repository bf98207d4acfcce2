import Verif.Aby3.ExpProps
import Mathlib.Analysis.Complex.ExponentialBounds
import Mathlib.Analysis.SpecialFunctions.Pow.Real

/-!
# C51: distance from the real power of two
-/

namespace Verif.Aby3

open Verif

variable {w n : ℕ}

/-- How far coefficient `m` is from that of the exponential series. -/
noncomputable def coeffGap (m : ℕ) : ℝ :=
  [0, 72 / 10 ^ 7, 66 / 10 ^ 7, 2 / 10 ^ 7, 2 / 10 ^ 7, 7 / 10 ^ 7, 11 / 10 ^ 7, 11 / 10 ^ 7].getD m 0

theorem coeff_gap {m : ℕ} (hm : m ≤ 7) :
    |Real.log 2 ^ m / (m.factorial : ℝ) - ((padeCoeffs.getD m 0 : ℚ) : ℝ)| ≤ coeffGap m := by
  have a := Real.log_two_gt_d9.le
  have b := Real.log_two_lt_d9.le
  have lo : (0.6931471803 : ℝ) ^ m ≤ Real.log 2 ^ m := pow_le_pow_left₀ (by norm_num) a m
  have hi : Real.log 2 ^ m ≤ (0.6931471808 : ℝ) ^ m := pow_le_pow_left₀ (Real.log_nonneg (by norm_num)) b m
  generalize Real.log 2 ^ m = L at *
  rw [abs_le]
  interval_cases m <;> simp only [padeCoeffs, coeffGap, List.getD_cons_zero, List.getD_cons_succ,
    Nat.factorial] <;> push_cast <;> constructor <;> norm_num at lo hi ⊢ <;> linarith

theorem poly_exp {D : ℕ} (h5 : 5 ≤ D) (h7 : D ≤ 7) {f : ℚ} (h0 : 0 ≤ f) (h1 : f ≤ 1) :
    |((expPoly D f : ℚ) : ℝ) - (2 : ℝ) ^ (f : ℝ)| ≤ 2 / 10 ^ 4 := by
  have h0' : (0 : ℝ) ≤ f := by exact_mod_cast h0
  have h1' : (f : ℝ) ≤ 1 := by exact_mod_cast h1
  have hl0 : 0 ≤ Real.log 2 := Real.log_nonneg (by norm_num)
  have hl1 := Real.log_two_lt_d9.le
  have hx : |Real.log 2 * f| ≤ 1 := by
    rw [abs_of_nonneg (by positivity)]
    nlinarith
  have hb := Real.exp_bound hx (n := D + 1) (by omega)
  rw [← Real.rpow_def_of_pos (by norm_num : (0 : ℝ) < 2)] at hb
  have hsum : |(∑ m ∈ Finset.range (D + 1), (Real.log 2 * f) ^ m / (m.factorial : ℝ)) -
      ((expPoly D f : ℚ) : ℝ)| ≤ ∑ m ∈ Finset.range (D + 1), coeffGap m := by
    unfold expPoly
    push_cast
    rw [← Finset.sum_sub_distrib]
    refine (Finset.abs_sum_le_sum_abs _ _).trans (Finset.sum_le_sum fun m hm => ?_)
    have hm7 : m ≤ 7 := by have := Finset.mem_range.1 hm; omega
    have e : (Real.log 2 * f) ^ m / (m.factorial : ℝ) - ((padeCoeffs.getD m 0 : ℚ) : ℝ) * (f : ℝ) ^ m =
        (Real.log 2 ^ m / (m.factorial : ℝ) - ((padeCoeffs.getD m 0 : ℚ) : ℝ)) * (f : ℝ) ^ m := by
      rw [mul_pow]; ring
    rw [e, abs_mul, abs_of_nonneg (pow_nonneg h0' m)]
    calc _ ≤ coeffGap m * 1 := mul_le_mul (coeff_gap hm7) (pow_le_one₀ h0' h1') (pow_nonneg h0' m)
          ((abs_nonneg _).trans (coeff_gap hm7))
      _ = _ := mul_one _
  have hpow : |Real.log 2 * f| ^ (D + 1) ≤ (0.6931471808 : ℝ) ^ (D + 1) := by
    refine pow_le_pow_left₀ (abs_nonneg _) ?_ _
    rw [abs_of_nonneg (by positivity)]
    nlinarith
  have key : |Real.log 2 * f| ^ (D + 1) * (((D + 1).succ : ℕ) / (((D + 1).factorial : ℝ) * ((D + 1 : ℕ) : ℝ))) +
      ∑ m ∈ Finset.range (D + 1), coeffGap m ≤ 2 / 10 ^ 4 := by
    refine (add_le_add (mul_le_mul_of_nonneg_right hpow (by positivity)) le_rfl).trans ?_
    clear hb hsum hpow
    have : D = 5 ∨ D = 6 ∨ D = 7 := by omega
    rcases this with rfl | rfl | rfl <;>
      simp only [Finset.sum_range_succ, Finset.sum_range_zero, coeffGap, List.getD_cons_zero,
        List.getD_cons_succ, Nat.factorial] <;> norm_num
  generalize (∑ m ∈ Finset.range (D + 1), (Real.log 2 * f) ^ m / (m.factorial : ℝ)) = S at *
  have e : ((expPoly D f : ℚ) : ℝ) - (2 : ℝ) ^ (f : ℝ) =
      -((2 : ℝ) ^ (f : ℝ) - S) + -(S - ((expPoly D f : ℚ) : ℝ)) := by ring
  rw [e]
  refine (abs_add_le _ _).trans ?_
  rw [abs_neg, abs_neg]
  exact (add_le_add hb hsum).trans key

/-- With 13 fractional bits or more, at least degree 5 is used. -/
theorem usedDegree_ge {frac : ℕ} (h : 13 ≤ frac) : 5 ≤ usedDegree frac := by
  have hN : (1 : ℚ) / 2 ^ frac ≤ 1 / 2 ^ 13 :=
    one_div_le_one_div_of_le (by positivity) (pow_le_pow_right₀ (by norm_num) h)
  have key : (padeCoeffs.reverse.takeWhile fun c => decide (c < 1 / 2 ^ frac)).length ≤ 2 := by
    have e : padeCoeffs.reverse = [18633 / 10000000000, 14197 / 1000000000, 15510 / 100000000,
        13327 / 10000000, 96183 / 10000000, 55504 / 1000000, 24022 / 100000, 69314 / 100000, 1] := rfl
    have n3 : ¬ (15510 / 100000000 : ℚ) < 1 / 2 ^ frac := by
      rw [not_lt]
      exact hN.trans (by norm_num)
    rw [e]
    simp only [List.takeWhile_cons, decide_eq_true_eq, if_neg n3]
    split
    · split <;> simp
    · simp
  unfold usedDegree padeDegree
  have : padeCoeffs.length = 9 := rfl
  omega

/-- **C51** (accuracy). With at least 13 fractional bits, for every tensor of numbers `x` with
`-frac ≤ x < 32`, `frac ≤ 32`, the result of `exp2` is within `2^⌊x⌋ (0.0002 + padeErr)` plus one
unit in the last place of the real number `2^x`. -/
theorem exp2_accuracy {e : ℕ} (he : 0 < e) (he7 : e ≤ 7) {frac : ℕ} (h13 : 13 ≤ frac) (h32 : frac ≤ 32)
    (hw : 2 * frac + 5 ≤ 2 ^ e) (hw32 : frac + 36 ≤ 2 ^ e)
    {x : T (.arith (2 ^ e) n)} {X : Shares (T (.arith (2 ^ e) n))} (hx : Holds x X)
    (hr : ∀ i, -frac ≤ real frac (x i) ∧ real frac (x i) < 32) :
    ∃ m, exp2 frac .unknown X = .ok m ∧ M.All (fun o => ∃ z : T (.arith (2 ^ e) n), Holds z o ∧
      ∀ i, |((real frac (z i) : ℚ) : ℝ) - (2 : ℝ) ^ ((real frac (x i) : ℚ) : ℝ)| ≤
        2 ^ ⌊real frac (x i)⌋ * (2 / 10 ^ 4 + (padeErr frac : ℚ)) + 1 / 2 ^ frac) m := by
  have hd : padeDegree frac ≠ 0 := by
    have := usedDegree_ge h13
    unfold usedDegree at this
    omega
  obtain ⟨m, hm, hall⟩ := exp2_partial he he7 hd hw hw32 .unknown hx (fun i => by
    refine (hr i).2.trans_le ?_
    have h1 : (2 : ℚ) ^ 6 ≤ 2 ^ (2 ^ e - 1 - frac) := pow_le_pow_right₀ (by norm_num) (by omega)
    have h2 : (frac : ℚ) ≤ 32 := by exact_mod_cast h32
    norm_num at h1
    linarith)
  refine ⟨m, hm, hall.mono ?_⟩
  rintro o ⟨z, hz, hspec⟩
  refine ⟨z, hz, fun i => ?_⟩
  obtain ⟨r0, r1⟩ := hr i
  have hs := hspec i
  generalize real frac (z i) = zq at *
  generalize real frac (x i) = q at *
  have hmain : |zq - 2 ^ ⌊q⌋ * expPoly (usedDegree frac) (Int.fract q)| ≤
      2 ^ ⌊q⌋ * padeErr frac + 1 / 2 ^ frac := by
    rcases lt_or_ge q 0 with hq | hq
    · exact hs.neg (by decide) hq r0 h32
    · have f0 : 0 ≤ ⌊q⌋ := Int.floor_nonneg.2 hq
      have f1 : ⌊q⌋ < 32 := Int.floor_lt.2 (by exact_mod_cast r1)
      obtain ⟨k, hk⟩ : ∃ k : ℕ, (k : ℤ) = ⌊q⌋ := ⟨⌊q⌋.toNat, by omega⟩
      have := hs.nonneg (by decide) hq k (by omega)
      rw [← hk, zpow_natCast]
      have h1 : (0 : ℚ) ≤ 1 / 2 ^ frac := by positivity
      linarith
  have hreal : |((zq : ℚ) : ℝ) - 2 ^ ⌊q⌋ * ((expPoly (usedDegree frac) (Int.fract q) : ℚ) : ℝ)| ≤
      2 ^ ⌊q⌋ * ((padeErr frac : ℚ) : ℝ) + 1 / 2 ^ frac := by
    have := (Rat.cast_le (K := ℝ)).2 hmain
    push_cast at this
    exact this
  have hp := poly_exp (usedDegree_ge h13) (usedDegree_le frac) (Int.fract_nonneg q) (Int.fract_lt_one q).le
  have h2 : (0 : ℝ) < 2 ^ ⌊q⌋ := by positivity
  have hsplit : (2 : ℝ) ^ ((q : ℚ) : ℝ) = 2 ^ ⌊q⌋ * (2 : ℝ) ^ ((Int.fract q : ℚ) : ℝ) := by
    have : ((q : ℚ) : ℝ) = ((⌊q⌋ : ℤ) : ℝ) + ((Int.fract q : ℚ) : ℝ) := by
      exact_mod_cast (Int.floor_add_fract q).symm
    conv_lhs => rw [this, Real.rpow_add (by norm_num), Real.rpow_intCast]
  rw [hsplit]
  generalize ((expPoly (usedDegree frac) (Int.fract q) : ℚ) : ℝ) = P at *
  generalize (2 : ℝ) ^ ((Int.fract q : ℚ) : ℝ) = Q at *
  have e1 : ((zq : ℚ) : ℝ) - 2 ^ ⌊q⌋ * Q = (((zq : ℚ) : ℝ) - 2 ^ ⌊q⌋ * P) + 2 ^ ⌊q⌋ * (P - Q) := by ring
  rw [e1]
  refine (abs_add_le _ _).trans ((add_le_add hreal ?_).trans_eq (b := 2 ^ ⌊q⌋ * ((padeErr frac : ℚ) : ℝ) +
    1 / 2 ^ frac + 2 ^ ⌊q⌋ * (2 / 10 ^ 4)) (by ring))
  rw [abs_mul, abs_of_pos h2]
  exact mul_le_mul_of_nonneg_left hp h2.le

/-- With the 64-bit preset: at most one part in a thousand, relative to `2^⌊x⌋ ≤ 2^x`. -/
theorem exp2_preset {x : T (.arith (2 ^ 6) n)} {X : Shares (T (.arith (2 ^ 6) n))} (hx : Holds x X)
    (hr : ∀ i, -16 ≤ real 16 (x i) ∧ real 16 (x i) < 32) :
    ∃ m, exp2 16 .unknown X = .ok m ∧ M.All (fun o => ∃ z : T (.arith (2 ^ 6) n), Holds z o ∧
      ∀ i, |((real 16 (z i) : ℚ) : ℝ) - (2 : ℝ) ^ ((real 16 (x i) : ℚ) : ℝ)| ≤
        2 ^ ⌊real 16 (x i)⌋ / 1000 + 1 / 2 ^ 16) m := by
  obtain ⟨m, hm, hall⟩ := exp2_accuracy (e := 6) (by norm_num) (by norm_num) (frac := 16) (by norm_num)
    (by norm_num) (by norm_num) (by norm_num) hx (by exact_mod_cast hr)
  refine ⟨m, hm, hall.mono ?_⟩
  rintro o ⟨z, hz, h⟩
  refine ⟨z, hz, fun i => (h i).trans ?_⟩
  have hu : usedDegree 16 = 5 := by decide +kernel
  have herr : padeErr 16 = 50 / 65536 := by
    unfold padeErr
    rw [hu]
    norm_num
  rw [herr]
  have h2 : (0 : ℝ) < 2 ^ ⌊real 16 (x i)⌋ := by positivity
  generalize (2 : ℝ) ^ ⌊real 16 (x i)⌋ = P at *
  push_cast
  have : P * (2 / 10 ^ 4 + 50 / 65536) ≤ P / 1000 := by
    rw [div_eq_mul_inv]
    exact mul_le_mul_of_nonneg_left (by norm_num) h2.le
  linarith

/-- Numbers in the range, positive and negative. -/
example : (-16 ≤ real 16 (BitVec.ofInt (2 ^ 6) 98304) ∧ real 16 (BitVec.ofInt (2 ^ 6) 98304) < 32) ∧
    (-16 ≤ real 16 (BitVec.ofInt (2 ^ 6) (-98304)) ∧ real 16 (BitVec.ofInt (2 ^ 6) (-98304)) < 32) := by
  decide +kernel

end Verif.Aby3
