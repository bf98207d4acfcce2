import Verif.Aby3.NatExpProps
import Mathlib.Algebra.Order.Ring.Pow

/-!
# C61: `approx_type="infinity"`
-/

namespace Verif.Aby3

open Verif

variable {w n : ℕ}

attribute [local irreducible] M.All M.Sim

/-- A bound on the relative error after `k` squarings that starts with `r`. -/
def sqErr (u : ℚ) : ℕ → ℚ → ℚ
  | 0, r => r
  | k + 1, r => sqErr u k (101 / 50 * r + u)

theorem le_sqErr {u : ℚ} (hu : 0 ≤ u) (k : ℕ) : ∀ {r : ℚ}, 0 ≤ r → r ≤ sqErr u k r := by
  induction k with
  | zero => intro r _; exact le_rfl
  | succ k ih =>
    intro r hr
    refine le_trans ?_ (ih (r := 101 / 50 * r + u) (by positivity))
    linarith

theorem sqErr_seven (u : ℚ) : sqErr u 7 u ≤ 300 * u ∨ u < 0 := by
  by_cases h : u < 0
  · exact .inr h
  · left
    simp only [sqErr]
    linarith

theorem SquaresVal.close {frac : ℕ} (hw : 2 ≤ w) (k : ℕ) :
    ∀ {a z : BitVec w} {v m r : ℚ}, SquaresVal frac k a z → 1 ≤ m → |v| ≤ m → 0 ≤ r →
      |real frac a - v| ≤ r * m → sqErr (1 / 2 ^ frac) k r ≤ 1 / 50 →
      2 * m ^ (2 ^ k) * (2 ^ frac * 2 ^ frac) ≤ 2 ^ (w - 2) →
      |real frac z - v ^ (2 ^ k)| ≤ sqErr (1 / 2 ^ frac) k r * m ^ (2 ^ k) := by
  induction k with
  | zero =>
    intro a z v m r h _ _ _ ha _ _
    rw [show z = a from h, pow_zero, pow_one, pow_one]
    exact ha
  | succ k ih =>
    intro a z v m r h hm hv hr ha he hR
    obtain ⟨b, hb, hz⟩ := h
    have hu : (0 : ℚ) < 1 / 2 ^ frac := by positivity
    have hm0 : 0 < m := by linarith
    have hr50 : r ≤ 1 / 50 := (le_sqErr hu.le (k + 1) hr).trans he
    have hk : m ^ 2 ≤ m ^ (2 ^ (k + 1)) := pow_le_pow_right₀ hm (by
      rw [pow_succ]; have := Nat.one_le_two_pow (n := k); omega)
    have hA : |real frac a| ≤ 51 / 50 * m := by
      have h1 := abs_add_le (real frac a - v) v
      rw [sub_add_cancel] at h1
      nlinarith
    have hNN : (0 : ℚ) < 2 ^ frac * 2 ^ frac := by positivity
    have hab := mul_real hw (by
      have h1 : |real frac a * real frac a| ≤ 21 / 20 * m ^ 2 := by
        rw [abs_mul]
        nlinarith [abs_nonneg (real frac a)]
      have h2 : m ^ 2 * (2 ^ frac * 2 ^ frac) ≤ m ^ (2 ^ (k + 1)) * (2 ^ frac * 2 ^ frac) :=
        mul_le_mul_of_nonneg_right hk hNN.le
      have h3 := mul_le_mul_of_nonneg_right h1 hNN.le
      have h4 : 0 < m ^ (2 ^ (k + 1)) * (2 ^ frac * 2 ^ frac) := by positivity
      nlinarith) hb
    have e : (2 : ℕ) ^ (k + 1) = 2 * 2 ^ k := pow_succ' 2 k
    rw [e, pow_mul, pow_mul]
    refine ih hz (by nlinarith) (by rw [abs_pow]; exact pow_le_pow_left₀ (abs_nonneg _) hv 2) (by positivity)
      ?_ he (by rw [← pow_mul, ← e]; exact hR)
    have h1 : |real frac a * real frac a - v ^ 2| ≤ 101 / 50 * r * m ^ 2 := by
      have : real frac a * real frac a - v ^ 2 = (real frac a - v) * (real frac a + v) := by ring
      rw [this, abs_mul]
      have h2 : |real frac a + v| ≤ 101 / 50 * m := by
        have := abs_add_le (real frac a) v
        linarith
      calc |real frac a - v| * |real frac a + v| ≤ r * m * (101 / 50 * m) :=
            mul_le_mul ha h2 (abs_nonneg _) (by positivity)
        _ = 101 / 50 * r * m ^ 2 := by ring
    have h2 := abs_sub_le (real frac b) (real frac a * real frac a) (v ^ 2)
    have h3 : 1 / 2 ^ frac ≤ 1 / 2 ^ frac * m ^ 2 := le_mul_of_one_le_right hu.le (one_le_pow₀ hm)
    nlinarith

/-- One word of the result of `approx_type="infinity"`. -/
theorem expInf_word {frac : ℕ} (h15 : 15 ≤ frac) (hw : 2 * frac + 10 ≤ w) {x z : BitVec w}
    (hx : |real frac x| * 2 ^ frac < 2 ^ (w - 2))
    (hR : 2 * max 1 |1 + real frac x / 128| ^ (2 ^ 7) * (2 ^ frac * 2 ^ frac) ≤ 2 ^ (w - 2))
    (hz : ExpInfVal frac x z) :
    |real frac z - (1 + real frac x / 128) ^ (2 ^ 7)| ≤
      300 * (1 / 2 ^ frac) * max 1 ((1 + real frac x / 128) ^ (2 ^ 7)) := by
  obtain ⟨t, ht, hq⟩ := hz
  have hN : (0 : ℚ) < 2 ^ frac := by positivity
  have hu : (0 : ℚ) < 1 / 2 ^ frac := by positivity
  have hu' : (1 : ℚ) / 2 ^ frac ≤ 1 / 32768 := by
    rw [show (32768 : ℚ) = 2 ^ 15 by norm_num]
    exact div_le_div_of_nonneg_left (by norm_num) (by norm_num) (pow_le_pow_right₀ (by norm_num) h15)
  have h1 := trunc_real (by omega) (hx) ht
  norm_num at h1
  rw [← one_div] at h1
  have k1 : real frac (constWord w frac 1) = 1 := constWord_one (by omega)
  have h2 := abs_le.1 h1
  have hp : (2 : ℚ) ^ (w - 1) = 2 * 2 ^ (w - 2) := by rw [← pow_succ']; congr 1; omega
  have hW : (2 : ℚ) ^ frac * 4 ≤ 2 ^ (w - 2) := by
    calc (2 : ℚ) ^ frac * 4 = 2 ^ (frac + 2) := by rw [pow_add]; norm_num
      _ ≤ _ := pow_le_pow_right₀ (by norm_num) (by omega)
  have ha : real frac (t + constWord w frac 1) = real frac t + 1 := by
    rw [add_real (by omega), k1]
    rw [k1, hp]
    have h3 : |real frac t + 1| ≤ |real frac x| + 2 := by
      have := abs_le.1 (le_refl |real frac x|)
      have h0 := abs_nonneg (real frac x)
      exact abs_le.2 ⟨by linarith [h2.1, this.1], by linarith [h2.2, this.2]⟩
    have := mul_le_mul_of_nonneg_right h3 hN.le
    linarith [hx]
  have hse : sqErr (1 / 2 ^ frac) 7 (1 / 2 ^ frac) ≤ 300 * (1 / 2 ^ frac) := by
    rcases sqErr_seven (1 / 2 ^ frac) with h | h
    · exact h
    · linarith
  have hm1 : (1 : ℚ) ≤ max 1 |1 + real frac x / 128| := le_max_left _ _
  have key := SquaresVal.close (by omega) 7 hq (v := 1 + real frac x / 128)
    (m := max 1 |1 + real frac x / 128|) (r := 1 / 2 ^ frac) hm1 (le_max_right _ _) hu.le (by
      rw [ha]
      refine le_trans ?_ (le_mul_of_one_le_right hu.le hm1)
      rw [show real frac t + 1 - (1 + real frac x / 128) = real frac t - real frac x / 128 by ring]
      exact h1) (hse.trans (by linarith)) (hR)
  have em : max 1 |1 + real frac x / 128| ^ (2 ^ 7) = max 1 ((1 + real frac x / 128) ^ (2 ^ 7)) := by
    rw [← Even.pow_abs (show Even (2 ^ 7) by decide) (1 + real frac x / 128)]
    rcases le_total 1 |1 + real frac x / 128| with h | h
    · rw [max_eq_right h, max_eq_right (one_le_pow₀ h)]
    · rw [max_eq_left h, max_eq_left (pow_le_one₀ (abs_nonneg _) h), one_pow]
  rw [em] at key
  exact key.trans (mul_le_mul_of_nonneg_right hse (by positivity))

/-- **C61** (`approx_type="infinity"`): for every tensor of numbers for which `(1 + x/128)^128` fits,
every sharing and every draw, the call succeeds and every entry of the result is within 300 units of
the last place, relative to the larger of the two, of one or `(1 + x/128)^128`. -/
theorem exp_infinity_power {frac : ℕ} (h15 : 15 ≤ frac) (hw : 2 * frac + 10 ≤ w)
    {x : T (.arith w n)} {X : Shares (T (.arith w n))} (hX : Holds x X)
    (hx : ∀ i, |real frac (x i)| * 2 ^ frac < 2 ^ (w - 2))
    (hR : ∀ i, 2 * max 1 |1 + real frac (x i) / 128| ^ (2 ^ 7) * (2 ^ frac * 2 ^ frac) ≤ 2 ^ (w - 2)) :
    ∃ m, expInf frac X = .ok m ∧ M.All (fun o => ∃ z : T (.arith w n), Holds z o ∧
      ∀ i, |real frac (z i) - (1 + real frac (x i) / 128) ^ (2 ^ 7)| ≤
        300 * (1 / 2 ^ frac) * max 1 ((1 + real frac (x i) / 128) ^ (2 ^ 7))) m := by
  obtain ⟨F, hF, hs⟩ := expInf_sim (n := n) (w := w) (frac := frac) (by omega) (by omega)
  refine ⟨F X, hF X, (hs (hX.alike 0)).left ?_⟩
  rintro o o' ⟨z, z', hz, -, ho⟩
  exact ⟨z, ho.1, fun i => expInf_word h15 hw (hx i) (hR i) (hz i)⟩

/-- The power against the exponential. -/
theorem power_exp {k : ℕ} (hk : 0 < k) {x : ℝ} (h : |x| ≤ k) :
    Real.exp x * (1 - x ^ 2 / k) ≤ (1 + x / k) ^ k ∧ (1 + x / k) ^ k ≤ Real.exp x := by
  obtain ⟨h1, h2⟩ := abs_le.1 h
  have hk0 : (0 : ℝ) < k := by exact_mod_cast hk
  have up : ∀ y : ℝ, -k ≤ y → (1 + y / k) ^ k ≤ Real.exp y := by
    intro y hy
    have := Real.one_sub_div_pow_le_exp_neg (n := k) (t := -y) (by linarith)
    rw [neg_neg, neg_div, sub_neg_eq_add] at this
    exact this
  refine ⟨?_, up x h1⟩
  have h3 := up (-x) (by linarith)
  have h4 : (1 + -x / k) ^ k * (1 + x / k) ^ k = (1 + -(x / k) ^ 2) ^ k := by
    rw [← mul_pow]
    congr 1
    ring
  have hb : |x / k| ≤ 1 := by rw [abs_div, abs_of_pos hk0, div_le_one hk0]; exact h
  have h5 := one_add_mul_le_pow (show (-2 : ℝ) ≤ -(x / k) ^ 2 by
    have := abs_le.1 hb
    nlinarith) k
  have h6 : 0 ≤ (1 + x / k) ^ k := pow_nonneg (by linarith [(abs_le.1 hb).1]) _
  have h7 := mul_le_mul_of_nonneg_right h3 h6
  rw [h4, Real.exp_neg] at h7
  have he := Real.exp_pos x
  have h8 : 1 - x ^ 2 / k ≤ (Real.exp x)⁻¹ * (1 + x / k) ^ k := by
    refine le_trans (le_of_eq ?_) (h5.trans h7)
    field_simp
    ring
  rw [inv_mul_eq_div, le_div_iff₀ he] at h8
  linarith

/-- **C61** (`approx_type="infinity"`, against the real exponential): for `-128 ≤ x ≤ 20` the result
lies between `e^x (1 - x^2/128)` and `e^x`, up to 300 units relative to the larger of one and `e^x`. -/
theorem exp_infinity_close {frac : ℕ} (h15 : 15 ≤ frac) (hw : 2 * frac + 32 ≤ w)
    {x : T (.arith w n)} {X : Shares (T (.arith w n))} (hX : Holds x X)
    (hx : ∀ i, -128 ≤ real frac (x i) ∧ real frac (x i) ≤ 20) :
    ∃ m, expInf frac X = .ok m ∧ M.All (fun o => ∃ z : T (.arith w n), Holds z o ∧
      ∀ i, Real.exp (real frac (x i) : ℚ) * (1 - ((real frac (x i) : ℚ) : ℝ) ^ 2 / 128) -
          300 * (1 / 2 ^ frac) * max 1 (Real.exp (real frac (x i) : ℚ)) ≤ ((real frac (z i) : ℚ) : ℝ) ∧
        ((real frac (z i) : ℚ) : ℝ) ≤ Real.exp (real frac (x i) : ℚ) +
          300 * (1 / 2 ^ frac) * max 1 (Real.exp (real frac (x i) : ℚ))) m := by
  have hab : ∀ i, |real frac (x i)| ≤ 128 := fun i => abs_le.2 ⟨(hx i).1, by linarith [(hx i).2]⟩
  have hR : ∀ i, 2 * max 1 |1 + real frac (x i) / 128| ^ (2 ^ 7) * (2 ^ frac * 2 ^ frac) ≤ 2 ^ (w - 2) := by
    intro i
    obtain ⟨h1, h2⟩ := hx i
    have h3 : max 1 |1 + real frac (x i) / 128| ^ (2 ^ 7) ≤ (1 + 20 / 128) ^ (2 ^ 7) := by
      refine pow_le_pow_left₀ (le_trans zero_le_one (le_max_left _ _)) ?_ _
      rw [abs_of_nonneg (by linarith)]
      exact max_le (by norm_num) (by linarith)
    have h4 : ((1 : ℚ) + 20 / 128) ^ (2 ^ 7) ≤ 2 ^ 29 := by norm_num
    have h5 : 2 * max 1 |1 + real frac (x i) / 128| ^ (2 ^ 7) ≤ 2 ^ 30 := by
      rw [pow_succ' (2 : ℚ) 29]
      exact mul_le_mul_of_nonneg_left (h3.trans h4) (by norm_num)
    calc _ ≤ (2 : ℚ) ^ 30 * (2 ^ frac * 2 ^ frac) := mul_le_mul_of_nonneg_right h5 (by positivity)
      _ = 2 ^ (30 + (frac + frac)) := by rw [pow_add, pow_add]
      _ ≤ 2 ^ (w - 2) := pow_le_pow_right₀ (by norm_num) (by omega)
  obtain ⟨m, hm, hall⟩ := exp_infinity_power h15 (by omega) hX (fun i => by
    have : |real frac (x i)| * 2 ^ frac ≤ 2 ^ 7 * 2 ^ frac :=
      mul_le_mul_of_nonneg_right ((hab i).trans (by norm_num)) (by positivity)
    rw [← pow_add] at this
    exact this.trans_lt (pow_lt_pow_right₀ (by norm_num) (by omega))) hR
  refine ⟨m, hm, hall.mono ?_⟩
  rintro o ⟨z, hz, h⟩
  refine ⟨z, hz, fun i => ?_⟩
  have hi := h i
  obtain ⟨p1, p2⟩ := power_exp (k := 2 ^ 7) (by decide) (x := (real frac (x i) : ℚ)) (by
    have : ((2 ^ 7 : ℕ) : ℝ) = 128 := by norm_num
    rw [this]
    exact_mod_cast hab i)
  rw [show ((2 ^ 7 : ℕ) : ℝ) = 128 by norm_num] at p1 p2
  generalize 2 ^ 7 = K at hi p1 p2
  generalize real frac (x i) = q at *
  generalize real frac (z i) = y at *
  have hi' := (Rat.cast_le (K := ℝ)).2 hi
  push_cast at hi'
  replace hi' := abs_le.1 hi'
  have hmx : max 1 ((1 + (q : ℝ) / 128) ^ K) ≤ max 1 (Real.exp q) := max_le_max le_rfl p2
  have := mul_le_mul_of_nonneg_left hmx (show (0 : ℝ) ≤ 300 * (1 / 2 ^ frac) by positivity)
  constructor <;> linarith [hi'.1, hi'.2]

/-- The range given in the documentation of `approx_type="infinity"`, all numbers, is wrong: for -260
the result is more than 50, although the real exponential is below `10^-100`. -/
theorem exp_infinity_range_false {X : Shares (T (.arith 64 1))}
    (hX : Holds (s := .arith 64 1) (fun _ => BitVec.ofInt 64 (-260 * 2 ^ 16)) X) :
    ∃ m, expInf 16 X = .ok m ∧ M.All (fun o => ∃ z : T (.arith 64 1), Holds z o ∧
      50 ≤ real 16 (z 0)) m := by
  have hreal : real 16 (BitVec.ofInt 64 (-260 * 2 ^ 16)) = -260 := by
    unfold real
    rw [Bits.toInt_ofInt (by norm_num) (by norm_num) (by norm_num)]
    norm_num
  obtain ⟨m, hm, hall⟩ := exp_infinity_power (frac := 16) (by norm_num) (by norm_num) hX
    (fun i => by rw [hreal]; norm_num) (fun i => by rw [hreal]; norm_num)
  refine ⟨m, hm, hall.mono ?_⟩
  rintro o ⟨z, hz, h⟩
  refine ⟨z, hz, ?_⟩
  have h0 := h 0
  rw [hreal] at h0
  have := (abs_le.1 h0).1
  rw [max_eq_right (by norm_num)] at this
  norm_num at this
  linarith

end Verif.Aby3
