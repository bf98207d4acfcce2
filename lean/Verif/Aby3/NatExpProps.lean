import Verif.Aby3.NatExpLemmas
import Verif.Aby3.InvSqrtProps
import Verif.Aby3.ExpReal

/-!
# C61: the exponential of a private tensor
-/

namespace Verif.Aby3

open Verif

variable {w n : ℕ}

attribute [local irreducible] M.All M.Sim

/-! ## The constant -/

/-- `np.log2(np.e)` lies below the real logarithm, by less than `10^-16`. -/
theorem log2e_bounds : (log2e : ℝ) * Real.log 2 ≤ 1 ∧ 1 - (log2e : ℝ) * Real.log 2 ≤ 1 / 10 ^ 16 := by
  have t : |(2⁻¹ : ℝ)| = 2⁻¹ := by rw [abs_of_pos]; norm_num
  have z := Real.abs_log_sub_add_sum_range_le (show |(2⁻¹ : ℝ)| < 1 by rw [t]; norm_num) 70
  rw [t] at z
  norm_num1 at z
  rw [one_div (2 : ℝ), Real.log_inv, ← sub_eq_add_neg, abs_sub_comm] at z
  have z' := abs_le.1 z
  have h : (log2e : ℝ) = 6497320848556798 / 4503599627370496 := by unfold log2e; push_cast; rfl
  rw [h]
  have z1 := z'.1
  have z2 := z'.2
  norm_num [Finset.sum_range_succ] at z1 z2
  constructor <;> linarith

theorem log2e_word {frac : ℕ} (hw : frac + 2 ≤ w) :
    real frac (constWord w frac log2e) ≤ log2e ∧
      log2e - 1 / 2 ^ frac ≤ real frac (constWord w frac log2e) := by
  have hN : (0 : ℚ) < 2 ^ frac := by positivity
  have hq : |log2e| < 2 ^ 1 := by rw [log2e, abs_of_pos] <;> norm_num
  have hc := abs_le.1 (const_real (w := w) (frac := frac) (k := 1) (by omega) hq)
  have h0 : 0 ≤ log2e * 2 ^ frac := by unfold log2e; positivity
  refine ⟨?_, by linarith [hc.1]⟩
  obtain ⟨a1, -, -⟩ := Fixed.toInt_spec (log2e * 2 ^ frac)
  rw [abs_of_nonneg h0] at a1
  rw [real_of_int (z := constWord w frac log2e) (V := Fixed.toInt (log2e * 2 ^ frac)) (by omega) rfl,
    div_le_iff₀ hN]
  · exact (le_abs_self _).trans a1
  · rw [abs_div, abs_of_pos hN, div_mul_cancel₀ _ hN.ne']
    refine a1.trans_lt ?_
    rw [abs_of_pos (by unfold log2e; norm_num)] at hq
    calc log2e * 2 ^ frac < 2 ^ 1 * 2 ^ frac := mul_lt_mul_of_pos_right hq hN
      _ = 2 ^ (1 + frac) := by rw [pow_add]
      _ ≤ 2 ^ (w - 1) := pow_le_pow_right₀ (by norm_num) (by omega)

/-! ## One element of `exp2` -/

theorem Exp2Spec.close {frac : ℕ} (h13 : 13 ≤ frac) (h32 : frac ≤ 32) {sign : SignArg} {q zq : ℚ}
    (hs : Exp2Spec frac sign q zq) (r0 : -frac ≤ q) (r1 : q < 32) (hn : q < 0 → sign ≠ .pos)
    (hp : 0 ≤ q → sign ≠ .neg) :
    |(zq : ℝ) - (2 : ℝ) ^ (q : ℝ)| ≤ 2 ^ (q : ℝ) * (2 / 10 ^ 4 + (padeErr frac : ℚ)) + 1 / 2 ^ frac := by
  have hmain : |zq - 2 ^ ⌊q⌋ * expPoly (usedDegree frac) (Int.fract q)| ≤
      2 ^ ⌊q⌋ * padeErr frac + 1 / 2 ^ frac := by
    rcases lt_or_ge q 0 with hq | hq
    · exact hs.neg (hn hq) hq r0 h32
    · have f0 : 0 ≤ ⌊q⌋ := Int.floor_nonneg.2 hq
      have f1 : ⌊q⌋ < 32 := Int.floor_lt.2 (by exact_mod_cast r1)
      obtain ⟨k, hk⟩ : ∃ k : ℕ, (k : ℤ) = ⌊q⌋ := ⟨⌊q⌋.toNat, by omega⟩
      have := hs.nonneg (hp hq) hq k (by omega)
      rw [← hk, zpow_natCast]
      have h1 : (0 : ℚ) ≤ 1 / 2 ^ frac := by positivity
      linarith
  have hreal : |(zq : ℝ) - 2 ^ ⌊q⌋ * ((expPoly (usedDegree frac) (Int.fract q) : ℚ) : ℝ)| ≤
      2 ^ ⌊q⌋ * ((padeErr frac : ℚ) : ℝ) + 1 / 2 ^ frac := by
    have := (Rat.cast_le (K := ℝ)).2 hmain
    push_cast at this
    exact this
  have hpe := poly_exp (usedDegree_ge h13) (usedDegree_le frac) (Int.fract_nonneg q) (Int.fract_lt_one q).le
  have h2 : (0 : ℝ) < 2 ^ ⌊q⌋ := by positivity
  have hsplit : (2 : ℝ) ^ (q : ℝ) = 2 ^ ⌊q⌋ * (2 : ℝ) ^ ((Int.fract q : ℚ) : ℝ) := by
    have : (q : ℝ) = ((⌊q⌋ : ℤ) : ℝ) + ((Int.fract q : ℚ) : ℝ) := by
      exact_mod_cast (Int.floor_add_fract q).symm
    conv_lhs => rw [this, Real.rpow_add (by norm_num), Real.rpow_intCast]
  have hone : (1 : ℝ) ≤ (2 : ℝ) ^ ((Int.fract q : ℚ) : ℝ) :=
    Real.one_le_rpow (by norm_num) (by exact_mod_cast Int.fract_nonneg q)
  have hpe0 : (0 : ℝ) ≤ (padeErr frac : ℚ) := by exact_mod_cast padeErr_nonneg frac
  rw [hsplit]
  generalize ((expPoly (usedDegree frac) (Int.fract q) : ℚ) : ℝ) = P at *
  generalize (2 : ℝ) ^ ((Int.fract q : ℚ) : ℝ) = Q at *
  generalize ((padeErr frac : ℚ) : ℝ) = p at *
  generalize (2 : ℝ) ^ ⌊q⌋ = F at *
  have e1 : (zq : ℝ) - F * Q = ((zq : ℝ) - F * P) + F * (P - Q) := by ring
  rw [e1]
  refine (abs_add_le _ _).trans ?_
  rw [abs_mul, abs_of_pos h2]
  have h3 := mul_le_mul_of_nonneg_left hpe h2.le
  have h4 : F * (2 / 10 ^ 4 + p) ≤ F * Q * (2 / 10 ^ 4 + p) := by
    refine mul_le_mul_of_nonneg_right ?_ (by positivity)
    exact le_mul_of_one_le_right h2.le hone
  linarith

/-- From an error in the exponent to one in the power. -/
theorem exp_shift {x d D : ℝ} (h : |d| ≤ D) (hD : D ≤ 1) : |Real.exp (x + d) - Real.exp x| ≤ Real.exp x * (2 * D) := by
  rw [Real.exp_add, ← mul_sub_one, abs_mul, abs_of_pos (Real.exp_pos _)]
  refine mul_le_mul_of_nonneg_left ?_ (Real.exp_pos _).le
  exact (Real.abs_exp_sub_one_le (h.trans hD)).trans (by linarith)

/-- A rounded product of two numbers that are not negative is not negative. -/
theorem mul_trunc_nonneg {frac : ℕ} (hw : 2 ≤ w) {u v z : BitVec w}
    (hr : |real frac u * real frac v| * (2 ^ frac * 2 ^ frac) < 2 ^ (w - 2)) (hu : 0 ≤ real frac u)
    (hv : 0 ≤ real frac v) (hz : TruncOk .heuristic frac (u * v) z) : 0 ≤ real frac z := by
  have hN : (0 : ℚ) < 2 ^ frac := by positivity
  unfold real at hu hv
  rw [le_div_iff₀ hN, zero_mul] at hu hv
  have hu' : 0 ≤ u.toInt := by exact_mod_cast hu
  have hv' : 0 ≤ v.toInt := by exact_mod_cast hv
  have hV : u.toInt * v.toInt < 2 ^ (w - 2) := by
    have e : |real frac u * real frac v| * (2 ^ frac * 2 ^ frac) = ((u.toInt * v.toInt : ℤ) : ℚ) := by
      unfold real
      rw [abs_of_nonneg (mul_nonneg (div_nonneg hu hN.le) (div_nonneg hv hN.le))]
      push_cast
      field_simp
    rw [e] at hr
    exact_mod_cast hr
  have h0 : 0 ≤ u.toInt * v.toInt := mul_nonneg hu' hv'
  have hp : (2 : ℤ) ^ (w - 1) = 2 * 2 ^ (w - 2) := by rw [← pow_succ']; congr 1; omega
  have hW : (1 : ℤ) ≤ 2 ^ (w - 2) := one_le_pow₀ (by norm_num)
  have e : (u * v).toInt = u.toInt * v.toInt := by
    have : u * v = BitVec.ofInt w (u.toInt * v.toInt) := by
      rw [Bits.ofInt_mul, BitVec.ofInt_toInt, BitVec.ofInt_toInt]
    rw [this, Bits.toInt_ofInt (by omega)] <;> omega
  have h1 := hz (by rw [e]; omega) (by rw [e]; exact hV)
  rw [e] at h1
  have d0 : 0 ≤ u.toInt * v.toInt / 2 ^ frac := Int.ediv_nonneg h0 (by positivity)
  have d1 : u.toInt * v.toInt / 2 ^ frac ≤ u.toInt * v.toInt := Int.ediv_le_self _ h0
  have hz0 : 0 ≤ z.toInt := by
    rcases h1 with rfl | rfl <;> rw [Bits.toInt_ofInt (by omega)] <;> omega
  unfold real
  exact div_nonneg (by exact_mod_cast hz0) hN.le

/-- The product with the constant, for one element: it keeps the sign, stays in the range of `exp2`
and differs from `x / log 2` by little. -/
theorem adjusted {frac : ℕ} (h13 : 13 ≤ frac) (h32 : frac ≤ 32) (hw : 2 * frac + 5 ≤ w) {x a : BitVec w}
    (hx : |real frac x| ≤ 2 ^ (w - 3 - 2 * frac)) (h22 : real frac x ≤ 22)
    (ha : TruncOk .heuristic frac (x * constWord w frac log2e) a) :
    real frac a < 32 ∧ (real frac x < 0 → real frac a < 0) ∧ (0 ≤ real frac x → 0 ≤ real frac a) ∧
      |Real.log 2 * (real frac a : ℚ) - (real frac x : ℚ)| ≤ (1 / 2 ^ frac) * (1 + |((real frac x : ℚ) : ℝ)|) ∧
      (real frac x < 0 → ((real frac x : ℚ) : ℝ) ≤ Real.log 2 * (real frac a : ℚ) + 1 / 2 ^ frac) ∧
      (-(frac : ℚ) ≤ real frac a → |real frac x| ≤ 33) := by
  have hN : (0 : ℚ) < 2 ^ frac := by positivity
  obtain ⟨c1, c2⟩ := log2e_word (w := w) (frac := frac) (by omega)
  obtain ⟨l1, l2⟩ := log2e_bounds
  have hu : (1 : ℚ) / 2 ^ frac ≤ 1 / 8192 := by
    rw [show (8192 : ℚ) = 2 ^ 13 by norm_num]
    exact div_le_div_of_nonneg_left (by norm_num) (by norm_num) (pow_le_pow_right₀ (by norm_num) h13)
  have hu' : (1 : ℚ) / 2 ^ 32 ≤ 1 / 2 ^ frac :=
    div_le_div_of_nonneg_left (by norm_num) (by positivity) (pow_le_pow_right₀ (by norm_num) h32)
  have hL1 : log2e ≤ 14427 / 10000 := by unfold log2e; norm_num
  have hL2 : 14426 / 10000 ≤ log2e := by unfold log2e; norm_num
  have hc1 : real frac (constWord w frac log2e) ≤ 14427 / 10000 := by linarith
  have hc2 : 14424 / 10000 ≤ real frac (constWord w frac log2e) := by linarith
  have hprod : |real frac x * real frac (constWord w frac log2e)| * (2 ^ frac * 2 ^ frac) < 2 ^ (w - 2) := by
    rw [abs_mul, abs_of_pos (show 0 < real frac (constWord w frac log2e) by linarith)]
    have h1 : |real frac x| * real frac (constWord w frac log2e) ≤ 2 ^ (w - 3 - 2 * frac) * (14427 / 10000) :=
      mul_le_mul hx hc1 (by linarith) (by positivity)
    have e : (2 : ℚ) ^ (w - 2) = 2 * 2 ^ (w - 3 - 2 * frac) * (2 ^ frac * 2 ^ frac) := by
      rw [← pow_succ', ← pow_add, ← pow_add]; congr 1; omega
    have hM : (0 : ℚ) < 2 ^ (w - 3 - 2 * frac) := by positivity
    rw [e]
    refine mul_lt_mul_of_pos_right (h1.trans_lt ?_) (by positivity)
    linarith
  have hm := mul_real (by omega) hprod ha
  -- the sign
  have hpos : 0 ≤ real frac x → 0 ≤ real frac a := by
    intro h0
    exact mul_trunc_nonneg (by omega) hprod h0 (by linarith) ha
  have hneg : real frac x < 0 → real frac x ≤ -(1 / 2 ^ frac) := by
    intro h
    unfold real at h ⊢
    rw [div_lt_iff₀ hN, zero_mul] at h
    have h1 : x.toInt < 0 := by exact_mod_cast h
    have h2 : (x.toInt : ℚ) ≤ -1 := by exact_mod_cast (by omega : x.toInt ≤ -1)
    rw [← neg_div]
    exact div_le_div_of_nonneg_right h2 hN.le
  generalize real frac (constWord w frac log2e) = c at *
  generalize real frac x = X at *
  generalize real frac a = A at *
  have hm' := abs_le.1 hm
  have hu0 : (0 : ℚ) < 1 / 2 ^ frac := by positivity
  refine ⟨?_, ?_, hpos, ?_, ?_, ?_⟩
  · have : X * c ≤ 22 * (14427 / 10000) := by
      rcases le_total X 0 with h | h
      · exact (mul_nonpos_of_nonpos_of_nonneg h (by linarith)).trans (by norm_num)
      · exact mul_le_mul h22 hc1 (by linarith) (by norm_num)
    linarith [hm'.2]
  · intro h
    have h1 := hneg h
    have h2 : X * c ≤ -(1 / 2 ^ frac) * (14424 / 10000) := by nlinarith
    linarith [hm'.2]
  · have cast : ∀ {p q : ℚ}, p ≤ q → (p : ℝ) ≤ q := fun h => (Rat.cast_le (K := ℝ)).2 h
    have r1 := cast hm
    have r2 := cast c1
    have r3 := cast c2
    have r4 := cast hu'
    push_cast at r1 r2 r3 r4
    have l3 : Real.log 2 ≤ 7 / 10 := Real.log_two_lt_d9.le.trans (by norm_num)
    have l4 : 0 ≤ Real.log 2 := Real.log_nonneg (by norm_num)
    have k1 : |Real.log 2 * ((A : ℝ) - X * c)| ≤ 7 / 10 * (1 / 2 ^ frac) := by
      rw [abs_mul, abs_of_nonneg l4]
      exact mul_le_mul l3 r1 (abs_nonneg _) (by norm_num)
    have k2 : |1 - Real.log 2 * (c : ℝ)| ≤ 8 / 10 * (1 / 2 ^ frac) := by
      rw [abs_of_nonneg (by nlinarith)]
      have : Real.log 2 * ((log2e : ℝ) - c) ≤ 7 / 10 * (1 / 2 ^ frac) :=
        mul_le_mul l3 (by linarith) (by linarith) (by norm_num)
      norm_num at r4 l2 this ⊢
      linarith
    have k3 : |(X : ℝ) * (1 - Real.log 2 * c)| ≤ |(X : ℝ)| * (8 / 10 * (1 / 2 ^ frac)) := by
      rw [abs_mul]
      exact mul_le_mul_of_nonneg_left k2 (abs_nonneg _)
    have e : Real.log 2 * (A : ℝ) - X = Real.log 2 * ((A : ℝ) - X * c) - X * (1 - Real.log 2 * c) := by ring
    rw [e]
    have := abs_sub (Real.log 2 * ((A : ℝ) - X * c)) (X * (1 - Real.log 2 * c))
    have h0 : (0 : ℝ) < 1 / 2 ^ frac := by positivity
    nlinarith [abs_nonneg (X : ℝ)]
  · intro h
    have r1 : ((X : ℚ) : ℝ) < 0 := by exact_mod_cast h
    have r2 : ((c : ℚ) : ℝ) ≤ log2e := by exact_mod_cast c1
    have r3 : ((X : ℚ) : ℝ) * c - A ≤ 1 / 2 ^ frac := by
      have := (Rat.cast_le (K := ℝ)).2 (show X * c - A ≤ 1 / 2 ^ frac by linarith [hm'.1])
      push_cast at this
      exact this
    have l3 : Real.log 2 ≤ 1 := Real.log_two_lt_d9.le.trans (by norm_num)
    have l4 : 0 ≤ Real.log 2 := Real.log_nonneg (by norm_num)
    have k1 : Real.log 2 * (c : ℝ) ≤ 1 := by nlinarith
    have k2 : Real.log 2 * ((X : ℝ) * c - A) ≤ 1 / 2 ^ frac := by
      have h0 : (0 : ℝ) < 1 / 2 ^ frac := by positivity
      nlinarith
    nlinarith
  · intro h
    have hf : (frac : ℚ) ≤ 32 := by exact_mod_cast h32
    rw [abs_le]
    constructor
    · by_contra hc
      push Not at hc
      nlinarith [hm'.2]
    · linarith

/-- One element: the result is within a relative error, which comes from the polynomial and from the
rounding of `x`, and two units of the last place. -/
theorem natExp_word {frac : ℕ} (h13 : 13 ≤ frac) (h32 : frac ≤ 32) (hw : 2 * frac + 5 ≤ w)
    (hw32 : frac + 36 ≤ w) {sign : SignArg} {x z : T (.arith w n)} (h : NatExpVal frac sign x z) (i : Fin n)
    (hx : |real frac (x i)| ≤ 2 ^ (w - 3 - 2 * frac)) (h22 : real frac (x i) ≤ 22)
    (hn : real frac (x i) < 0 → sign ≠ .pos) (hp : 0 ≤ real frac (x i) → sign ≠ .neg) :
    |((real frac (z i) : ℚ) : ℝ) - Real.exp (real frac (x i) : ℚ)| ≤
      Real.exp (real frac (x i) : ℚ) * (2 / 10 ^ 4 + (padeErr frac : ℚ) +
        3 * (1 / 2 ^ frac) * (1 + |((real frac (x i) : ℚ) : ℝ)|)) + 2 * (1 / 2 ^ frac) := by
  obtain ⟨a, ha, hz⟩ := h
  obtain ⟨a1, a2, a3, a4, a5, a6⟩ := adjusted h13 h32 hw hx h22 (ha i)
  have hd : padeDegree frac ≠ 0 := by
    have := usedDegree_ge h13
    unfold usedDegree at this
    omega
  have hs := hz.spec hd hw hw32 i (a1.trans_le (by
    have h1 : (2 : ℚ) ^ 6 ≤ 2 ^ (w - 1 - frac) := pow_le_pow_right₀ (by norm_num) (by omega)
    have h2 : (frac : ℚ) ≤ 32 := by exact_mod_cast h32
    norm_num at h1
    linarith))
  have sg1 : real frac (a i) < 0 → sign ≠ .pos := fun h => hn (by
    by_contra hc
    exact absurd (a3 (not_lt.1 hc)) (not_le.2 h))
  have sg2 : 0 ≤ real frac (a i) → sign ≠ .neg := fun h => hp (by
    by_contra hc
    exact absurd (a2 (not_le.1 hc)) (not_lt.2 h))
  have hN : (8192 : ℝ) ≤ 2 ^ frac := by
    calc (8192 : ℝ) = 2 ^ 13 := by norm_num
      _ ≤ 2 ^ frac := pow_le_pow_right₀ (by norm_num) h13
  have hu : (1 : ℝ) / 2 ^ frac ≤ 1 / 8192 := div_le_div_of_nonneg_left (by norm_num) (by norm_num) hN
  have hu0 : (0 : ℝ) < 1 / 2 ^ frac := by positivity
  have hp0 : (0 : ℝ) ≤ (padeErr frac : ℚ) := by exact_mod_cast padeErr_nonneg frac
  have hpE : ((padeErr frac : ℚ) : ℝ) ≤ 1 / 50 := by
    have h1 : padeErr frac ≤ 98 / 2 ^ frac := by
      unfold padeErr
      refine div_le_div_of_nonneg_right ?_ (by positivity)
      have : (usedDegree frac : ℚ) ≤ 7 := by exact_mod_cast usedDegree_le frac
      have : (0 : ℚ) ≤ usedDegree frac := Nat.cast_nonneg _
      nlinarith
    have h2 := (Rat.cast_le (K := ℝ)).2 h1
    push_cast at h2
    refine h2.trans ?_
    rw [div_le_div_iff₀ (by positivity) (by norm_num)]
    linarith
  have pw : ∀ q : ℝ, (2 : ℝ) ^ q = Real.exp (Real.log 2 * q) := fun q => Real.rpow_def_of_pos (by norm_num) q
  rcases lt_or_ge (real frac (a i)) (-(frac : ℚ)) with hlt | hge
  · -- underflow
    have hx0 : real frac (x i) < 0 := by
      by_contra hc
      have := a3 (not_lt.1 hc)
      have : (0 : ℚ) ≤ frac := Nat.cast_nonneg _
      linarith
    have hz0 : real frac (z i) = 0 := hs.tiny (hn hx0) hlt
    have h1 := a5 hx0
    have h2 : Real.log 2 * ((real frac (a i) : ℚ) : ℝ) ≤ Real.log 2 * (-(frac : ℝ)) := by
      refine mul_le_mul_of_nonneg_left ?_ (Real.log_nonneg (by norm_num))
      exact_mod_cast hlt.le
    have h3 : Real.exp (real frac (x i) : ℚ) ≤ 2 * (1 / 2 ^ frac) := by
      calc Real.exp (real frac (x i) : ℚ) ≤ Real.exp (Real.log 2 * (-(frac : ℝ)) + 1 / 2 ^ frac) :=
            Real.exp_le_exp.2 (by linarith)
        _ = 1 / 2 ^ frac * Real.exp (1 / 2 ^ frac) := by
            rw [Real.exp_add, ← pw, Real.rpow_neg (by norm_num), Real.rpow_natCast, one_div]
        _ ≤ 1 / 2 ^ frac * 2 := by
            refine mul_le_mul_of_nonneg_left ?_ hu0.le
            have := exp_shift (x := 0) (d := 1 / 2 ^ frac) (D := 1 / 8192) (by rw [abs_of_pos hu0]; exact hu)
              (by norm_num)
            rw [zero_add, Real.exp_zero] at this
            have := (abs_le.1 this).2
            linarith
        _ = 2 * (1 / 2 ^ frac) := by ring
    rw [hz0, Rat.cast_zero, zero_sub, abs_neg, abs_of_pos (Real.exp_pos _)]
    have h4 : 0 ≤ Real.exp (real frac (x i) : ℚ) * (2 / 10 ^ 4 + (padeErr frac : ℚ) +
        3 * (1 / 2 ^ frac) * (1 + |((real frac (x i) : ℚ) : ℝ)|)) := by positivity
    linarith
  · have hc := hs.close h13 h32 hge a1 sg1 sg2
    have hX : |((real frac (x i) : ℚ) : ℝ)| ≤ 33 := by exact_mod_cast a6 hge
    generalize hD : (1 / 2 ^ frac) * (1 + |((real frac (x i) : ℚ) : ℝ)|) = D at *
    have hD1 : D ≤ 1 / 200 := by
      rw [← hD]
      calc (1 : ℝ) / 2 ^ frac * (1 + |((real frac (x i) : ℚ) : ℝ)|) ≤ 1 / 8192 * 34 :=
            mul_le_mul hu (by linarith) (by positivity) (by norm_num)
        _ ≤ 1 / 200 := by norm_num
    have hD0 : 0 ≤ D := (abs_nonneg _).trans a4
    have he := exp_shift (x := (real frac (x i) : ℚ)) a4 (by linarith)
    rw [add_sub_cancel, ← pw] at he
    generalize (2 : ℝ) ^ ((real frac (a i) : ℚ) : ℝ) = P at *
    have hE := Real.exp_pos ((real frac (x i) : ℚ) : ℝ)
    generalize Real.exp ((real frac (x i) : ℚ) : ℝ) = E at *
    generalize ((padeErr frac : ℚ) : ℝ) = p at *
    rw [show 3 * (1 / 2 ^ frac) * (1 + |((real frac (x i) : ℚ) : ℝ)|) = 3 * D by rw [← hD]; ring]
    have h1 := abs_sub_le (((real frac (z i) : ℚ) : ℝ)) P E
    have h2 : P ≤ E * (1 + 2 * D) := by linarith [(abs_le.1 he).2]
    have h3 : P * (2 / 10 ^ 4 + p) ≤ E * (1 + 2 * D) * (2 / 10 ^ 4 + p) :=
      mul_le_mul_of_nonneg_right h2 (by positivity)
    have h4 : E * (2 * D) * (2 / 10 ^ 4 + p) ≤ E * (2 * D) * (1 / 2) :=
      mul_le_mul_of_nonneg_left (by norm_num; linarith) (by positivity)
    nlinarith

/-- **C61** (the default `approx_type`): for every tensor of numbers at most 22 whose product with the
constant fits, every sharing and every draw, the call succeeds and every entry of the result is within
`e^x (0.0002 + padeErr + 3 (1 + |x|) units)` and two units of the last place of the real `e^x`. With
`sign=1` all numbers must be at least zero, with `sign=-1` all must be negative. -/
theorem exp_close {e : ℕ} (he : 0 < e) (he7 : e ≤ 7) {frac : ℕ} (h13 : 13 ≤ frac) (h32 : frac ≤ 32)
    (hw : 2 * frac + 5 ≤ 2 ^ e) (hw32 : frac + 36 ≤ 2 ^ e) (sign : SignArg)
    {x : T (.arith (2 ^ e) n)} {X : Shares (T (.arith (2 ^ e) n))} (hX : Holds x X)
    (hx : ∀ i, |real frac (x i)| ≤ 2 ^ (2 ^ e - 3 - 2 * frac)) (h22 : ∀ i, real frac (x i) ≤ 22)
    (hn : ∀ i, real frac (x i) < 0 → sign ≠ .pos) (hp : ∀ i, 0 ≤ real frac (x i) → sign ≠ .neg) :
    ∃ m, natExp frac sign X = .ok m ∧ M.All (fun o => ∃ O, o = .ok O ∧ ∃ z : T (.arith (2 ^ e) n),
      Holds z O ∧ ∀ i, |((real frac (z i) : ℚ) : ℝ) - Real.exp (real frac (x i) : ℚ)| ≤
        Real.exp (real frac (x i) : ℚ) * (2 / 10 ^ 4 + (padeErr frac : ℚ) +
          3 * (1 / 2 ^ frac) * (1 + |((real frac (x i) : ℚ) : ℝ)|)) + 2 * (1 / 2 ^ frac)) m := by
  have hd : padeDegree frac ≠ 0 := by
    have := usedDegree_ge h13
    unfold usedDegree at this
    omega
  obtain ⟨F, hF, hs⟩ := natExp_sim (n := n) he he7 hd (by omega) (by omega) sign
  refine ⟨F X, hF X, (hs (hX.alike 0)).left ?_⟩
  rintro o o' ⟨O, O', rfl, -, z, z', hz, -, ho⟩
  exact ⟨O, rfl, z, ho.1, fun i => natExp_word h13 h32 hw hw32 hz i (hx i) (h22 i) (hn i) (hp i)⟩

/-- **C61** for the default 64-bit configuration (16 fractional bits): one part in a thousand, the
rounding of `x`, and two units of the last place. -/
theorem exp_default {x : T (.arith (2 ^ 6) n)} {X : Shares (T (.arith (2 ^ 6) n))} (hX : Holds x X)
    (hx : ∀ i, -2 ^ 29 ≤ real 16 (x i) ∧ real 16 (x i) ≤ 22) :
    ∃ m, natExp 16 .unknown X = .ok m ∧ M.All (fun o => ∃ O, o = .ok O ∧ ∃ z : T (.arith (2 ^ 6) n),
      Holds z O ∧ ∀ i, |((real 16 (z i) : ℚ) : ℝ) - Real.exp (real 16 (x i) : ℚ)| ≤
        Real.exp (real 16 (x i) : ℚ) * (1 / 1000 + 3 / 2 ^ 16 * (1 + |((real 16 (x i) : ℚ) : ℝ)|)) +
          2 / 2 ^ 16) m := by
  obtain ⟨m, hm, hall⟩ := exp_close (e := 6) (by norm_num) (by norm_num) (frac := 16) (by norm_num)
    (by norm_num) (by norm_num) (by norm_num) .unknown hX (fun i => by
      obtain ⟨h1, h2⟩ := hx i
      rw [abs_le]
      norm_num at h1 ⊢
      constructor <;> linarith) (fun i => (hx i).2) (fun _ _ => by decide) (fun _ _ => by decide)
  refine ⟨m, hm, hall.mono ?_⟩
  rintro o ⟨O, rfl, z, hz, h⟩
  refine ⟨O, rfl, z, hz, fun i => (h i).trans ?_⟩
  have hu : usedDegree 16 = 5 := by decide +kernel
  have herr : padeErr 16 = 50 / 65536 := by
    unfold padeErr
    rw [hu]
    norm_num
  rw [herr]
  push_cast
  refine add_le_add (mul_le_mul_of_nonneg_left ?_ (Real.exp_pos _).le) (by norm_num)
  norm_num

/-- The documented range, from -22 upwards, has no such upper end: the exponential of 23 fits in a
64-bit word with 16 fractional bits, but the result is at most 5. -/
theorem exp_range_false {X : Shares (T (.arith (2 ^ 6) 1))}
    (hX : Holds (s := .arith (2 ^ 6) 1) (fun _ => BitVec.ofInt (2 ^ 6) (23 * 2 ^ 16)) X) :
    ∃ m, natExp 16 .unknown X = .ok m ∧ M.All (fun o => ∃ O, o = .ok O ∧ ∃ z : T (.arith (2 ^ 6) 1),
      Holds z O ∧ real 16 (z 0) ≤ 5) m := by
  obtain ⟨F, hF, hs⟩ := natExp_sim (n := 1) (e := 6) (by norm_num) (by norm_num) (frac := 16)
    (by rw [padeDegree_presets.1]; norm_num) (by norm_num) (by norm_num) .unknown
  refine ⟨F X, hF X, (hs (hX.alike 0)).left ?_⟩
  rintro o o' ⟨O, O', rfl, -, z, z', ⟨a, ha, hz⟩, -, ho⟩
  refine ⟨O, rfl, z, ho.1, ?_⟩
  have hreal : real 16 (BitVec.ofInt (2 ^ 6) (23 * 2 ^ 16)) = 23 := by
    unfold real
    rw [Bits.toInt_ofInt (by norm_num) (by norm_num) (by norm_num)]
    norm_num
  obtain ⟨c1, c2⟩ := log2e_word (w := 2 ^ 6) (frac := 16) (by norm_num)
  have hL1 : log2e ≤ 14427 / 10000 := by unfold log2e; norm_num
  have hL2 : 14426 / 10000 ≤ log2e := by unfold log2e; norm_num
  have hm := mul_real (by norm_num) (by
    rw [hreal, abs_mul, abs_of_pos (show (0 : ℚ) < 23 by norm_num), abs_of_pos (by norm_num at c2; linarith)]
    norm_num
    linarith) (ha 0)
  rw [hreal] at hm
  have hm' := abs_le.1 hm
  have a1 : 33 ≤ real 16 (a 0) := by norm_num at hm' c2; linarith [hm'.1]
  have a2 : real 16 (a 0) < 34 := by norm_num at hm' c2; linarith [hm'.2]
  have hfl : ⌊real 16 (a 0)⌋ = 33 := Int.floor_eq_iff.2 ⟨by exact_mod_cast a1, by norm_num; linarith⟩
  have hsp := hz.spec (by rw [padeDegree_presets.1]; norm_num) (by norm_num) (by norm_num) 0 (by
    norm_num
    linarith)
  have h := hsp.nonneg (by decide) (by linarith) 1 (by rw [hfl]; rfl)
  have hu : usedDegree 16 = 5 := by decide +kernel
  have hp := expPoly_range (D := usedDegree 16) (by rw [hu]; norm_num) (Int.fract_nonneg (real 16 (a 0)))
    (Int.fract_lt_one (real 16 (a 0))).le
  have herr : padeErr 16 ≤ 1 / 1000 := by
    unfold padeErr
    rw [hu]
    norm_num
  have h' := (abs_le.1 h).2
  have := hp.2
  norm_num at h' this
  linarith

/-- **C61** (secrecy): what any one server sees has the same distribution for all inputs. -/
theorem exp_secrecy {e : ℕ} (he : 0 < e) (he7 : e ≤ 7) {frac : ℕ} (hd : padeDegree frac ≠ 0)
    (hw : 2 * frac + 2 ≤ 2 ^ e) (hw32 : frac + 34 ≤ 2 ^ e) (sign : SignArg) (σ : Fin 3)
    (x x' : T (.arith (2 ^ e) n)) :
    (∃ F : Shares (T (.arith (2 ^ e) n)) → M (Except Err (Shares (T (.arith (2 ^ e) n)))),
      (∀ X, natExp frac sign X = .ok (F X)) ∧
        M.view σ (share x >>= F) = M.view σ (share x' >>= F)) ∧
    ∃ F : Shares (T (.arith (2 ^ e) n)) → M (Shares (T (.arith (2 ^ e) n))),
      (∀ X, expInf frac X = .ok (F X)) ∧
        M.view σ (share x >>= F) = M.view σ (share x' >>= F) := by
  obtain ⟨F, hF, hs⟩ := natExp_sim (n := n) he he7 hd (by omega) (by omega) sign
  obtain ⟨G, hG, hs'⟩ := expInf_sim (n := n) (w := 2 ^ e) (frac := frac) (by omega) (by omega)
  exact ⟨⟨F, hF, hides_of_sim fun _ _ h => hs h⟩, G, hG, hides_of_sim fun _ _ h => hs' h⟩

/-- Numbers in the range of `exp_default`: -1.5, 0 and 22. -/
example : ∀ i : Fin 3, -2 ^ 29 ≤ real 16 ((![BitVec.ofInt 64 (-98304), 0, 1441792] : Fin 3 → BitVec 64) i) ∧
    real 16 ((![BitVec.ofInt 64 (-98304), 0, 1441792] : Fin 3 → BitVec 64) i) ≤ 22 := by
  decide +kernel

end Verif.Aby3
