import Verif.I128.Float
import Verif.I128.Props

/-!
# C50: decoding 128-bit words to doubles
-/

namespace Verif.I128

theorem halfEven_int (z : ℤ) : halfEven z = z := by
  unfold halfEven
  rw [Int.floor_intCast, sub_self, if_pos (by norm_num)]

theorem halfEven_error (q : ℚ) : |halfEven q - q| ≤ 1 / 2 := by
  have h0 := Int.floor_le q
  have h1 := Int.lt_floor_add_one q
  unfold halfEven
  split_ifs with a b c
  · rw [abs_sub_comm, abs_of_nonneg (by linarith)]
    exact a.le
  · push_cast
    rw [abs_of_nonneg (by linarith)]
    linarith
  · rw [abs_sub_comm, abs_of_nonneg (by linarith)]
    linarith
  · push_cast
    rw [abs_of_nonneg (by linarith)]
    linarith

theorem roundDouble_zero : roundDouble 0 = 0 := by
  have : halfEven 0 = 0 := by simpa using halfEven_int 0
  unfold roundDouble
  rw [zero_div, this]
  simp

/-- A double is within one part in `2^53` of the number. -/
theorem roundDouble_error (q : ℚ) : |roundDouble q - q| ≤ |q| / 2 ^ 53 := by
  by_cases h0 : q = 0
  · rw [h0, roundDouble_zero]
    simp
  have hq : 0 < |q| := abs_pos.2 h0
  have hu : (0 : ℚ) < 2 ^ (Int.log 2 |q| - 52) := zpow_pos (by norm_num) _
  have hl := Int.zpow_log_le_self (b := 2) (by norm_num) hq
  have he := halfEven_error (q / 2 ^ (Int.log 2 |q| - 52))
  have hsplit : roundDouble q - q =
      (halfEven (q / 2 ^ (Int.log 2 |q| - 52)) - q / 2 ^ (Int.log 2 |q| - 52)) * 2 ^ (Int.log 2 |q| - 52) := by
    rw [sub_mul, div_mul_cancel₀ _ hu.ne']
    rfl
  rw [hsplit, abs_mul, abs_of_pos hu]
  have hpow : (2 : ℚ) ^ (Int.log 2 |q| - 52) = 2 ^ Int.log 2 |q| / 2 ^ 52 := by
    rw [zpow_sub₀ (by norm_num)]
    norm_cast
  have hl' : (2 : ℚ) ^ Int.log 2 |q| ≤ |q| := by exact_mod_cast hl
  calc _ ≤ 1 / 2 * (2 : ℚ) ^ (Int.log 2 |q| - 52) := mul_le_mul_of_nonneg_right he hu.le
    _ = 2 ^ Int.log 2 |q| / 2 ^ 53 := by
      rw [hpow]
      ring
    _ ≤ |q| / 2 ^ 53 := by
      apply div_le_div_of_nonneg_right hl' (by positivity)

/-- Numbers with 53 significant bits are doubles. -/
theorem roundDouble_exact (m e : ℤ) (hm : m.natAbs ≤ 2 ^ 53) : roundDouble (m * 2 ^ e) = m * 2 ^ e := by
  by_cases h0 : m = 0
  · rw [h0]
    simp [roundDouble_zero]
  have hm1 : (|m| : ℤ) ≤ 2 ^ 53 := by rw [Int.abs_eq_natAbs]; exact_mod_cast hm
  have he : (0 : ℚ) < 2 ^ e := zpow_pos (by norm_num) _
  set q : ℚ := m * 2 ^ e with hq
  have hqa : |q| = |(m : ℚ)| * 2 ^ e := by rw [hq, abs_mul, abs_of_pos he]
  have hq0 : 0 < |q| := by
    rw [hqa]
    have : (m : ℚ) ≠ 0 := by exact_mod_cast h0
    positivity
  have hl : (2 : ℚ) ^ Int.log 2 |q| ≤ |q| := by exact_mod_cast Int.zpow_log_le_self (b := 2) (by norm_num) hq0
  have hm2 : |(m : ℚ)| ≤ 2 ^ 53 := by exact_mod_cast hm1
  set L := Int.log 2 |q| with hL
  have hint : ∃ z : ℤ, q / 2 ^ (L - 52) = z := by
    by_cases hcase : L - 52 ≤ e
    · obtain ⟨d, hd⟩ := Int.eq_ofNat_of_zero_le (sub_nonneg.2 hcase)
      refine ⟨m * 2 ^ d, ?_⟩
      rw [div_eq_iff (zpow_pos (by norm_num) _).ne', hq]
      push_cast
      rw [mul_assoc, ← zpow_natCast, ← zpow_add₀ (by norm_num)]
      congr 2
      omega
    · have h53 : (2 : ℚ) ^ (53 + e) ≤ |q| := le_trans (zpow_le_zpow_right₀ (by norm_num) (by omega)) hl
      rw [zpow_add₀ (by norm_num), hqa] at h53
      have hge : (2 : ℚ) ^ 53 ≤ |(m : ℚ)| := by
        have := le_of_mul_le_mul_right h53 he
        exact_mod_cast this
      have hmeq : |(m : ℚ)| = 2 ^ 53 := le_antisymm hm2 hge
      have hlt : L - 52 ≤ e + 1 := by
        have : (2 : ℚ) ^ L ≤ 2 ^ (53 + e) := by
          rw [zpow_add₀ (by norm_num)]
          refine hl.trans ?_
          rw [hqa, hmeq]
          norm_cast
        have := (zpow_le_zpow_iff_right₀ (by norm_num : (1 : ℚ) < 2)).1 this
        omega
      have hLe : L - 52 = e + 1 := by omega
      have hmz : |m| = 2 ^ 53 := by exact_mod_cast hmeq
      have hdvd : (2 : ℤ) ∣ m := by
        rcases abs_eq (by norm_num : (0 : ℤ) ≤ 2 ^ 53) |>.1 hmz with h | h <;> rw [h] <;> norm_num
      obtain ⟨z, hz⟩ := hdvd
      refine ⟨z, ?_⟩
      rw [hLe, div_eq_iff (zpow_pos (by norm_num) _).ne', hq, hz, zpow_add₀ (by norm_num)]
      push_cast
      ring
  obtain ⟨z, hz⟩ := hint
  show (halfEven (q / 2 ^ (L - 52)) : ℚ) * 2 ^ (L - 52) = q
  rw [hz, halfEven_int, ← hz, div_mul_cancel₀ _ (zpow_pos (by norm_num) _).ne']

/-- **C50**: the decoded double is within one part in `2^53` of the quotient of the word and the scale, for every word and
scale. -/
theorem decode64_close (scale : ℕ) (p : Limbs) :
    |decode64 scale p - ((load p).toInt : ℚ) / scale| ≤ |((load p).toInt : ℚ) / scale| / 2 ^ 53 := by
  unfold decode64
  rw [decode_word]
  exact roundDouble_error _

/-- **C50**: decoding an encoded number is exact up to `2^53` units when the scale is a power of two. -/
theorem encode_decode64_partial (z : ℤ) (f : ℕ) (h : z.natAbs ≤ 2 ^ 53) :
    decode64 (2 ^ f) (encode z) = (z : ℚ) / 2 ^ f := by
  unfold decode64
  rw [decode_word, encode_word, Bits.toInt_ofInt (by norm_num) (by norm_num; omega) (by norm_num; omega)]
  have : (z : ℚ) / ((2 ^ f : ℕ) : ℚ) = z * 2 ^ (-(f : ℤ)) := by
    rw [zpow_neg, zpow_natCast]
    push_cast
    rfl
  rw [this, roundDouble_exact z _ h, zpow_neg, zpow_natCast]
  rfl

/-- Larger numbers are decoded to a neighbour: 2^53 + 1 cannot be told from 2^53. -/
theorem encode_decode64_false : decode64 1 (encode (2 ^ 53 + 1)) = 2 ^ 53 ∧ decode64 1 (encode (2 ^ 53)) = 2 ^ 53 := by
  constructor
  · unfold decode64
    rw [decode_word, encode_word, Bits.toInt_ofInt (by norm_num) (by norm_num) (by norm_num)]
    have hl : Int.log 2 |(((2 ^ 53 + 1 : ℤ) : ℚ) / ((1 : ℕ) : ℚ))| = 53 := by
      have : |(((2 ^ 53 + 1 : ℤ) : ℚ) / ((1 : ℕ) : ℚ))| = ((2 ^ 53 + 1 : ℕ) : ℚ) := by norm_num
      rw [this, Int.log_natCast]
      have : Nat.log 2 (2 ^ 53 + 1) = 53 := by
        rw [Nat.log_eq_iff (by norm_num)]
        norm_num
      rw [this]
      rfl
    unfold roundDouble
    rw [hl]
    have hf : ⌊(((2 ^ 53 + 1 : ℤ) : ℚ) / ((1 : ℕ) : ℚ)) / 2 ^ ((53 : ℤ) - 52)⌋ = 2 ^ 52 := by
      rw [Int.floor_eq_iff]
      norm_num
    unfold halfEven
    rw [hf]
    norm_num
  · have := encode_decode64_partial (2 ^ 53) 0 (by norm_num)
    rw [pow_zero] at this
    rw [this]
    norm_num

/-- Half of three units with sixteen bits after the point. -/
example : decode64 (2 ^ 17) (encode 3) = ((3 : ℤ) : ℚ) / 2 ^ 17 := encode_decode64_partial 3 17 (by norm_num)

end Verif.I128
