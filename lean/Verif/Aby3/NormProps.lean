import Verif.Aby3.NormLemmas
import Verif.Aby3.PolyProps
import Mathlib.Tactic.Linarith

/-!
# C46: normalisation finds the top set bit and scales into a fixed interval

For all tensors, sharings and draws; `rev` is the reversal kernel (`Bits.bit_reverse_64`,
`Bits.bit_reverse_128`), `frac` is `precision_fractional`, `m` is `precision_fractional +
precision_integral`. `real frac v` is the number that the word `v` stands for. The default
configurations are 64-bit words with `frac = 16`, `m = 27` and 128-bit words with `frac = 32`,
`m = 52`.
-/

namespace Verif.Aby3

open Verif

variable {w n : ℕ}

attribute [local irreducible] M.All M.Sim

/-! ## Words -/

theorem toInt_small {v : BitVec w} (h : v.toNat < 2 ^ (w - 1)) : v.toInt = v.toNat := by
  rcases Nat.eq_zero_or_pos w with rfl | hw
  · have : v = 0 := BitVec.eq_nil v
    subst this; rfl
  apply BitVec.toInt_eq_toNat_of_lt
  calc 2 * v.toNat < 2 * 2 ^ (w - 1) := by omega
    _ = 2 ^ w := by rw [← pow_succ']; congr 1; omega

/-- A heuristic truncation of a word that is a small natural number. -/
theorem trunc_nat {a P : ℕ} (hw : 2 ≤ w) {p z : BitVec w} (hp : p.toNat = P) (hP : P < 2 ^ (w - 2))
    (h : TruncOk .heuristic a p z) : z.toNat = P / 2 ^ a ∨ z.toNat = P / 2 ^ a + 1 := by
  have h1 : (2 : ℕ) ^ (w - 2) < 2 ^ (w - 1) := Nat.pow_lt_pow_right (by decide) (by omega)
  have h2 : (2 : ℕ) ^ (w - 1) < 2 ^ w := Nat.pow_lt_pow_right (by decide) (by omega)
  have hi : p.toInt = (P : ℤ) := by rw [toInt_small (by omega), hp]
  have hpos : (0 : ℤ) ≤ 2 ^ (w - 2) := by positivity
  have hq : P / 2 ^ a ≤ P := Nat.div_le_self _ _
  have hz := h (by rw [hi]; omega) (by rw [hi]; exact_mod_cast hP)
  rw [hi, show ((P : ℤ) / 2 ^ a) = ((P / 2 ^ a : ℕ) : ℤ) by push_cast; rfl] at hz
  rcases hz with rfl | rfl
  · left
    rw [Bits.ofInt_natCast, BitVec.toNat_ofNat, Nat.mod_eq_of_lt (by omega)]
  · right
    rw [show (((P / 2 ^ a : ℕ) : ℤ) + 1) = ((P / 2 ^ a + 1 : ℕ) : ℤ) by push_cast; rfl,
      Bits.ofInt_natCast, BitVec.toNat_ofNat, Nat.mod_eq_of_lt (by omega)]

theorem mul_twoPow_toNat {x : BitVec w} {p : ℕ} (hp : p < w) (h : x.toNat * 2 ^ p < 2 ^ w) :
    (x * BitVec.twoPow w p).toNat = x.toNat * 2 ^ p := by
  rw [BitVec.toNat_mul, BitVec.toNat_twoPow_of_lt hp, Nat.mod_eq_of_lt h]

/-- `real` of a small word. -/
theorem real_small {frac : ℕ} {v : BitVec w} (h : v.toNat < 2 ^ (w - 1)) :
    real frac v = (v.toNat : ℚ) / 2 ^ frac := by
  unfold real
  rw [toInt_small h]
  push_cast
  rfl

/-- A product of a word `x` with the power of two that lifts its top bit to position `t`, truncated
by `a` bits, lies between `2^(t-a)` and `2^(t+1-a)` and is within one unit of the exact value. -/
theorem scaled_bounds {a t j X Z : ℕ} (hj : 2 ^ j ≤ X) (hj' : X < 2 ^ (j + 1)) (hjt : j ≤ t)
    (hat : a ≤ t) (hz : Z = X * 2 ^ (t - j) / 2 ^ a ∨ Z = X * 2 ^ (t - j) / 2 ^ a + 1) :
    2 ^ (t - a) ≤ Z ∧ Z ≤ 2 ^ (t + 1 - a) ∧
      |(Z : ℚ) - (X : ℚ) * 2 ^ (t - j) / 2 ^ a| ≤ 1 := by
  have e1 : 2 ^ j * 2 ^ (t - j) = 2 ^ t := by rw [← pow_add]; congr 1; omega
  have e2 : 2 ^ (j + 1) * 2 ^ (t - j) = 2 ^ (t + 1) := by rw [← pow_add]; congr 1; omega
  have h1 : 2 ^ t ≤ X * 2 ^ (t - j) := by rw [← e1]; exact Nat.mul_le_mul_right _ hj
  have h2 : X * 2 ^ (t - j) < 2 ^ (t + 1) := by
    rw [← e2]; exact Nat.mul_lt_mul_of_pos_right hj' (by positivity)
  have f1 : 2 ^ (t - a) * 2 ^ a = 2 ^ t := by rw [← pow_add]; congr 1; omega
  have f2 : 2 ^ (t + 1 - a) * 2 ^ a = 2 ^ (t + 1) := by rw [← pow_add]; congr 1; omega
  have hpa : 0 < 2 ^ a := by positivity
  have g1 : 2 ^ (t - a) ≤ X * 2 ^ (t - j) / 2 ^ a := by
    rw [Nat.le_div_iff_mul_le hpa, f1]; exact h1
  have g2 : X * 2 ^ (t - j) / 2 ^ a < 2 ^ (t + 1 - a) := by
    rw [Nat.div_lt_iff_lt_mul hpa, f2]; exact h2
  refine ⟨by omega, by omega, ?_⟩
  generalize hY : X * 2 ^ (t - j) = Y at *
  have hYq : (X : ℚ) * 2 ^ (t - j) = (Y : ℚ) := by rw [← hY]; push_cast; rfl
  rw [hYq]
  have hd := Nat.div_add_mod Y (2 ^ a)
  have hr := Nat.mod_lt Y hpa
  have hpaq : (0 : ℚ) < 2 ^ a := by positivity
  have hq1 : ((Y / 2 ^ a : ℕ) : ℚ) ≤ (Y : ℚ) / 2 ^ a := by
    rw [le_div_iff₀ hpaq]
    have : (Y / 2 ^ a) * 2 ^ a ≤ Y := Nat.div_mul_le_self _ _
    exact_mod_cast this
  have hq2 : (Y : ℚ) / 2 ^ a ≤ ((Y / 2 ^ a : ℕ) : ℚ) + 1 := by
    rw [div_le_iff₀ hpaq]
    have : Y ≤ (Y / 2 ^ a + 1) * 2 ^ a := by
      rw [Nat.add_mul, one_mul, Nat.mul_comm]; omega
    exact_mod_cast this
  rw [abs_le]
  rcases hz with rfl | rfl
  · constructor <;> linarith
  · push_cast
    constructor <;> linarith

/-! ## Division -/

theorem norm_word {rev : BitVec w → BitVec w} (hrev : ∀ v, rev v = v.reverse) {frac m : ℕ}
    (h0 : 0 < m) (hm : m ≤ w) (hmf : m < 2 * frac) (hf : 2 * frac + 2 ≤ w)
    {x s : BitVec w} (hx : 0 < x.toNat ∧ x.toNat < 2 ^ (m - 1))
    (hs : TruncOk .heuristic frac (x * expV rev frac m x) s) :
    ∃ j, 2 ^ j ≤ x.toNat ∧ x.toNat < 2 ^ (j + 1) ∧
      expV rev frac m x = BitVec.twoPow w (2 * frac - 1 - j) ∧
      1 / 2 ≤ real frac s ∧ real frac s ≤ 1 ∧
      |real frac s - real frac x * real frac (expV rev frac m x)| ≤ 1 / 2 ^ frac := by
  obtain ⟨hpos, hlt⟩ := hx
  have hne : x ≠ 0 := fun hc => by rw [hc] at hpos; simp at hpos
  have e1 := expV_eq hrev h0 hm hmf (by omega) hlt hne
  set j := Nat.log 2 x.toNat with hjd
  have hj : 2 ^ j ≤ x.toNat := Nat.pow_log_le_self 2 (by omega)
  have hj' : x.toNat < 2 ^ (j + 1) := Nat.lt_pow_succ_log_self (by decide) _
  have hjm : j < m - 1 := Nat.log_lt_of_lt_pow (by omega) hlt
  have hP : x.toNat * 2 ^ (2 * frac - 1 - j) < 2 ^ (2 * frac) := by
    calc _ < 2 ^ (j + 1) * 2 ^ (2 * frac - 1 - j) := Nat.mul_lt_mul_of_pos_right hj' (by positivity)
      _ = 2 ^ (2 * frac) := by rw [← pow_add]; congr 1; omega
  have hle : (2 : ℕ) ^ (2 * frac) ≤ 2 ^ (w - 2) := Nat.pow_le_pow_right (by decide) (by omega)
  have hle2 : (2 : ℕ) ^ (w - 2) < 2 ^ w := Nat.pow_lt_pow_right (by decide) (by omega)
  have hprod := mul_twoPow_toNat (x := x) (p := 2 * frac - 1 - j) (by omega) (by omega)
  rw [e1] at hs
  have hzn := trunc_nat (by omega) hprod (by omega) hs
  obtain ⟨b1, b2, b3⟩ := scaled_bounds (a := frac) (t := 2 * frac - 1) hj hj' (by omega) (by omega) hzn
  have hfp : (2 : ℕ) ^ frac < 2 ^ (w - 1) := Nat.pow_lt_pow_right (by decide) (by omega)
  have hb2 : s.toNat ≤ 2 ^ frac := by
    rw [show 2 * frac - 1 + 1 - frac = frac by omega] at b2; exact b2
  have hb1 : 2 ^ (frac - 1) ≤ s.toNat := by
    rw [show 2 * frac - 1 - frac = frac - 1 by omega] at b1; exact b1
  have hen : (expV rev frac m x).toNat = 2 ^ (2 * frac - 1 - j) := by
    rw [e1, BitVec.toNat_twoPow_of_lt (by omega)]
  have hfpos : (0 : ℚ) < 2 ^ frac := by positivity
  have e2 : (2 : ℚ) ^ frac = 2 * 2 ^ (frac - 1) := by rw [← pow_succ']; congr 1; omega
  have hw1 : (2 : ℕ) ^ (m - 1) ≤ 2 ^ (w - 1) := Nat.pow_le_pow_right (by decide) (by omega)
  have hw2 : (2 : ℕ) ^ (2 * frac - 1 - j) < 2 ^ (w - 1) := Nat.pow_lt_pow_right (by decide) (by omega)
  refine ⟨j, hj, hj', e1, ?_, ?_, ?_⟩
  · rw [real_small (by omega), le_div_iff₀ hfpos, e2]
    have : (2 : ℚ) ^ (frac - 1) ≤ s.toNat := by exact_mod_cast hb1
    linarith
  · rw [real_small (by omega), div_le_one hfpos]
    exact_mod_cast hb2
  · rw [real_small (by omega), real_small (by omega), real_small (by rw [hen]; omega), hen]
    have : (s.toNat : ℚ) / 2 ^ frac - x.toNat / 2 ^ frac * (((2 ^ (2 * frac - 1 - j) : ℕ) : ℚ) / 2 ^ frac)
        = (s.toNat - x.toNat * 2 ^ (2 * frac - 1 - j) / 2 ^ frac) / 2 ^ frac := by
      push_cast
      field_simp
    rw [this, abs_div, abs_of_pos hfpos]
    exact div_le_div_of_nonneg_right b3 hfpos.le

/-- **C46** (division, `nonsigned`): for every value `0 < x < 2^(m-1)` with top set bit `j`, the scale
is exactly `2^(2·frac-1-j)` and the significand lies in `[1/2, 1]`, within one unit in the last place
of the exact product. -/
theorem normalize_pos {rev : BitVec w → BitVec w} (hrev : ∀ v, rev v = v.reverse) {frac m : ℕ}
    (h0 : 0 < m) (h63 : m ≤ 63) (hm : m ≤ w) (hmf : m < 2 * frac) (hf : 2 * frac + 2 ≤ w)
    {x : T (.arith w n)} {X : Shares (T (.arith w n))} (hX : Holds x X)
    (hx : ∀ i, 0 < (x i).toNat ∧ (x i).toNat < 2 ^ (m - 1)) :
    ∃ p, normalizePos rev frac m X = .ok p ∧ M.All (fun o => ∃ s e : T (.arith w n),
      Holds s o.1 ∧ Holds e o.2 ∧ ∀ i, ∃ j, 2 ^ j ≤ (x i).toNat ∧ (x i).toNat < 2 ^ (j + 1) ∧
        (e i).toNat = 2 ^ (2 * frac - 1 - j) ∧
        1 / 2 ≤ real frac (s i) ∧ real frac (s i) ≤ 1 ∧
        |real frac (s i) - real frac (x i) * real frac (e i)| ≤ 1 / 2 ^ frac) p := by
  obtain ⟨p, p', h1, -, hs⟩ := normalizePos_sim (σ := 0) hrev h0 h63 hm hmf hf (hX.alike 0)
  refine ⟨p, h1, hs.left ?_⟩
  rintro o o' ⟨he, z, z', hz, -, -, ho⟩
  refine ⟨z, _, ho.1, he.1, fun i => ?_⟩
  obtain ⟨j, a1, a2, a3, a4⟩ := norm_word hrev h0 hm hmf hf (hx i) (hz i)
  refine ⟨j, a1, a2, ?_, a4⟩
  show (expV rev frac m (x i)).toNat = _
  rw [a3, BitVec.toNat_twoPow_of_lt (by omega)]

/-- The hypotheses are met by both default configurations. -/
example : (∀ v, Bits.reverse64 v = v.reverse) ∧ 27 ≤ 63 ∧ 27 ≤ 64 ∧ 27 < 2 * 16 ∧ 2 * 16 + 2 ≤ 64 :=
  ⟨Bits.bit_reverse_64, by decide⟩
example : (∀ v, Bits.reverse128 v = v.reverse) ∧ 52 ≤ 63 ∧ 52 ≤ 128 ∧ 52 < 2 * 32 ∧ 2 * 32 + 2 ≤ 128 :=
  ⟨Bits.bit_reverse_128, by decide⟩

/-- For zero the scale is zero. -/
theorem normalize_pos_zero {rev : BitVec w → BitVec w} (hrev : ∀ v, rev v = v.reverse) {frac m : ℕ}
    (h63 : m ≤ 63) (hm : m ≤ w) (hmf : m < 2 * frac) (hf : 2 * frac + 2 ≤ w) (h0 : 0 < m)
    {X : Shares (T (.arith w n))} (hX : Holds (0 : T (.arith w n)) X) :
    ∃ p, normalizePos rev frac m X = .ok p ∧
      M.All (fun o => Holds (0 : T (.arith w n)) o.2) p := by
  obtain ⟨p, p', h1, -, hs⟩ := normalizePos_sim (σ := 0) hrev h0 h63 hm hmf hf (hX.alike 0)
  refine ⟨p, h1, hs.left ?_⟩
  rintro o o' ⟨he, -⟩
  have : alift (expV rev frac m) (0 : T (.arith w n)) = (0 : T (.arith w n)) := by
    funext i
    show expV rev frac m 0 = 0
    unfold expV
    rw [cutV_small h0 hm (by simp), topV_zero hm, hrev]
    apply BitVec.eq_of_getLsbD_eq
    intro k hk
    rw [lowBits_bit' _ _ _ hk, Bits.sshiftRight_bit _ _ _ hk]
    simp [BitVec.getLsbD_reverse, BitVec.getMsbD_eq_getLsbD]
  rw [this] at he
  exact he.1

/-- A precision that is too small is refused. -/
theorem normalize_refused {rev : BitVec w → BitVec w} {frac m : ℕ} (h : 2 * frac ≤ m)
    (X : Shares (T (.arith w n))) : normalizePos rev frac m X = .error .assertion ∧
      normalize rev frac m X = .error .assertion ∧ logReduce rev frac m X = .error .assertion := by
  have : ¬ m < 2 * frac := by omega
  unfold normalizePos normalize logReduce
  simp [this]

/-- The sign of an integer as `__fp_normalize` takes it. -/
def sgn (b : ℤ) : ℤ := if b < 0 then -1 else 1

theorem bit_sign {m : ℕ} (hm : m < w) {b : BitVec w} (hb : b.toInt.natAbs < 2 ^ m) :
    b.getLsbD m = decide (b.toInt < 0) := by
  by_cases h : b.toInt < 0
  · have hn : (~~~b).toNat < 2 ^ m := by
      have e := BitVec.toInt_eq_toNat_cond b
      rw [BitVec.toNat_not]
      have hl := b.isLt
      split at e
      · omega
      · have e2 : ((2 ^ w : ℕ) : ℤ) = 2 ^ w := by push_cast; rfl
        omega
    have := small_bit hn le_rfl
    rw [BitVec.getLsbD_not] at this
    simp only [hm, decide_true, Bool.true_and, Bool.not_eq_false'] at this
    rw [this]; simp [h]
  · have hn : b.toNat < 2 ^ m := by
      have e := BitVec.toInt_eq_toNat_cond b
      have hl := b.isLt
      split at e
      · omega
      · exfalso
        have e2 : ((2 ^ w : ℕ) : ℤ) = 2 ^ w := by push_cast; rfl
        omega
    rw [small_bit hn le_rfl]; simp [h]

theorem signV_eq {frac m : ℕ} (hm : m < w) {b : BitVec w} (hb : b.toInt.natAbs < 2 ^ m) :
    signV frac m b = BitVec.ofInt w (sgn b.toInt * 2 ^ frac) := by
  unfold signV sgn
  rw [bit_sign hm hb, ← Bits.ofInt_natCast, ← Bits.ofInt_natCast]
  by_cases h : b.toInt < 0
  · simp only [h, decide_true, if_true]
    rw [← Bits.ofInt_sub]
    congr 1
    push_cast
    ring
  · simp only [h, decide_false, if_false, Bool.false_eq_true]
    rw [show (0 : BitVec w) = BitVec.ofInt w 0 by simp, ← Bits.ofInt_sub]
    congr 1
    push_cast
    ring

/-- One word of a normalisation with a sign: `z` is the rounded absolute value of `b`, `s` the
significand, `e` the scale. -/
theorem norm_signed_word {rev : BitVec w → BitVec w} (hrev : ∀ v, rev v = v.reverse) {frac m : ℕ}
    (h0 : 0 < m) (hm : m < w) (hmf : m < 2 * frac) (hf : 3 * frac + 2 ≤ w) (hmw : m + frac + 1 ≤ w)
    {b z s e : BitVec w} (hne : b.toInt ≠ 0) (hbd : b.toInt.natAbs + 2 ≤ 2 ^ (m - 1))
    (hz : TruncOk .heuristic frac (signV frac m b * b) z)
    (hs1 : TruncOk .heuristic frac (z * expV rev frac m z) s)
    (he1 : TruncOk .heuristic frac (signV frac m b * expV rev frac m z) e) : ∃ x j : ℕ,
      (x = b.toInt.natAbs ∨ x = b.toInt.natAbs + 1) ∧ 2 ^ j ≤ x ∧ x < 2 ^ (j + 1) ∧
      1 / 2 ≤ real frac s ∧ real frac s ≤ 1 ∧
      |real frac s - (x : ℚ) / 2 ^ frac * (2 ^ (2 * frac - 1 - j) / 2 ^ frac)| ≤ 1 / 2 ^ frac ∧
      |real frac e - sgn b.toInt * (2 ^ (2 * frac - 1 - j) / 2 ^ frac)| ≤ 1 / 2 ^ frac := by
  have hpm : (2 : ℕ) ^ (m - 1) < 2 ^ m := Nat.pow_lt_pow_right (by decide) (by omega)
  have hsg := signV_eq (frac := frac) hm (b := b) (by omega)
  have hfpos : (0 : ℚ) < 2 ^ frac := by positivity
  -- the absolute value
  have hprod : (signV frac m b * b).toNat = b.toInt.natAbs * 2 ^ frac := by
    have : signV frac m b * b = BitVec.ofNat w (b.toInt.natAbs * 2 ^ frac) := by
      have hbi : b = BitVec.ofInt w b.toInt := BitVec.ofInt_toInt.symm
      rw [hsg]
      conv_lhs => arg 2; rw [hbi]
      rw [← Bits.ofInt_mul, ← Bits.ofInt_natCast]
      congr 1
      unfold sgn
      push_cast
      split
      · rw [abs_of_neg (by assumption)]; ring
      · rw [abs_of_nonneg (by omega)]; ring
    rw [this, BitVec.toNat_ofNat, Nat.mod_eq_of_lt]
    calc _ < 2 ^ (m - 1) * 2 ^ frac := Nat.mul_lt_mul_of_pos_right (by omega) (by positivity)
      _ = 2 ^ (m - 1 + frac) := by rw [pow_add]
      _ ≤ 2 ^ w := Nat.pow_le_pow_right (by decide) (by omega)
  have hlt : b.toInt.natAbs * 2 ^ frac < 2 ^ (w - 2) := by
    calc _ < 2 ^ (m - 1) * 2 ^ frac := Nat.mul_lt_mul_of_pos_right (by omega) (by positivity)
      _ = 2 ^ (m - 1 + frac) := by rw [pow_add]
      _ ≤ 2 ^ (w - 2) := Nat.pow_le_pow_right (by decide) (by omega)
  have hzn := trunc_nat (by omega) hprod hlt (hz)
  rw [Nat.mul_div_cancel _ (by positivity)] at hzn
  have hna : 0 < b.toInt.natAbs := Int.natAbs_pos.2 hne
  obtain ⟨j, a1, a2, a3, a4, a5, a6⟩ := norm_word hrev h0 hm.le hmf (by omega)
    (x := z) ⟨by omega, by omega⟩ hs1
  have hj2 : 2 * frac - 1 - j < w := by omega
  have hw1 : (2 : ℕ) ^ (m - 1) ≤ 2 ^ (w - 1) := Nat.pow_le_pow_right (by decide) (by omega)
  have hw2 : (2 : ℕ) ^ (2 * frac - 1 - j) < 2 ^ (w - 1) := Nat.pow_lt_pow_right (by decide) (by omega)
  refine ⟨z.toNat, j, hzn, a1, a2, a4, a5, ?_, ?_⟩
  · rw [a3, real_small (v := z) (by omega),
      real_small (v := BitVec.twoPow w _) (by rw [BitVec.toNat_twoPow_of_lt hj2]; omega),
      BitVec.toNat_twoPow_of_lt hj2] at a6
    push_cast at a6
    exact a6
  · have he := he1
    rw [a3] at he
    set q := 2 * frac - 1 - j with hq
    have hpr : signV frac m b * BitVec.twoPow w q = BitVec.ofInt w (sgn b.toInt * 2 ^ (frac + q)) := by
      have : BitVec.twoPow w q = BitVec.ofInt w (2 ^ q) := by
        apply BitVec.eq_of_toNat_eq
        rw [BitVec.toNat_twoPow, show ((2 : ℤ) ^ q) = ((2 ^ q : ℕ) : ℤ) by push_cast; rfl,
          Bits.ofInt_natCast, BitVec.toNat_ofNat]
      rw [hsg, this, ← Bits.ofInt_mul]
      congr 1
      rw [pow_add]; ring
    have hpow : (2 : ℤ) ^ (frac + q) < 2 ^ (w - 2) := by
      exact_mod_cast Nat.pow_lt_pow_right (by decide : 1 < 2) (by omega : frac + q < w - 2)
    have hpos2 : (0 : ℤ) < 2 ^ (frac + q) := by positivity
    have hww : (2 : ℤ) ^ (w - 2) < 2 ^ (w - 1) := by
      exact_mod_cast Nat.pow_lt_pow_right (by decide : 1 < 2) (by omega : w - 2 < w - 1)
    have hs1' : sgn b.toInt = 1 ∨ sgn b.toInt = -1 := by unfold sgn; split <;> simp
    have hti : (signV frac m b * BitVec.twoPow w q).toInt = sgn b.toInt * 2 ^ (frac + q) := by
      rw [hpr, Bits.toInt_ofInt (by omega)]
      · rcases hs1' with h | h <;> rw [h] <;> omega
      · rcases hs1' with h | h <;> rw [h] <;> omega
    have hdiv : sgn b.toInt * 2 ^ (frac + q) / 2 ^ frac = sgn b.toInt * 2 ^ q := by
      rw [pow_add, show sgn b.toInt * (2 ^ frac * 2 ^ q) = (sgn b.toInt * 2 ^ q) * 2 ^ frac by ring,
        Int.mul_ediv_cancel _ (by positivity)]
    have he := he (by rw [hti]; rcases hs1' with h | h <;> rw [h] <;> omega)
      (by rw [hti]; rcases hs1' with h | h <;> rw [h] <;> omega)
    rw [hti, hdiv] at he
    have hqw : (2 : ℤ) ^ q < 2 ^ (w - 2) := by
      exact_mod_cast Nat.pow_lt_pow_right (by decide : 1 < 2) (by omega : q < w - 2)
    have hqp : (0 : ℤ) < 2 ^ q := by positivity
    have hei : e.toInt = sgn b.toInt * 2 ^ q ∨ e.toInt = sgn b.toInt * 2 ^ q + 1 := by
      rcases he with h | h
      · left; rw [h, Bits.toInt_ofInt (by omega)] <;> rcases hs1' with h | h <;> rw [h] <;> omega
      · right; rw [h, Bits.toInt_ofInt (by omega)] <;> rcases hs1' with h | h <;> rw [h] <;> omega
    unfold real
    have hfin : |(e.toInt : ℚ) - sgn b.toInt * 2 ^ q| ≤ 1 := by
      rcases hei with h | h
      · rw [h]; push_cast; simp
      · rw [h]; push_cast; simp
    have : (e.toInt : ℚ) / 2 ^ frac - sgn b.toInt * (2 ^ q / 2 ^ frac) =
        ((e.toInt : ℚ) - sgn b.toInt * 2 ^ q) / 2 ^ frac := by
      field_simp
    rw [this, abs_div, abs_of_pos hfpos]
    exact div_le_div_of_nonneg_right hfin hfpos.le

/-- **C46** (division with a sign): for every `b ≠ 0` with `|b| ≤ 2^(m-1) - 2` the protocol normalises
`x`, which is `|b|` or `|b| + 1` (the product with the scaled sign is truncated): with `j` the top set
bit of `x`, the significand lies in `[1/2, 1]` and is within one unit of `x · 2^(frac-1-j)`, and the
scale is within one unit of `±2^(frac-1-j)`, with the sign of `b`. -/
theorem normalize_signed {rev : BitVec w → BitVec w} (hrev : ∀ v, rev v = v.reverse) {frac m : ℕ}
    (h0 : 0 < m) (h63 : m ≤ 63) (hm : m < w) (hcl : 2 ^ Nat.clog 2 m ≤ w) (hmf : m < 2 * frac)
    (hf : 3 * frac + 2 ≤ w) (hmw : m + frac + 1 ≤ w)
    {b : T (.arith w n)} {B : Shares (T (.arith w n))} (hB : Holds b B)
    (hb : ∀ i, (b i).toInt ≠ 0 ∧ (b i).toInt.natAbs + 2 ≤ 2 ^ (m - 1)) :
    ∃ p, normalize rev frac m B = .ok p ∧ M.All (fun o => ∃ r, o = .ok r ∧ ∃ s e : T (.arith w n),
      Holds s r.1 ∧ Holds e r.2 ∧ ∀ i, ∃ x j : ℕ,
        (x = (b i).toInt.natAbs ∨ x = (b i).toInt.natAbs + 1) ∧ 2 ^ j ≤ x ∧ x < 2 ^ (j + 1) ∧
        1 / 2 ≤ real frac (s i) ∧ real frac (s i) ≤ 1 ∧
        |real frac (s i) - (x : ℚ) / 2 ^ frac * (2 ^ (2 * frac - 1 - j) / 2 ^ frac)| ≤ 1 / 2 ^ frac ∧
        |real frac (e i) - sgn (b i).toInt * (2 ^ (2 * frac - 1 - j) / 2 ^ frac)| ≤ 1 / 2 ^ frac) p := by
  obtain ⟨p, p', h1, -, hs⟩ := normalize_sim (σ := 0) hrev h0 h63 hm hcl hmf (by omega) (hB.alike 0)
  refine ⟨p, h1, hs.left ?_⟩
  rintro o o' ⟨r, r', rfl, -, z, z', hz, -, -, ⟨s, s', hs1, -, -, hs2⟩, ⟨e, e', he1, -, -, he2⟩⟩
  refine ⟨r, rfl, s, e, hs2.1, he2.1, fun i => ?_⟩
  exact norm_signed_word hrev h0 hm hmf hf hmw (hb i).1 (hb i).2 (hz i) (hs1 i) (he1 i)

example : 2 ^ Nat.clog 2 27 ≤ 64 ∧ 27 < 2 * 16 ∧ 3 * 16 + 2 ≤ 64 ∧ 27 + 16 + 1 ≤ 64 := by decide
example : 2 ^ Nat.clog 2 52 ≤ 128 ∧ 52 < 2 * 32 ∧ 3 * 32 + 2 ≤ 128 ∧ 52 + 32 + 1 ≤ 128 := by decide

/-! ## Logarithm -/

/-- The word that lifts the top bit of `x` to position `t`, truncated by `a` bits. -/
theorem scale_word {frac a t j : ℕ} (hjt : j ≤ t) (hat : a ≤ t) (htw : t + 3 ≤ w) {x s : BitVec w}
    (hj : 2 ^ j ≤ x.toNat) (hj' : x.toNat < 2 ^ (j + 1))
    (hs : TruncOk .heuristic a (x * BitVec.twoPow w (t - j)) s) :
    (2 : ℚ) ^ (t - a) / 2 ^ frac ≤ real frac s ∧ real frac s ≤ 2 ^ (t + 1 - a) / 2 ^ frac ∧
      |real frac s - x.toNat * 2 ^ (t - j) / 2 ^ a / 2 ^ frac| ≤ 1 / 2 ^ frac := by
  have hP : x.toNat * 2 ^ (t - j) < 2 ^ (t + 1) := by
    calc _ < 2 ^ (j + 1) * 2 ^ (t - j) := Nat.mul_lt_mul_of_pos_right hj' (by positivity)
      _ = 2 ^ (t + 1) := by rw [← pow_add]; congr 1; omega
  have hle : (2 : ℕ) ^ (t + 1) ≤ 2 ^ (w - 2) := Nat.pow_le_pow_right (by decide) (by omega)
  have hle2 : (2 : ℕ) ^ (w - 2) < 2 ^ (w - 1) := Nat.pow_lt_pow_right (by decide) (by omega)
  have hle3 : (2 : ℕ) ^ (w - 1) < 2 ^ w := Nat.pow_lt_pow_right (by decide) (by omega)
  have hprod := mul_twoPow_toNat (x := x) (p := t - j) (by omega) (by omega)
  have hzn := trunc_nat (by omega) hprod (by omega) hs
  obtain ⟨b1, b2, b3⟩ := scaled_bounds hj hj' hjt hat hzn
  have hta : (2 : ℕ) ^ (t + 1 - a) ≤ 2 ^ (t + 1) := Nat.pow_le_pow_right (by decide) (by omega)
  have hfpos : (0 : ℚ) < 2 ^ frac := by positivity
  rw [real_small (by omega)]
  refine ⟨div_le_div_of_nonneg_right (by exact_mod_cast b1) hfpos.le,
    div_le_div_of_nonneg_right (by exact_mod_cast b2) hfpos.le, ?_⟩
  rw [← sub_div, abs_div, abs_of_pos hfpos]
  exact div_le_div_of_nonneg_right b3 hfpos.le

/-- **C46** (logarithm): for every word `2 ≤ x < 2^(m-1)` with top set bit `j`, the reduced value lies
in `[1, 2]`, within one unit in the last place of `x / 2^j`, and the integer part of the logarithm is
exactly `j - frac`. -/
theorem log_reduce {rev : BitVec w → BitVec w} (hrev : ∀ v, rev v = v.reverse) {frac m : ℕ}
    (h0 : 0 < m) (h63 : m ≤ 63) (hm : m ≤ w) (hmf : m < 2 * frac) (hf : 2 * frac + 3 ≤ w)
    (hw : w = 64 ∨ w = 128)
    {x : T (.arith w n)} {X : Shares (T (.arith w n))} (hX : Holds x X)
    (hx : ∀ i, 2 ≤ (x i).toNat ∧ (x i).toNat < 2 ^ (m - 1)) :
    ∃ p, logReduce rev frac m X = .ok p ∧ M.All (fun o => ∃ s l : T (.arith w n),
      Holds s o.1 ∧ Holds l o.2 ∧ ∀ i, ∃ j : ℕ, 2 ^ j ≤ (x i).toNat ∧ (x i).toNat < 2 ^ (j + 1) ∧
        1 ≤ real frac (s i) ∧ real frac (s i) ≤ 2 ∧
        |real frac (s i) - (x i).toNat / 2 ^ j| ≤ 1 / 2 ^ frac ∧
        real frac (l i) = (j : ℚ) - frac) p := by
  have hl : (Nat.log 2 w + 1) * 2 ≤ w := by
    rcases hw with rfl | rfl
    · have : Nat.log 2 64 = 6 := Nat.log_pow (by decide) 6
      omega
    · have : Nat.log 2 128 = 7 := Nat.log_pow (by decide) 7
      omega
  obtain ⟨p, p', h1, -, hs⟩ := logReduce_sim (σ := 0) hrev h0 h63 hm hmf (by omega) hl (hX.alike 0)
  refine ⟨p, h1, hs.left ?_⟩
  rintro o o' ⟨⟨z, z', hz, -, -, ho⟩, he⟩
  refine ⟨z, _, ho.1, he.1, fun i => ?_⟩
  obtain ⟨hpos, hlt⟩ := hx i
  have hne : x i ≠ 0 := fun hc => by rw [hc] at hpos; simp at hpos
  have hz := hz i
  simp only at hz
  rw [logExpV_eq hrev h0 hm hmf (by omega) hlt hne, if_neg (by omega)] at hz
  have hpv := posV_eq hw h0 hm hlt hne
  set j := Nat.log 2 (x i).toNat with hjd
  have hj : 2 ^ j ≤ (x i).toNat := Nat.pow_log_le_self 2 (by omega)
  have hj' : (x i).toNat < 2 ^ (j + 1) := Nat.lt_pow_succ_log_self (by decide) _
  have hjm : j < m - 1 := Nat.log_lt_of_lt_pow (by omega) hlt
  obtain ⟨b1, b2, b3⟩ := scale_word (frac := frac) (by omega) (by omega : frac ≤ 2 * frac) (by omega) hj hj' hz
  have hfpos : (0 : ℚ) < 2 ^ frac := by positivity
  refine ⟨j, hj, hj', ?_, ?_, ?_, ?_⟩
  · rw [show 2 * frac - frac = frac by omega, div_self hfpos.ne'] at b1; exact b1
  · rw [show 2 * frac + 1 - frac = frac + 1 by omega, pow_succ, mul_comm, mul_div_assoc, div_self hfpos.ne',
      mul_one] at b2
    exact b2
  · have e : ((x i).toNat : ℚ) * 2 ^ (2 * frac - j) / 2 ^ frac / 2 ^ frac = (x i).toNat / 2 ^ j := by
      have : (2 : ℚ) ^ frac * 2 ^ frac = 2 ^ (2 * frac - j) * 2 ^ j := by
        rw [← pow_add, ← pow_add]; congr 1; omega
      rw [div_div, this, mul_div_mul_comm, mul_comm]
      field_simp
    rw [e] at b3; exact b3
  · rw [hpv]
    have e : BitVec.ofNat w j <<< frac - BitVec.ofNat w (frac * 2 ^ frac) =
        BitVec.ofInt w (((j : ℤ) - frac) * 2 ^ frac) := by
      rw [BitVec.shiftLeft_eq_mul_twoPow, show BitVec.twoPow w frac = BitVec.ofNat w (2 ^ frac) from by
        apply BitVec.eq_of_toNat_eq; rw [BitVec.toNat_twoPow, BitVec.toNat_ofNat],
        ← Bits.ofInt_natCast, ← Bits.ofInt_natCast, ← Bits.ofInt_natCast, ← Bits.ofInt_mul, ← Bits.ofInt_sub]
      congr 1
      push_cast
      ring
    have hb : ((2 : ℤ) ^ 7 * 2 ^ frac) ≤ 2 ^ (w - 1) := by
      rw [← pow_add]
      exact_mod_cast Nat.pow_le_pow_right (by decide : 0 < 2) (by omega : 7 + frac ≤ w - 1)
    have hp : (0 : ℤ) < 2 ^ frac := by positivity
    unfold real
    rw [e, Bits.toInt_ofInt (by omega)]
    · push_cast
      field_simp
    · have : (-(2 : ℤ) ^ 7) * 2 ^ frac ≤ ((j : ℤ) - frac) * 2 ^ frac :=
        mul_le_mul_of_nonneg_right (by norm_num; omega) hp.le
      linarith
    · have : ((j : ℤ) - frac) * 2 ^ frac < 2 ^ 7 * 2 ^ frac :=
        mul_lt_mul_of_pos_right (by norm_num; omega) hp
      linarith

example : 27 < 2 * 16 ∧ 2 * 16 + 3 ≤ 64 ∧ 52 < 2 * 32 ∧ 2 * 32 + 3 ≤ 128 := by decide

/-- The smallest positive value is not normalised for the logarithm: its scale would be bit `2·frac`,
which is one beyond the bits that are converted, so the "reduced value" is at most `2^-frac` instead
of being in `[1, 2]`. -/
theorem log_smallest_false {rev : BitVec w → BitVec w} (hrev : ∀ v, rev v = v.reverse) {frac m : ℕ}
    (h2 : 2 ≤ m) (h63 : m ≤ 63) (hm : m ≤ w) (hmf : m < 2 * frac) (hf : 2 * frac + 3 ≤ w)
    (hl : (Nat.log 2 w + 1) * 2 ≤ w)
    {X : Shares (T (.arith w n))} (hX : Holds (fun _ => 1 : T (.arith w n)) X) :
    ∃ p, logReduce rev frac m X = .ok p ∧ M.All (fun o => ∃ s : T (.arith w n),
      Holds s o.1 ∧ ∀ i, 0 ≤ real frac (s i) ∧ real frac (s i) ≤ 1 / 2 ^ frac) p := by
  obtain ⟨p, p', h1, -, hs⟩ :=
    logReduce_sim (σ := 0) hrev (by omega) h63 hm hmf (by omega) hl (hX.alike 0)
  refine ⟨p, h1, hs.left ?_⟩
  rintro o o' ⟨⟨z, z', hz, -, -, ho⟩, -⟩
  refine ⟨z, ho.1, fun i => ?_⟩
  have hone : (1 : BitVec w).toNat = 1 := by
    show 1 % 2 ^ w = 1
    exact Nat.mod_eq_of_lt (Nat.one_lt_two_pow (by omega))
  have hz := hz i
  simp only at hz
  rw [logExpV_eq hrev (by omega) hm hmf (by omega) (by rw [hone]; exact Nat.one_lt_two_pow (by omega))
    (fun hc => by rw [hc] at hone; simp at hone), if_pos hone] at hz
  have h0 : ((1 : BitVec w) * 0).toNat = 0 := by simp
  have hzn := trunc_nat (by omega) h0 (by positivity) hz
  rw [Nat.zero_div] at hzn
  have hpw : 1 < 2 ^ (w - 1) := Nat.one_lt_two_pow (by omega)
  rw [real_small (by omega)]
  rcases hzn with h | h <;> rw [h] <;> constructor <;> simp

/-! ## Square root -/

/-- One word of the range reduction for square roots. -/
theorem sqrt_word {rev : BitVec w → BitVec w} (hrev : ∀ v, rev v = v.reverse) {frac : ℕ}
    (hw : w = 64 ∨ w = 128) (hf : w / 2 ≤ 2 * frac) (hf2 : frac + 2 ≤ w / 2) {x z : BitVec w}
    (hx : 0 < x.toNat ∧ x.toNat < 2 ^ (w - 2 - (w / 2 - frac)))
    (hz : TruncOk .heuristic (frac + (w / 2 - frac)) (rev (sqrtZ (w / 2 - frac) x) * x) z) : ∃ j,
      2 ^ j ≤ x.toNat ∧ x.toNat < 2 ^ (j + 1) ∧
      1 / 4 ≤ real frac z ∧ real frac z ≤ 1 / 2 ∧
      |real frac z - x.toNat / 2 ^ (j + 2)| ≤ 1 / 2 ^ frac ∧
      (Bits.xorIndices (sqrtZ (w / 2 - frac) x)).getLsbD 0 = decide ((j + (w / 2 - frac) + 1) % 2 = 1) ∧
      (lowBits (frac + (w / 2 - frac)) (Bits.gather 0 2 (rev (sqrtZ (w / 2 - frac) x) |||
          (rev (sqrtZ (w / 2 - frac) x)).sshiftRight 1))).toNat ^ 2 *
        (if (j + (w / 2 - frac) + 1) % 2 = 1 then 2 ^ (frac - (w / 2 - frac))
          else 2 ^ (frac - (w / 2 - frac) + 1)) = 2 ^ (3 * frac - 2 - j) := by
  obtain ⟨hpos, hlt⟩ := hx
  set s := w / 2 - frac with hsd
  have hne : x ≠ 0 := fun hc => by rw [hc] at hpos; simp at hpos
  have hZ := sqrtZ_eq (s := s) (by omega) hlt hne
  rw [hZ, hrev] at hz
  set j := Nat.log 2 x.toNat with hjd
  have hj : 2 ^ j ≤ x.toNat := Nat.pow_log_le_self 2 (by omega)
  have hj' : x.toNat < 2 ^ (j + 1) := Nat.lt_pow_succ_log_self (by decide) _
  have hjm : j < w - 2 - s := Nat.log_lt_of_lt_pow (by omega) hlt
  have hr : (BitVec.twoPow w (j + s + 1)).reverse = BitVec.twoPow w (w - 2 - s - j) := by
    rw [reverse_twoPow (by omega)]; congr 1; omega
  rw [hr, mul_comm] at hz
  obtain ⟨b1, b2, b3⟩ := scale_word (frac := frac) (by omega) (by omega : frac + s ≤ w - 2 - s) (by omega)
    hj hj' hz
  have hfpos : (0 : ℚ) < 2 ^ frac := by positivity
  have e4 : (2 : ℚ) ^ frac = 4 * 2 ^ (frac - 2) := by
    rw [show (4 : ℚ) = 2 ^ 2 by norm_num, ← pow_add]; congr 1; omega
  refine ⟨j, hj, hj', ?_, ?_, ?_, ?_, ?_⟩
  · refine le_trans (le_of_eq ?_) b1
    rw [show w - 2 - s - (frac + s) = frac - 2 by omega, e4]
    field_simp
  · refine le_trans b2 (le_of_eq ?_)
    rw [show w - 2 - s + 1 - (frac + s) = frac - 2 + 1 by omega, e4, pow_succ]
    field_simp
    norm_num
  · have e : (x.toNat : ℚ) * 2 ^ (w - 2 - s - j) / 2 ^ (frac + s) / 2 ^ frac = x.toNat / 2 ^ (j + 2) := by
      have : (2 : ℚ) ^ (frac + s) * 2 ^ frac = 2 ^ (w - 2 - s - j) * 2 ^ (j + 2) := by
        rw [← pow_add, ← pow_add]; congr 1; omega
      rw [div_div, this, mul_div_mul_comm, mul_comm]
      field_simp
    rw [e] at b3; exact b3
  · rw [hZ, BitVec.getLsbD, Bits.xor_indices_one_hot w _ (by omega) hw, Nat.testBit_zero]
  · rw [hZ, hrev, hr, half_twoPow (by omega) (by omega), BitVec.toNat_twoPow_of_lt (by omega), ← pow_mul]
    split
    · rw [← pow_add]; congr 1; omega
    · rw [← pow_add]; congr 1; omega

/-- **C46** (square root): for every word `0 < x < 2^(w-2-s)`, `s = w/2 - frac`, with top set bit `j`,
the reduced value lies in `[1/4, 1/2]`, within one unit in the last place of `x / 2^(j+2)`; the bit is
the parity of `j + s + 1`; and the power of two `E`, with the factor that the bit selects (`2^((frac-s)/2)`
or that times the square root of two), is the exact square root of `2^(frac-2-j)` at scale `2^frac`. -/
theorem sqrt_reduce {rev : BitVec w → BitVec w} (hrev : ∀ v, rev v = v.reverse) {frac : ℕ}
    (hw : w = 64 ∨ w = 128) (hf : w / 2 ≤ 2 * frac) (hf2 : frac + 2 ≤ w / 2)
    {x : T (.arith w n)} {X : Shares (T (.arith w n))} (hX : Holds x X)
    (hx : ∀ i, 0 < (x i).toNat ∧ (x i).toNat < 2 ^ (w - 2 - (w / 2 - frac))) :
    ∃ p, sqrtReduce rev frac X = .ok p ∧ M.All (fun o => ∃ (s e : T (.arith w n)) (b : T (.bool 1 n)),
      Holds s o.1 ∧ Holds e o.2.1 ∧ Holds b o.2.2 ∧ ∀ i, ∃ j,
        2 ^ j ≤ (x i).toNat ∧ (x i).toNat < 2 ^ (j + 1) ∧
        1 / 4 ≤ real frac (s i) ∧ real frac (s i) ≤ 1 / 2 ∧
        |real frac (s i) - (x i).toNat / 2 ^ (j + 2)| ≤ 1 / 2 ^ frac ∧
        toArith b i = BitVec.ofBool (decide ((j + (w / 2 - frac) + 1) % 2 = 1)) ∧
        (e i).toNat ^ 2 * (if (j + (w / 2 - frac) + 1) % 2 = 1 then 2 ^ (frac - (w / 2 - frac))
          else 2 ^ (frac - (w / 2 - frac) + 1)) = 2 ^ (3 * frac - 2 - j)) p := by
  obtain ⟨p, p', h1, -, hs⟩ := sqrtReduce_sim (σ := 0) hrev (by omega) (by omega) (by omega) hf hf2 (hX.alike 0)
  refine ⟨p, h1, hs.left ?_⟩
  rintro o o' ⟨⟨z, z', hz, -, -, ho⟩, he, hb⟩
  refine ⟨z, _, _, ho.1, he.1, hb.1, fun i => ?_⟩
  obtain ⟨j, a1, a2, a3, a4, a5, a6, a7⟩ := sqrt_word hrev hw hf hf2 (hx i) (hz i)
  exact ⟨j, a1, a2, a3, a4, a5, congrArg BitVec.ofBool a6, a7⟩

example : 64 / 2 ≤ 2 * 16 ∧ 16 + 2 ≤ 64 / 2 ∧ 128 / 2 ≤ 2 * 32 ∧ 32 + 2 ≤ 128 / 2 := by decide

end Verif.Aby3
