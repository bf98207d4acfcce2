import Verif.Aby3.Exp19Lemmas
import Verif.Aby3.RecipProps
import Verif.Aby3.NatExpProps

/-!
# C70: powers with `approx_type="as2019"`

For all tensors, sharings and draws. `real frac v` is the number that the word `v` stands for.
-/

namespace Verif.Aby3

open Verif

variable {w n : ℕ}

attribute [local irreducible] M.All M.Sim

/-- The numbers of a configuration: `frac` fractional bits in words of `2^e` bits, of which the
reciprocal looks at `m`. Powers up to `2^L` have a reciprocal. -/
structure AsConfig (e frac m L : ℕ) : Prop where
  he : 0 < e
  he7 : e ≤ 7
  frac13 : 13 ≤ frac
  frac32 : frac ≤ 32
  fits3 : 3 * frac + 3 ≤ 2 ^ e
  fits36 : frac + 36 ≤ 2 ^ e
  m63 : m ≤ 63
  fitsm : m + frac + 1 ≤ 2 ^ e
  clog : 2 ^ Nat.clog 2 m ≤ 2 ^ e
  mf : m < 2 * frac
  L1 : 1 ≤ L
  Lf : L + 7 ≤ frac
  Lm : frac + L + 2 ≤ m

/-- The three presets that use probabilistic truncation: powers down to `2^-9`, `2^-18`, `2^-6`. -/
theorem asConfig_presets : AsConfig 6 16 27 9 ∧ AsConfig 7 32 52 18 ∧ AsConfig 6 13 23 6 := by
  refine ⟨?_, ?_, ?_⟩ <;> constructor <;> first | decide | norm_num

theorem AsConfig.deg {e frac m L : ℕ} (c : AsConfig e frac m L) : padeDegree frac ≠ 0 := by
  have := usedDegree_ge c.frac13
  unfold usedDegree at this
  omega

theorem AsConfig.ready {e frac m L : ℕ} (c : AsConfig e frac m L) : AsReady e frac m := by
  obtain ⟨he, he7, f13, f32, f3, f36, m63, fm, cl, mf, L1, Lf, Lm⟩ := id c
  exact ⟨he, he7, c.deg, by omega, by omega, by omega, m63, by omega, cl, mf⟩

/-! ## One element -/

theorem neg_real {frac : ℕ} (hw : 0 < w) {x : BitVec w} (hx : |real frac x| * 2 ^ frac < 2 ^ (w - 1)) :
    real frac (-x) = -real frac x := by
  have e : ((-x.toInt : ℤ) : ℚ) / 2 ^ frac = -real frac x := by
    unfold real; push_cast; ring
  rw [← e]
  refine real_of_int hw ?_ (by rw [e, abs_neg]; exact hx)
  rw [BitVec.ofInt_neg, BitVec.ofInt_toInt]

/-- The reciprocal of a number between nine tenths and `2^(L+1) - 1`. -/
theorem recipAs_word {e frac m L : ℕ} (c : AsConfig e frac m L) {rev : BitVec (2 ^ e) → BitVec (2 ^ e)}
    (hrev : ∀ v, rev v = v.reverse) {g y : BitVec (2 ^ e)} (h0 : 9 / 10 ≤ real frac g)
    (h1 : real frac g ≤ 2 ^ (L + 1) - 1) (hy : RecipSignedVal rev frac m 1 g y) :
    |1 - real frac g * real frac y| ≤ 3 / 10 ^ 5 + 2 * (1 / 2 ^ frac) * (real frac g + 3) := by
  obtain ⟨he, he7, f13, f32, f3, f36, m63, fm, cl, mf, L1, Lf, Lm⟩ := c
  have hN : (0 : ℚ) < 2 ^ frac := by positivity
  have ha : |real frac g| = real frac g := abs_of_nonneg (by linarith)
  have hu : (1 : ℚ) / 2 ^ frac ≤ 1 / 8192 := by
    rw [show (8192 : ℚ) = 2 ^ 13 by norm_num]
    exact div_le_div_of_nonneg_left (by norm_num) (by norm_num) (pow_le_pow_right₀ (by norm_num) f13)
  have hu0 : (0 : ℚ) < 1 / 2 ^ frac := by positivity
  have hL : (1 : ℚ) / 2 ^ frac * 2 ^ (L + 1) ≤ 1 / 64 := by
    have e : (2 : ℚ) ^ frac = 2 ^ (L + 1) * 2 ^ (frac - L - 1) := by rw [← pow_add]; congr 1; omega
    have h6 : (2 : ℚ) ^ 6 ≤ 2 ^ (frac - L - 1) := pow_le_pow_right₀ (by norm_num) (by omega)
    have hp : (0 : ℚ) < 2 ^ (L + 1) := by positivity
    rw [e, one_div, mul_inv, mul_comm (_⁻¹) (_⁻¹), mul_assoc, inv_mul_cancel₀ hp.ne', mul_one,
      ← one_div]
    refine div_le_div_of_nonneg_left (by norm_num) (by norm_num) ?_
    norm_num at h6
    exact h6
  have hgu : (1 : ℚ) / 2 ^ frac * (real frac g + 1) ≤ 1 / 64 :=
    (mul_le_mul_of_nonneg_left (by linarith) hu0.le).trans hL
  have hnat : g.toInt.natAbs + 2 ≤ 2 ^ (m - 1) := by
    have e1 : ((g.toInt.natAbs : ℕ) : ℚ) = real frac g * 2 ^ frac := by
      rw [Nat.cast_natAbs, ← ha, real, abs_div, abs_of_pos hN, div_mul_cancel₀ _ hN.ne']
      push_cast
      rfl
    have e2 : ((g.toInt.natAbs : ℕ) : ℚ) ≤ ((2 ^ (L + 1 + frac) : ℕ) : ℚ) - ((2 ^ frac : ℕ) : ℚ) := by
      rw [e1]
      refine (mul_le_mul_of_nonneg_right h1 hN.le).trans (le_of_eq ?_)
      push_cast
      ring
    have e3 : g.toInt.natAbs + 2 ^ frac ≤ 2 ^ (L + 1 + frac) := by
      have : ((g.toInt.natAbs + 2 ^ frac : ℕ) : ℚ) ≤ ((2 ^ (L + 1 + frac) : ℕ) : ℚ) := by
        push_cast at e2 ⊢
        linarith
      exact_mod_cast this
    have e4 : 2 ^ (L + 1 + frac) ≤ 2 ^ (m - 1) := Nat.pow_le_pow_right (by decide) (by omega)
    have e5 : 2 ^ 1 ≤ 2 ^ frac := Nat.pow_le_pow_right (by decide) (by omega)
    omega
  have key := recipSigned_word hrev (by omega) (by omega) mf f3 fm hnat (by rw [ha]; linarith)
    (by rw [ha]; linarith) hy
  rw [ha] at key
  simp only [recipErr] at key
  refine key.trans (add_le_add_left ?_ _)
  have hg2 : 2 / real frac g ≤ 3 := by
    rw [div_le_iff₀ (by linarith)]
    linarith
  have hE : 719 / 10000 + 1 / 2 ^ frac * (3 * real frac g + 3 + 2 / real frac g) ≤ 12 / 100 := by
    have : 1 / 2 ^ frac * (2 / real frac g) ≤ 1 / 8192 * 3 :=
      mul_le_mul hu hg2 (by positivity) (by norm_num)
    linarith
  refine (pow_le_pow_left₀ (by positivity) hE 5).trans ?_
  norm_num

/-- From the residual and the error of the divisor to the error of the quotient. -/
theorem inv_close {P G z η ρ u : ℝ} (hP : 0 < P) (hη : η ≤ 1 / 40) (hG : |G - P⁻¹| ≤ P⁻¹ * η)
    (hu : 0 ≤ u) (hz : |1 - G * z| ≤ ρ + 2 * u * (G + 3)) (hρ : 0 ≤ ρ) :
    |z - P| ≤ P * (11 / 10 * (ρ + η + 6 * u)) + 2 * u := by
  have hPi : 0 < P⁻¹ := inv_pos.2 hP
  have g1 := (abs_le.1 hG).1
  have hη0 : 0 ≤ η := by
    by_contra hc
    have : P⁻¹ * η < 0 := mul_neg_of_pos_of_neg hPi (not_le.1 hc)
    linarith [abs_nonneg (G - P⁻¹)]
  have g2 : P⁻¹ * (39 / 40) ≤ G := by
    have : P⁻¹ * η ≤ P⁻¹ * (1 / 40) := mul_le_mul_of_nonneg_left hη hPi.le
    linarith
  have hG0 : 0 < G := lt_of_lt_of_le (by positivity) g2
  have hPG : |1 - P * G| ≤ η := by
    have e : 1 - P * G = -(P * (G - P⁻¹)) := by
      rw [mul_sub, mul_inv_cancel₀ hP.ne']; ring
    rw [e, abs_neg, abs_mul, abs_of_pos hP]
    refine (mul_le_mul_of_nonneg_left hG hP.le).trans (le_of_eq ?_)
    rw [← mul_assoc, mul_inv_cancel₀ hP.ne', one_mul]
  have e : z - P = ((1 - P * G) - (1 - G * z)) / G := by
    field_simp
    ring
  have hGi : 1 / G ≤ P * (11 / 10) := by
    rw [div_le_iff₀ hG0]
    have : 39 / 40 ≤ P * G := by
      have := mul_le_mul_of_nonneg_left g2 hP.le
      rw [← mul_assoc, mul_inv_cancel₀ hP.ne', one_mul] at this
      exact this
    linarith
  rw [e, abs_div, abs_of_pos hG0, div_le_iff₀ hG0]
  refine (abs_sub _ _).trans ?_
  have h1 : 1 ≤ P * (11 / 10) * G := by
    rw [div_le_iff₀ hG0] at hGi
    exact hGi
  have h2 : (ρ + η + 6 * u) * 1 ≤ (ρ + η + 6 * u) * (P * (11 / 10) * G) :=
    mul_le_mul_of_nonneg_left h1 (by positivity)
  nlinarith

theorem padeErr_le' {frac : ℕ} (h13 : 13 ≤ frac) : padeErr frac ≤ 1 / 50 := by
  have h1 : padeErr frac ≤ 98 / 2 ^ frac := by
    unfold padeErr
    refine div_le_div_of_nonneg_right ?_ (by positivity)
    have : (usedDegree frac : ℚ) ≤ 7 := by exact_mod_cast usedDegree_le frac
    have : (0 : ℚ) ≤ usedDegree frac := Nat.cast_nonneg _
    nlinarith
  have hN : (8192 : ℚ) ≤ 2 ^ frac := by
    calc (8192 : ℚ) = 2 ^ 13 := by norm_num
      _ ≤ 2 ^ frac := pow_le_pow_right₀ (by norm_num) h13
  refine h1.trans ?_
  rw [div_le_div_iff₀ (by positivity) (by norm_num)]
  linarith

/-- The error of `exp2` relative to the power. -/
def asErr (frac : ℕ) : ℚ := 3 / 10 ^ 4 + 2 * padeErr frac + 8 * (1 / 2 ^ frac)

theorem Exp2AsVal.close {e frac m L : ℕ} (c : AsConfig e frac m L) {rev : BitVec (2 ^ e) → BitVec (2 ^ e)}
    (hrev : ∀ v, rev v = v.reverse) {x z : T (.arith (2 ^ e) n)} (h : Exp2AsVal rev frac m x z) (i : Fin n)
    (hl : -(L : ℚ) ≤ real frac (x i)) (hh : real frac (x i) < 32) :
    |((real frac (z i) : ℚ) : ℝ) - (2 : ℝ) ^ ((real frac (x i) : ℚ) : ℝ)| ≤
      2 ^ ((real frac (x i) : ℚ) : ℝ) * (asErr frac : ℚ) + 2 * (1 / 2 ^ frac) := by
  obtain ⟨he, he7, f13, f32, f3, f36, m63, fm, cl, mf, L1, Lf, Lm⟩ := id c
  obtain ⟨g, y, hg, hy, rfl⟩ := h
  have hN : (0 : ℚ) < 2 ^ frac := by positivity
  have hu : (1 : ℚ) / 2 ^ frac ≤ 1 / 8192 := by
    rw [show (8192 : ℚ) = 2 ^ 13 by norm_num]
    exact div_le_div_of_nonneg_left (by norm_num) (by norm_num) (pow_le_pow_right₀ (by norm_num) f13)
  have hu0 : (0 : ℚ) < 1 / 2 ^ frac := by positivity
  have hp0 := padeErr_nonneg frac
  have hp1 := padeErr_le' f13
  have hL32 : (L : ℚ) ≤ 31 := by exact_mod_cast (by omega : L ≤ 31)
  have big : (32 : ℚ) * 2 ^ frac < 2 ^ (2 ^ e - 1) := by
    calc (32 : ℚ) * 2 ^ frac = 2 ^ (5 + frac) := by rw [pow_add]; norm_num
      _ < 2 ^ (2 ^ e - 1) := pow_lt_pow_right₀ (by norm_num) (by omega)
  have habs : |real frac (x i)| ≤ 32 := abs_le.2 ⟨by linarith, hh.le⟩
  -- the power of the absolute value
  have hq : real frac (absWord x i) = |real frac (x i)| := by
    unfold absWord
    by_cases hm : (x i).msb = true
    · have h0 := (msb_iff_real (frac := frac)).1 hm
      rw [if_pos hm, neg_real (by positivity)
        ((mul_le_mul_of_nonneg_right habs hN.le).trans_lt big), abs_of_neg h0]
    · have h0 : ¬ real frac (x i) < 0 := fun h => hm (msb_iff_real.2 h)
      rw [if_neg hm, abs_of_nonneg (not_lt.1 h0)]
  have hlt : |real frac (x i)| < 32 := abs_lt.2 ⟨by linarith, hh⟩
  have hspec := hg.spec c.deg (by omega) f36 i (by
    rw [hq]
    refine hlt.trans_le ?_
    have h1 : (2 : ℚ) ^ 6 ≤ 2 ^ (2 ^ e - 1 - frac) := pow_le_pow_right₀ (by norm_num) (by omega)
    have h2 : (frac : ℚ) ≤ 32 := by exact_mod_cast f32
    norm_num at h1
    linarith)
  rw [hq] at hspec
  have hclose := hspec.close f13 f32 (by
      have : (0 : ℚ) ≤ frac := Nat.cast_nonneg _
      linarith [abs_nonneg (real frac (x i))]) hlt
    (fun h => absurd (abs_nonneg _) (not_le.2 h)) (fun _ => by decide)
  have cp0 : (0 : ℝ) ≤ (padeErr frac : ℚ) := by exact_mod_cast hp0
  have cp1 : ((padeErr frac : ℚ) : ℝ) ≤ 1 / 50 := by
    have := (Rat.cast_le (K := ℝ)).2 hp1
    push_cast at this
    exact this
  have cu0 : (0 : ℝ) < 1 / 2 ^ frac := by positivity
  have cu : (1 : ℝ) / 2 ^ frac ≤ 1 / 8192 := by
    have := (Rat.cast_le (K := ℝ)).2 hu
    push_cast at this
    exact this
  have hasErr : ((asErr frac : ℚ) : ℝ) = 3 / 10 ^ 4 + 2 * ((padeErr frac : ℚ) : ℝ) + 8 * (1 / 2 ^ frac) := by
    unfold asErr
    push_cast
    rfl
  rw [hasErr]
  by_cases hm : (x i).msb = true
  · have h0 := (msb_iff_real (frac := frac)).1 hm
    simp only [if_pos hm]
    rw [abs_of_neg h0] at hclose
    have hP : (0 : ℝ) < (2 : ℝ) ^ ((real frac (x i) : ℚ) : ℝ) := Real.rpow_pos_of_pos (by norm_num) _
    have e1 : (2 : ℝ) ^ (((-real frac (x i) : ℚ)) : ℝ) = ((2 : ℝ) ^ ((real frac (x i) : ℚ) : ℝ))⁻¹ := by
      push_cast
      rw [Real.rpow_neg (by norm_num)]
    rw [e1] at hclose
    have hP1 : (2 : ℝ) ^ ((real frac (x i) : ℚ) : ℝ) ≤ 1 :=
      Real.rpow_le_one_of_one_le_of_nonpos (by norm_num) (by exact_mod_cast h0.le)
    have hPL : ((2 : ℝ) ^ ((real frac (x i) : ℚ) : ℝ))⁻¹ ≤ 2 ^ L := by
      rw [← e1, ← Real.rpow_natCast]
      refine Real.rpow_le_rpow_of_exponent_le (by norm_num) ?_
      have : -real frac (x i) ≤ (L : ℚ) := by linarith
      exact_mod_cast this
    generalize (2 : ℝ) ^ ((real frac (x i) : ℚ) : ℝ) = P at *
    have hPi : 1 ≤ P⁻¹ := (one_le_inv₀ hP).2 hP1
    have hG : |((real frac (g i) : ℚ) : ℝ) - P⁻¹| ≤
        P⁻¹ * (2 / 10 ^ 4 + ((padeErr frac : ℚ) : ℝ) + 1 / 2 ^ frac) := by
      refine hclose.trans ?_
      have := mul_le_mul_of_nonneg_right hPi cu0.le
      linarith
    have hη : 2 / 10 ^ 4 + ((padeErr frac : ℚ) : ℝ) + 1 / 2 ^ frac ≤ 1 / 40 := by linarith
    have gb := abs_le.1 (hG.trans (mul_le_mul_of_nonneg_left hη (by linarith)))
    have glo : 9 / 10 ≤ real frac (g i) := by
      have : ((9 / 10 : ℚ) : ℝ) ≤ ((real frac (g i) : ℚ) : ℝ) := by
        push_cast
        linarith [gb.1]
      exact_mod_cast this
    have ghi : real frac (g i) ≤ 2 ^ (L + 1) - 1 := by
      have h2 : (2 : ℝ) ^ 1 ≤ 2 ^ L := pow_le_pow_right₀ (by norm_num) L1
      have : ((real frac (g i) : ℚ) : ℝ) ≤ ((2 ^ (L + 1) - 1 : ℚ) : ℝ) := by
        push_cast
        rw [pow_succ]
        linarith [gb.2]
      exact_mod_cast this
    have hr := (Rat.cast_le (K := ℝ)).2 (recipAs_word c hrev glo ghi (hy i))
    push_cast at hr
    have := inv_close hP hη hG cu0.le hr (by norm_num)
    refine this.trans (add_le_add_left (mul_le_mul_of_nonneg_left ?_ hP.le) _)
    linarith
  · have h0 : ¬ real frac (x i) < 0 := fun h => hm (msb_iff_real.2 h)
    simp only [if_neg hm]
    rw [abs_of_nonneg (not_lt.1 h0)] at hclose
    have hP : (0 : ℝ) < (2 : ℝ) ^ ((real frac (x i) : ℚ) : ℝ) := Real.rpow_pos_of_pos (by norm_num) _
    refine hclose.trans (add_le_add (mul_le_mul_of_nonneg_left ?_ hP.le) ?_) <;> linarith

/-- **C70** (`exp2`): for every tensor of numbers from `-L` up to 32, every sharing and every draw, the
call succeeds and every entry of the result is within `2^x (0.0003 + 2 padeErr + 8 units)` and two units
of the last place of the real `2^x`. -/
theorem exp2_as_close_partial {e frac m L : ℕ} (c : AsConfig e frac m L)
    {rev : BitVec (2 ^ e) → BitVec (2 ^ e)} (hrev : ∀ v, rev v = v.reverse)
    {x : T (.arith (2 ^ e) n)} {X : Shares (T (.arith (2 ^ e) n))} (hX : Holds x X)
    (hx : ∀ i, -(L : ℚ) ≤ real frac (x i) ∧ real frac (x i) < 32) :
    ∃ p, exp2As rev frac m X = .ok p ∧ M.All (fun o => ∃ O, o = .ok O ∧ ∃ z : T (.arith (2 ^ e) n),
      Holds z O ∧ ∀ i, |((real frac (z i) : ℚ) : ℝ) - (2 : ℝ) ^ ((real frac (x i) : ℚ) : ℝ)| ≤
        2 ^ ((real frac (x i) : ℚ) : ℝ) * (asErr frac : ℚ) + 2 * (1 / 2 ^ frac)) p := by
  obtain ⟨F, hF, hs⟩ := exp2As_sim (n := n) c.ready hrev
  refine ⟨F X, hF X, (hs (hX.alike 0)).left ?_⟩
  rintro o o' ⟨O, O', rfl, -, z, z', hz, -, ho⟩
  exact ⟨O, rfl, z, ho.1, fun i => hz.close c hrev i (hx i).1 (hx i).2⟩

/-- The elements of a result of `exp`. -/
theorem ExpAsVal.close {e frac m L : ℕ} (c : AsConfig e frac m L)
    {rev : BitVec (2 ^ e) → BitVec (2 ^ e)} (hrev : ∀ v, rev v = v.reverse)
    {x z : T (.arith (2 ^ e) n)} (h : ExpAsVal rev frac m x z) (i : Fin n)
    (hx : -(69 / 100 * (L : ℚ)) ≤ real frac (x i) ∧ real frac (x i) ≤ 22) :
    |((real frac (z i) : ℚ) : ℝ) - Real.exp (real frac (x i) : ℚ)| ≤
      Real.exp (real frac (x i) : ℚ) * ((asErr frac : ℚ) +
        3 * (1 / 2 ^ frac) * (1 + |((real frac (x i) : ℚ) : ℝ)|)) + 2 * (1 / 2 ^ frac) := by
  obtain ⟨he, he7, f13, f32, f3, f36, m63, fm, cl, mf, L1, Lf, Lm⟩ := id c
  obtain ⟨a, ha, hz⟩ := h
  obtain ⟨hl, hh⟩ := hx
  have hL : (1 : ℚ) ≤ L := by exact_mod_cast L1
  have hL25 : (L : ℚ) ≤ 25 := by exact_mod_cast (by omega : L ≤ 25)
  have habs : |real frac (x i)| ≤ 22 := abs_le.2 ⟨by linarith, hh⟩
  obtain ⟨a1, -, -, a4, -, -⟩ := adjusted f13 f32 (by omega) (habs.trans (by
    have h6 : (2 : ℚ) ^ 5 ≤ 2 ^ (2 ^ e - 3 - 2 * frac) := pow_le_pow_right₀ (by norm_num) (by omega)
    norm_num at h6
    linarith)) hh (ha i)
  have hN : (8192 : ℝ) ≤ 2 ^ frac := by
    calc (8192 : ℝ) = 2 ^ 13 := by norm_num
      _ ≤ 2 ^ frac := pow_le_pow_right₀ (by norm_num) f13
  have hu : (1 : ℝ) / 2 ^ frac ≤ 1 / 8192 := div_le_div_of_nonneg_left (by norm_num) (by norm_num) hN
  have hu0 : (0 : ℝ) < 1 / 2 ^ frac := by positivity
  have hX22 : |((real frac (x i) : ℚ) : ℝ)| ≤ 22 := by exact_mod_cast habs
  have hal : -(L : ℚ) ≤ real frac (a i) := by
    have r0 := (abs_le.1 a4).1
    have r1 : ((-(69 / 100 * (L : ℚ)) : ℚ) : ℝ) ≤ ((real frac (x i) : ℚ) : ℝ) := by exact_mod_cast hl
    push_cast at r1
    have r2 : |((real frac (x i) : ℚ) : ℝ)| ≤ 22 * (L : ℝ) := by
      have : (1 : ℝ) ≤ L := by exact_mod_cast L1
      linarith
    have r3 : (1 : ℝ) / 2 ^ frac * (1 + |((real frac (x i) : ℚ) : ℝ)|) ≤ 1 / 8192 * (1 + 22 * L) :=
      mul_le_mul hu (by linarith) (by positivity) (by norm_num)
    have hL' : (1 : ℝ) ≤ L := by exact_mod_cast L1
    have l2 : 693 / 1000 ≤ Real.log 2 := le_trans (by norm_num) Real.log_two_gt_d9.le
    have l0 : 0 < Real.log 2 := by linarith
    by_contra hc
    have h1 : ((real frac (a i) : ℚ) : ℝ) ≤ -(L : ℝ) := by
      have := not_le.1 hc
      exact_mod_cast this.le
    have h2 := mul_le_mul_of_nonneg_left h1 l0.le
    nlinarith
  have hc := hz.close c hrev i hal a1
  have pw : ∀ q : ℝ, (2 : ℝ) ^ q = Real.exp (Real.log 2 * q) := fun q => Real.rpow_def_of_pos (by norm_num) q
  have hA : ((asErr frac : ℚ) : ℝ) ≤ 1 / 20 := by
    have h1 : asErr frac ≤ 1 / 20 := by
      unfold asErr
      have := padeErr_le' f13
      have : (1 : ℚ) / 2 ^ frac ≤ 1 / 8192 := by
        rw [show (8192 : ℚ) = 2 ^ 13 by norm_num]
        exact div_le_div_of_nonneg_left (by norm_num) (by norm_num) (pow_le_pow_right₀ (by norm_num) f13)
      linarith
    have := (Rat.cast_le (K := ℝ)).2 h1
    push_cast at this
    exact this
  have hA0 : (0 : ℝ) ≤ (asErr frac : ℚ) := by
    have : 0 ≤ asErr frac := by
      unfold asErr
      have := padeErr_nonneg frac
      positivity
    exact_mod_cast this
  generalize hD : (1 / 2 ^ frac) * (1 + |((real frac (x i) : ℚ) : ℝ)|) = D at *
  have hD1 : D ≤ 1 / 200 := by
    rw [← hD]
    calc (1 : ℝ) / 2 ^ frac * (1 + |((real frac (x i) : ℚ) : ℝ)|) ≤ 1 / 8192 * 23 :=
          mul_le_mul hu (by linarith) (by positivity) (by norm_num)
      _ ≤ 1 / 200 := by norm_num
  have hD0 : 0 ≤ D := (abs_nonneg _).trans a4
  have hes := exp_shift (x := (real frac (x i) : ℚ)) a4 (by linarith)
  rw [add_sub_cancel, ← pw] at hes
  generalize (2 : ℝ) ^ ((real frac (a i) : ℚ) : ℝ) = P at *
  have hE := Real.exp_pos ((real frac (x i) : ℚ) : ℝ)
  generalize Real.exp ((real frac (x i) : ℚ) : ℝ) = E at *
  generalize ((asErr frac : ℚ) : ℝ) = p at *
  rw [show 3 * (1 / 2 ^ frac) * (1 + |((real frac (x i) : ℚ) : ℝ)|) = 3 * D by rw [← hD]; ring]
  have h1 := abs_sub_le (((real frac (z i) : ℚ) : ℝ)) P E
  have h2 : P ≤ E * (1 + 2 * D) := by linarith [(abs_le.1 hes).2]
  have h3 : P * p ≤ E * (1 + 2 * D) * p := mul_le_mul_of_nonneg_right h2 hA0
  have h4 : E * (2 * D) * p ≤ E * (2 * D) * (1 / 2) :=
    mul_le_mul_of_nonneg_left (by linarith) (by positivity)
  nlinarith

/-- **C70** (`exp`): for every tensor of numbers from `-0.69 L` up to 22, every sharing and every draw,
the call succeeds and every entry of the result is within `e^x (asErr + 3 (1 + |x|) units)` and two units
of the last place of the real `e^x`. -/
theorem exp_as_close_partial {e frac m L : ℕ} (c : AsConfig e frac m L)
    {rev : BitVec (2 ^ e) → BitVec (2 ^ e)} (hrev : ∀ v, rev v = v.reverse)
    {x : T (.arith (2 ^ e) n)} {X : Shares (T (.arith (2 ^ e) n))} (hX : Holds x X)
    (hx : ∀ i, -(69 / 100 * (L : ℚ)) ≤ real frac (x i) ∧ real frac (x i) ≤ 22) :
    ∃ p, expAs rev frac m X = .ok p ∧ M.All (fun o => ∃ O, o = .ok O ∧ ∃ z : T (.arith (2 ^ e) n),
      Holds z O ∧ ∀ i, |((real frac (z i) : ℚ) : ℝ) - Real.exp (real frac (x i) : ℚ)| ≤
        Real.exp (real frac (x i) : ℚ) * ((asErr frac : ℚ) +
          3 * (1 / 2 ^ frac) * (1 + |((real frac (x i) : ℚ) : ℝ)|)) + 2 * (1 / 2 ^ frac)) p := by
  obtain ⟨F, hF, hs⟩ := expAs_sim (n := n) c.ready hrev
  refine ⟨F X, hF X, (hs (hX.alike 0)).left ?_⟩
  rintro o o' ⟨O, O', rfl, -, z, z', hz, -, ho⟩
  exact ⟨O, rfl, z, ho.1, fun i => hz.close c hrev i (hx i)⟩

/-- **C70** for the default 64-bit configuration (16 fractional bits, 11 integral bits): down to -9, one
part in 500 and two units of the last place. -/
theorem exp2_as_default {x : T (.arith (2 ^ 6) n)} {X : Shares (T (.arith (2 ^ 6) n))} (hX : Holds x X)
    (hx : ∀ i, -9 ≤ real 16 (x i) ∧ real 16 (x i) < 32) :
    ∃ p, exp2As Bits.reverse64 16 27 X = .ok p ∧ M.All (fun o => ∃ O, o = .ok O ∧
      ∃ z : T (.arith (2 ^ 6) n), Holds z O ∧ ∀ i,
        |((real 16 (z i) : ℚ) : ℝ) - (2 : ℝ) ^ ((real 16 (x i) : ℚ) : ℝ)| ≤
          2 ^ ((real 16 (x i) : ℚ) : ℝ) / 500 + 2 / 2 ^ 16) p := by
  obtain ⟨p, hp, hall⟩ := exp2_as_close_partial asConfig_presets.1 (rev := Bits.reverse64)
    Bits.bit_reverse_64 hX fun i => by
      obtain ⟨h1, h2⟩ := hx i
      exact ⟨by push_cast; linarith, h2⟩
  refine ⟨p, hp, hall.mono ?_⟩
  rintro o ⟨O, rfl, z, hz, h⟩
  refine ⟨O, rfl, z, hz, fun i => (h i).trans ?_⟩
  have hu : usedDegree 16 = 5 := by decide +kernel
  have herr : asErr 16 ≤ 1 / 500 := by
    unfold asErr padeErr
    rw [hu]
    norm_num
  have hr := (Rat.cast_le (K := ℝ)).2 herr
  push_cast at hr
  have hP : (0 : ℝ) < (2 : ℝ) ^ ((real 16 (x i) : ℚ) : ℝ) := Real.rpow_pos_of_pos (by norm_num) _
  have := mul_le_mul_of_nonneg_left hr hP.le
  generalize (2 : ℝ) ^ ((real 16 (x i) : ℚ) : ℝ) = P at *
  rw [show (2 : ℝ) * (1 / 2 ^ 16) = 2 / 2 ^ 16 by norm_num]
  linarith

/-- Numbers in that range: -8.5, 0 and 20. -/
example : ∀ i : Fin 3, -9 ≤ real 16 ((![BitVec.ofInt 64 (-557056), 0, 1310720] : Fin 3 → BitVec 64) i) ∧
    real 16 ((![BitVec.ofInt 64 (-557056), 0, 1310720] : Fin 3 → BitVec 64) i) < 32 := by
  decide +kernel

/-! ## Where it goes wrong -/

/-- Two to the -32 comes out as one, and so does two to the 32, in every tensor that holds such numbers. -/
theorem exp2_as_wraps_false {x : T (.arith (2 ^ 6) n)} {X : Shares (T (.arith (2 ^ 6) n))}
    (hX : Holds x X) :
    ∃ p, exp2As Bits.reverse64 16 27 X = .ok p ∧ M.All (fun o => ∃ O, o = .ok O ∧
      ∃ z : T (.arith (2 ^ 6) n), Holds z O ∧ ∀ i, |real 16 (x i)| = 32 → |real 16 (z i) - 1| ≤ 1 / 100) p := by
  obtain ⟨F, hF, hs⟩ := exp2As_sim (n := n) asConfig_presets.1.ready (rev := Bits.reverse64)
    Bits.bit_reverse_64
  refine ⟨F X, hF X, (hs (hX.alike 0)).left ?_⟩
  rintro o o' ⟨O, O', rfl, -, z, z', hz, -, ho⟩
  refine ⟨O, rfl, z, ho.1, fun i hi => ?_⟩
  obtain ⟨g, y, hg, hy, rfl⟩ := hz
  have hq : real 16 (absWord x i) = 32 := by
    unfold absWord
    by_cases hm : (x i).msb = true
    · have h0 := (msb_iff_real (frac := 16)).1 hm
      rw [if_pos hm, neg_real (by norm_num) (by rw [hi]; norm_num), ← abs_of_neg h0, hi]
    · have h0 : ¬ real 16 (x i) < 0 := fun h => hm (msb_iff_real.2 h)
      rw [if_neg hm, ← abs_of_nonneg (not_lt.1 h0), hi]
  have hu : usedDegree 16 = 5 := by decide +kernel
  have hp : expPoly 5 (Int.fract (32 : ℚ)) = 1 := by
    rw [show (32 : ℚ) = ((32 : ℤ) : ℚ) by norm_num, Int.fract_intCast]
    decide +kernel
  have herr : padeErr 16 ≤ 1 / 1000 := by
    unfold padeErr
    rw [hu]
    norm_num
  have hgb : |real 16 (g i) - 1| ≤ 1 / 1000 := by
    have h := (hg.spec asConfig_presets.1.deg (by norm_num) (by norm_num) i (by
      rw [hq]; norm_num)).nonneg (by decide) (by rw [hq]; norm_num) 0 (by rw [hq]; decide +kernel)
    rw [hq, hu, hp, pow_zero, one_mul, one_mul] at h
    exact h.trans herr
  have g1 := abs_le.1 hgb
  have hr := abs_le.1 (recipAs_word asConfig_presets.1 (rev := Bits.reverse64) Bits.bit_reverse_64
    (by linarith [g1.1]) (by norm_num; linarith [g1.2]) (hy i))
  have hyb : |real 16 (y i) - 1| ≤ 1 / 100 := by
    rw [abs_le]
    generalize real 16 (y i) = Y at *
    generalize real 16 (g i) = G at *
    norm_num at hr g1
    constructor
    · by_contra hc
      nlinarith
    · by_contra hc
      nlinarith
  by_cases hm : (x i).msb = true
  · simp only [if_pos hm]
    exact hyb
  · simp only [if_neg hm]
    exact hgb.trans (by norm_num)

example : |real 16 (BitVec.ofInt 64 (-32 * 2 ^ 16))| = 32 := by decide +kernel

theorem mul_range {u v z : BitVec (64)} {lo hi : ℚ} (h1 : lo ≤ real 16 u * real 16 v)
    (h2 : real 16 u * real 16 v ≤ hi) (hlo : -2 ^ 29 ≤ lo) (hhi : hi ≤ 2 ^ 29)
    (hz : TruncOk .heuristic 16 (u * v) z) : lo - 1 / 2 ^ 16 ≤ real 16 z ∧ real 16 z ≤ hi + 1 / 2 ^ 16 := by
  have h := abs_le.1 (mul_real (by norm_num) (by
    have : |real 16 u * real 16 v| ≤ 2 ^ 29 := abs_le.2 ⟨by linarith, by linarith⟩
    have h3 := mul_le_mul_of_nonneg_right this (show (0 : ℚ) ≤ 2 ^ 16 * 2 ^ 16 by norm_num)
    norm_num at h3 ⊢
    linarith) hz)
  exact ⟨by linarith [h.1], by linarith [h.2]⟩

theorem lowBits_twice (m : ℕ) (x : BitVec w) : lowBits m (lowBits m x) = lowBits m x := by
  apply BitVec.eq_of_getLsbD_eq
  intro i hi
  rw [lowBits_bit' _ _ _ hi, lowBits_bit' _ _ _ hi]
  cases decide (i < m) <;> rfl

theorem expV_low (rev : BitVec w → BitVec w) (frac m : ℕ) (x : BitVec w) :
    expV rev frac m (lowBits m x) = expV rev frac m x := by
  unfold expV
  rw [lowBits_twice]

set_option maxHeartbeats 1000000 in
/-- The reciprocal of a number between 3441 and 3448 is computed as a number below -10000: the number
needs one bit more than the 27 that are looked at, so it counts as negative. -/
theorem recip_overflow {g y : BitVec (64)} (h0 : 3441 ≤ real 16 g) (h1 : real 16 g ≤ 3448)
    (hy : RecipSignedVal Bits.reverse64 16 27 1 g y) : real 16 y ≤ -10000 := by
  obtain ⟨b, s, e, hb, hs, he, v, hv, y', ⟨t, r2, a, d, ht, hr2, ha, hd, rfl⟩, hz⟩ := hy
  rw [show y = v + d from hz]
  have hg0 : 3441 * 2 ^ 16 ≤ g.toInt := by
    have : (3441 * 2 ^ 16 : ℚ) ≤ g.toInt := by
      unfold real at h0
      rw [le_div_iff₀ (by positivity)] at h0
      exact h0
    exact_mod_cast this
  have hg1 : g.toInt ≤ 3448 * 2 ^ 16 := by
    have : (g.toInt : ℚ) ≤ 3448 * 2 ^ 16 := by
      unfold real at h1
      rw [div_le_iff₀ (by positivity)] at h1
      exact h1
    exact_mod_cast this
  have hgn : (g.toNat : ℤ) = g.toInt := by
    rw [BitVec.toInt_eq_toNat_cond]
    have := g.isLt
    rw [BitVec.toInt_eq_toNat_cond] at hg0
    split at hg0
    · rename_i h
      rw [if_pos h]
    · norm_num at *
      omega
  have hbit : g.getLsbD 27 = true := by
    rw [BitVec.getLsbD, Nat.testBit_eq_decide_div_mod_eq, decide_eq_true_iff]
    omega
  have hsg : signV 16 27 g = BitVec.ofInt (64) (-2 ^ 16) := by
    unfold signV
    rw [if_pos hbit]
    decide +kernel
  have hsr : real 16 (BitVec.ofInt (64) (-2 ^ 16)) = -1 := by decide +kernel
  rw [hsg] at hb he
  obtain ⟨b0, b1⟩ := mul_range (lo := -3448) (hi := -3441) (by rw [hsr]; linarith) (by rw [hsr]; linarith)
    (by norm_num) (by norm_num) hb
  have hb0 : -3448 * 2 ^ 16 - 1 ≤ b.toInt := by
    have : ((-3448 * 2 ^ 16 - 1 : ℤ) : ℚ) ≤ b.toInt := by
      unfold real at b0
      rw [le_div_iff₀ (by positivity)] at b0
      push_cast
      linarith
    exact_mod_cast this
  have hb1 : b.toInt ≤ -3441 * 2 ^ 16 + 1 := by
    have : (b.toInt : ℚ) ≤ ((-3441 * 2 ^ 16 + 1 : ℤ) : ℚ) := by
      unfold real at b1
      rw [div_le_iff₀ (by positivity)] at b1
      push_cast
      linarith
    exact_mod_cast this
  have hbn : (b.toNat : ℤ) = b.toInt + 2 ^ 64 := by
    have := b.isLt
    rw [BitVec.toInt_eq_toNat_cond] at hb1 ⊢
    split at hb1
    · norm_num at *
      omega
    · rename_i h
      rw [if_neg h]
      norm_num
  have hlow : (lowBits 27 b).toNat = b.toNat % 2 ^ 27 := by
    unfold lowBits
    rw [BitVec.toNat_setWidth, BitVec.toNat_setWidth]
    exact Nat.mod_eq_of_lt (lt_of_lt_of_le (Nat.mod_lt _ (by norm_num)) (by norm_num))
  have hl0 : 2 ^ 25 ≤ (lowBits 27 b).toNat := by rw [hlow]; omega
  have hl1 : (lowBits 27 b).toNat < 2 ^ 26 := by rw [hlow]; omega
  have hlog : Nat.log 2 (lowBits 27 b).toNat = 25 := by
    rw [Nat.log_eq_iff (by norm_num)]
    exact ⟨hl0, hl1⟩
  have hexp : expV Bits.reverse64 16 27 b = BitVec.twoPow (64) 6 := by
    rw [← expV_low, expV_eq (w := 64) Bits.bit_reverse_64 (by decide) (by decide) (by decide)
      (by decide) hl1 (by
        intro hc
        have : (lowBits 27 b).toNat = 0 := by rw [hc]; rfl
        omega), hlog]
  have her : real 16 (BitVec.twoPow (64) 6) = 64 / 65536 := by decide +kernel
  rw [hexp] at hs he
  obtain ⟨s0, s1⟩ := mul_range (lo := -337 / 100) (hi := -336 / 100) (by rw [her]; norm_num at b0; linarith)
    (by rw [her]; norm_num at b1; linarith) (by norm_num) (by norm_num) hs
  obtain ⟨e0, e1⟩ := mul_range (lo := -64 / 65536) (hi := -64 / 65536) (by rw [her, hsr]; norm_num)
    (by rw [her, hsr]; norm_num) (by norm_num) (by norm_num) he
  have c0 := abs_le.1 (const_real (w := 64) (frac := 16) (k := 2) (by norm_num)
    (q := 29281928 / 10000000) (by rw [abs_of_pos] <;> norm_num))
  have hc1 : real 16 (constWord (64) 16 1) = 1 := by decide +kernel
  have hi2 : real 16 (BitVec.ofNat (64) 2 * s) = 2 * real 16 s := by
    have := nat_mul_real (w := 64) (frac := 16) (c := 2) (v := s) (by norm_num) (by
      have : |((2 : ℕ) : ℚ) * real 16 s| ≤ 10 := by
        rw [abs_le]
        push_cast
        norm_num at s0 s1
        constructor <;> linarith
      norm_num at this ⊢
      linarith)
    rw [this]
    norm_num
  have hi : real 16 (initV 16 s) = real 16 (constWord (64) 16 (29281928 / 10000000)) - 2 * real 16 s := by
    unfold initV
    rw [sub_real (by norm_num), hi2]
    rw [hi2]
    have : |real 16 (constWord (64) 16 (29281928 / 10000000)) - 2 * real 16 s| ≤ 12 := by
      rw [abs_le]
      norm_num at s0 s1 c0
      constructor <;> linarith [c0.1, c0.2]
    norm_num at this ⊢
    linarith
  have i0 : 964 / 100 ≤ real 16 (initV 16 s) := by rw [hi]; norm_num at s1 c0; linarith [c0.1]
  have i1 : real 16 (initV 16 s) ≤ 967 / 100 := by rw [hi]; norm_num at s0 c0; linarith [c0.2]
  norm_num at e0 e1
  obtain ⟨v0, v1⟩ := mul_range (lo := -968 / 100000) (hi := -926 / 100000) (by nlinarith) (by nlinarith)
    (by norm_num) (by norm_num) hv
  norm_num at v0 v1
  obtain ⟨t0, t1⟩ := mul_range (lo := -335 / 10) (hi := -317 / 10) (by nlinarith) (by nlinarith)
    (by norm_num) (by norm_num) ht
  norm_num at t0 t1
  have hres : real 16 (constWord (64) 16 1 - t) = 1 - real 16 t := by
    rw [sub_real (by norm_num), hc1]
    rw [hc1]
    have : |1 - real 16 t| ≤ 100 := abs_le.2 ⟨by linarith, by linarith⟩
    norm_num at this ⊢
    linarith
  have q0 : 326 / 10 ≤ real 16 (constWord (64) 16 1 - t) := by rw [hres]; linarith
  have q1 : real 16 (constWord (64) 16 1 - t) ≤ 346 / 10 := by rw [hres]; linarith
  obtain ⟨r0, r1⟩ := mul_range (lo := 1062) (hi := 1198) (by nlinarith) (by nlinarith)
    (by norm_num) (by norm_num) hr2
  norm_num at r0 r1
  have hr1 : real 16 (r2 + constWord (64) 16 1) = real 16 r2 + 1 := by
    rw [add_real (by norm_num), hc1]
    rw [hc1]
    have : |real 16 r2 + 1| ≤ 2000 := abs_le.2 ⟨by linarith, by linarith⟩
    norm_num at this ⊢
    linarith
  obtain ⟨a0, a1⟩ := mul_range (lo := -117 / 10) (hi := -98 / 10) (by rw [hr1]; nlinarith)
    (by rw [hr1]; nlinarith) (by norm_num) (by norm_num) ha
  norm_num at a0 a1
  have hsum : real 16 (constWord (64) 16 1 - t + r2) = real 16 (constWord (64) 16 1 - t) + real 16 r2 := by
    refine add_real (by norm_num) ?_
    have : |real 16 (constWord (64) 16 1 - t) + real 16 r2| ≤ 2000 := abs_le.2 ⟨by linarith, by linarith⟩
    norm_num at this ⊢
    linarith
  obtain ⟨d0, d1⟩ := mul_range (lo := -15000) (hi := -10700) (by rw [hsum]; nlinarith)
    (by rw [hsum]; nlinarith) (by norm_num) (by norm_num) hd
  norm_num at d0 d1
  rw [add_real (by norm_num)]
  · linarith
  · have : |real 16 v + real 16 d| ≤ 20000 := abs_le.2 ⟨by linarith, by linarith⟩
    norm_num at this ⊢
    linarith

/-- Two to the -11.75 comes out as a number below -10000, although the default configuration has 16
fractional bits and two to the 11.75 fits. -/
theorem exp2_as_negative_false {X : Shares (T (.arith (2 ^ 6) 1))}
    (hX : Holds (s := .arith (2 ^ 6) 1) (fun _ => BitVec.ofInt (2 ^ 6) (-47 * 2 ^ 14)) X) :
    ∃ p, exp2As Bits.reverse64 16 27 X = .ok p ∧ M.All (fun o => ∃ O, o = .ok O ∧
      ∃ z : T (.arith (2 ^ 6) 1), Holds z O ∧ real 16 (z 0) ≤ -10000) p := by
  obtain ⟨F, hF, hs⟩ := exp2As_sim (n := 1) asConfig_presets.1.ready (rev := Bits.reverse64)
    Bits.bit_reverse_64
  refine ⟨F X, hF X, (hs (hX.alike 0)).left ?_⟩
  rintro o o' ⟨O, O', rfl, -, z, z', hz, -, ho⟩
  refine ⟨O, rfl, z, ho.1, ?_⟩
  obtain ⟨g, y, hg, hy, rfl⟩ := hz
  have hq : real 16 (absWord (w := 2 ^ 6) (n := 1) (fun _ => BitVec.ofInt (2 ^ 6) (-47 * 2 ^ 14)) 0) = 47 / 4 := by
    decide +kernel
  have hu : usedDegree 16 = 5 := by decide +kernel
  have herr : padeErr 16 = 50 / 65536 := by
    unfold padeErr
    rw [hu]
    norm_num
  have hp : |expPoly 5 (Int.fract (47 / 4 : ℚ)) - 16818 / 10000| ≤ 3 / 10000 := by decide +kernel
  have h := (hg.spec asConfig_presets.1.deg (by norm_num) (by norm_num) 0 (by
      rw [hq]; norm_num)).nonneg (by decide) (by rw [hq]; norm_num) 11 (by rw [hq]; decide +kernel)
  rw [hq, hu, herr] at h
  have h' := abs_le.1 h
  have hp' := abs_le.1 hp
  norm_num at h' hp'
  have hm : (BitVec.ofInt (2 ^ 6) (-47 * 2 ^ 14)).msb = true := by decide +kernel
  show real 16 (if (BitVec.ofInt (2 ^ 6) (-47 * 2 ^ 14)).msb then y 0 else g 0) ≤ _
  rw [if_pos hm]
  exact recip_overflow (by linarith [h'.1, hp'.1]) (by linarith [h'.2, hp'.2]) (hy 0)

theorem all_of_forall {α : Type} {Q : α → Prop} (q : M α) (h : ∀ a, Q a) : M.All Q q := by
  unfold M.All
  induction q with
  | pure a => exact h a.1
  | sample s k ih => exact fun t => ih t
  | coin k ih => exact fun t => ih t

/-- A configuration with too many integral bits for the reciprocal is refused, but only once the power
has been computed, and also if all numbers are positive. -/
theorem exp2_as_refused {frac m : ℕ} (hd : padeDegree frac ≠ 0) (hw : 2 * frac + 2 ≤ w)
    (hm : 2 * frac ≤ m) (rev : BitVec w → BitVec w) (X : Shares (T (.arith w n))) :
    ∃ p, exp2As rev frac m X = .ok p ∧ M.All (fun o => o = .error .assertion) p := by
  obtain ⟨plan, hp⟩ := mulPlan_ok (sx := true) (sy := true) (frac := frac) (w := w) fun _ => by omega
  have hR : ∀ G : Shares (T (.arith w n)), recip rev frac m 1 G = .error .assertion :=
    fun G => (recip_refused 1 hm G).2
  refine ⟨do
      let s ← msb (subPub X fun _ _ => 0)
      let p ← selectA s (.priv X) (.priv (X.map (- ·)))
      as19Bits rev frac m plan s p, ?_, ?_⟩
  · unfold exp2As
    rw [if_neg hd, hp]
  · refine M.all_bind.2 (all_of_forall _ fun s => M.all_bind.2 (all_of_forall _ fun P => ?_))
    obtain ⟨b, hb⟩ : ∃ b, a2b none P = .ok b := ⟨_, rfl⟩
    unfold as19Bits
    rw [hb]
    unfold as19Run
    refine M.all_bind.2 (all_of_forall _ fun B => M.all_bind.2 (all_of_forall _ fun D =>
      M.all_bind.2 (all_of_forall _ fun F => M.all_bind.2 (all_of_forall _ fun U =>
        M.all_bind.2 (all_of_forall _ fun G => ?_)))))
    unfold as19Choose
    rw [hR]
    exact M.all_pure.2 rfl

/-- **C70** (secrecy): what any one server sees has the same distribution for all inputs. -/
theorem exp_as_secrecy {e frac m : ℕ} (r : AsReady e frac m) {rev : BitVec (2 ^ e) → BitVec (2 ^ e)}
    (hrev : ∀ v, rev v = v.reverse) (σ : Fin 3) (x x' : T (.arith (2 ^ e) n)) :
    (∃ F : Shares (T (.arith (2 ^ e) n)) → M (Except Err (Shares (T (.arith (2 ^ e) n)))),
      (∀ X, exp2As rev frac m X = .ok (F X)) ∧
        M.view σ (share x >>= F) = M.view σ (share x' >>= F)) ∧
    ∃ F : Shares (T (.arith (2 ^ e) n)) → M (Except Err (Shares (T (.arith (2 ^ e) n)))),
      (∀ X, expAs rev frac m X = .ok (F X)) ∧
        M.view σ (share x >>= F) = M.view σ (share x' >>= F) := by
  obtain ⟨F, hF, hs⟩ := exp2As_sim (n := n) r hrev
  obtain ⟨G, hG, hs'⟩ := expAs_sim (n := n) r hrev
  exact ⟨⟨F, hF, hides_of_sim fun _ _ h => hs h⟩, G, hG, hides_of_sim fun _ _ h => hs' h⟩

end Verif.Aby3
