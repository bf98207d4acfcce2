import Verif.Aby3.InvSqrtProps
import Mathlib.Analysis.Real.Sqrt

/-!
# C60: distance from the real inverse square root
-/

namespace Verif.Aby3

open Verif

variable {w n : ℕ}

attribute [local irreducible] M.All M.Sim

theorem root2_real : |(root2 : ℝ) - √2| ≤ 1 / 2 ^ 51 := by
  have h2 : (√2) ^ 2 = 2 := Real.sq_sqrt (by norm_num)
  have hs : 0 ≤ √2 := Real.sqrt_nonneg _
  have hr : (root2 : ℝ) = 6369051672525773 / 4503599627370496 := by unfold root2; push_cast; rfl
  have e : ((root2 : ℝ) - √2) * (root2 + √2) = root2 ^ 2 - 2 := by
    linear_combination -h2
  have h1 : |(root2 : ℝ) - √2| * 1 ≤ |(root2 : ℝ) - √2| * |root2 + √2| := by
    refine mul_le_mul_of_nonneg_left ?_ (abs_nonneg _)
    rw [abs_of_nonneg (by rw [hr]; positivity), hr]
    linarith
  rw [← abs_mul, e, mul_one] at h1
  refine h1.trans ?_
  rw [hr, abs_le]
  constructor <;> norm_num

/-- The factor that the parity selects. -/
theorem select_real {frac h : ℕ} (hw : frac + h + 3 ≤ w) (bit : Bool) :
    |real frac (selectWord w frac (2 ^ h) (2 ^ h * root2) bit) -
      if bit then 2 ^ h else 2 ^ h * root2| ≤ 2 * (1 / 2 ^ frac) := by
  have hN : (0 : ℚ) < 2 ^ frac := by positivity
  have hu : (1 : ℚ) / 2 ^ frac ≤ 1 := by rw [div_le_one hN]; exact one_le_pow₀ (by norm_num)
  have hh : (1 : ℚ) ≤ 2 ^ h := one_le_pow₀ (by norm_num)
  have r1 : (141 / 100 : ℚ) ≤ root2 := by unfold root2; norm_num
  have r2 : root2 ≤ 142 / 100 := by unfold root2; norm_num
  have hp : (2 : ℚ) ^ (h + 1) = 2 * 2 ^ h := by rw [pow_succ']
  have hW : (2 : ℚ) ^ h * 2 ^ frac * 4 ≤ 2 ^ (w - 1) := by
    calc (2 : ℚ) ^ h * 2 ^ frac * 4 = 2 ^ (h + frac + 2) := by rw [pow_add, pow_add]; norm_num
      _ ≤ _ := pow_le_pow_right₀ (by norm_num) (by omega)
  have c1 := const_real (w := w) (frac := frac) (k := h + 1) (by omega) (q := 2 ^ h * root2) (by
    rw [abs_of_pos (by positivity), hp]
    nlinarith)
  have c2 := const_real (w := w) (frac := frac) (k := h + 1) (by omega) (q := 2 ^ h - 2 ^ h * root2) (by
    rw [abs_of_nonpos (by nlinarith), hp]
    nlinarith)
  have d1 := abs_le.1 c1
  have d2 := abs_le.1 c2
  have hu0 : (0 : ℚ) < 1 / 2 ^ frac := by positivity
  cases bit
  · simp only [selectWord, Bool.false_eq_true, if_false]
    rw [show (0 : BitVec w) + constWord w frac (2 ^ h * root2) = constWord w frac (2 ^ h * root2) from
      zero_add _]
    linarith
  · simp only [selectWord, if_true]
    rw [add_real (by omega)]
    · rw [abs_le]
      constructor <;> linarith [d1.1, d1.2, d2.1, d2.2]
    · have : |real frac (constWord w frac (2 ^ h - 2 ^ h * root2)) +
          real frac (constWord w frac (2 ^ h * root2))| ≤ 2 ^ h + 2 :=
        abs_le.2 ⟨by linarith [d1.1, d2.1], by linarith [d1.2, d2.2]⟩
      have h2 := mul_le_mul_of_nonneg_right this hN.le
      nlinarith

/-- The last two products, in exact numbers: `x = b₀ / G²`. -/
theorem rs_final {x G b b0 y g z u R : ℝ} (hx : 0 < x) (hG : 0 < G) (hb0 : x * G ^ 2 = b0)
    (hu : u ≤ 1 / 1000) (hR : R ≤ 1 / 50) (hy1 : 1 ≤ y) (hy2 : y ≤ 203 / 100) (hb : |b - b0| ≤ u)
    (hy : |1 - b * y ^ 2| ≤ R) (hg : |g - G| ≤ 3 * u * G + u) (hz : |z - y * g| ≤ u) :
    |z - 1 / √x| ≤ (R + 9 * u) * (1 / √x) + 4 * u := by
  have hu0 : 0 ≤ u := (abs_nonneg _).trans hb
  have hR0 : 0 ≤ R := (abs_nonneg _).trans hy
  have hs : 0 < √x := Real.sqrt_pos.2 hx
  have hs2 : √x ^ 2 = x := Real.sq_sqrt hx.le
  obtain ⟨r, hr⟩ : ∃ r, r = 1 / √x := ⟨_, rfl⟩
  have hr0 : 0 < r := by rw [hr]; positivity
  have hrs : r * √x = 1 := by rw [hr]; field_simp
  obtain ⟨a, ha⟩ : ∃ a, a = y * √x * G := ⟨_, rfl⟩
  have ha0 : 0 ≤ a := by rw [ha]; positivity
  have ha2 : a ^ 2 = b0 * y ^ 2 := by
    rw [ha, ← hb0]
    linear_combination (y ^ 2 * G ^ 2) * hs2
  have hy22 : y ^ 2 ≤ 413 / 100 := by nlinarith
  have k1 : |1 - a ^ 2| ≤ R + 413 / 100 * u := by
    have e : 1 - a ^ 2 = (1 - b * y ^ 2) + (b - b0) * y ^ 2 := by rw [ha2]; ring
    have : |(b - b0) * y ^ 2| ≤ u * (413 / 100) := by
      rw [abs_mul, abs_of_nonneg (sq_nonneg y)]
      exact mul_le_mul hb hy22 (sq_nonneg y) hu0
    rw [e]
    have := abs_add_le (1 - b * y ^ 2) ((b - b0) * y ^ 2)
    linarith
  have k2 : |1 - a| ≤ R + 413 / 100 * u := by
    have e : 1 - a ^ 2 = (1 - a) * (1 + a) := by ring
    rw [e, abs_mul, abs_of_pos (show 0 < 1 + a by linarith)] at k1
    nlinarith [abs_nonneg (1 - a)]
  have k3 : a ≤ 103 / 100 := by linarith [(abs_le.1 k2).1]
  have hyG : y * G = a * r := by rw [ha]; linear_combination (-(y * G)) * hrs
  have k4 : |y * (g - G)| ≤ 3 * u * (y * G) + 203 / 100 * u := by
    rw [abs_mul, abs_of_pos (by linarith)]
    nlinarith [mul_le_mul_of_nonneg_left hg (show 0 ≤ y by linarith)]
  have k5 : |r * (a - 1)| ≤ r * (R + 413 / 100 * u) := by
    rw [abs_mul, abs_of_pos hr0, abs_sub_comm]
    exact mul_le_mul_of_nonneg_left k2 hr0.le
  have e : z - r = (z - y * g) + (y * (g - G) + r * (a - 1)) := by
    linear_combination hyG
  rw [← hr, e]
  have t1 := abs_add_le (z - y * g) (y * (g - G) + r * (a - 1))
  have t2 := abs_add_le (y * (g - G)) (r * (a - 1))
  have k6 : 3 * u * (y * G) ≤ 3 * u * (103 / 100 * r) := by
    rw [hyG]
    exact mul_le_mul_of_nonneg_left (mul_le_mul_of_nonneg_right k3 hr0.le) (by linarith)
  have hur : 0 ≤ u * r := mul_nonneg hu0 hr0.le
  nlinarith

set_option maxHeartbeats 800000 in
/-- One word of the result. -/
theorem InvSqrtVal.close {rev : BitVec w → BitVec w} (hrev : ∀ v, rev v = v.reverse) {frac prec : ℕ}
    (hw : w = 64 ∨ w = 128) (hf : w / 2 ≤ 2 * frac) (hf3 : 3 * frac + 3 ≤ w) {x z : BitVec w}
    (hx : 0 < x.toNat ∧ x.toNat < 2 ^ (w - 2 - (w / 2 - frac))) (h : InvSqrtVal rev frac prec x z) :
    |((real frac z : ℚ) : ℝ) - 1 / √(real frac x : ℚ)| ≤
      (rsErr (15 / 1000 + 9 * (1 / 2 ^ frac)) (7 * (1 / 2 ^ frac)) prec + 9 * (1 / 2 ^ frac) : ℚ) *
        (1 / √(real frac x : ℚ)) + 4 * (1 / 2 ^ frac) := by
  obtain ⟨b, hb, y0, y, g, hy0, hy, hg, hz⟩ := h
  have hf2 : frac + 2 ≤ w / 2 := by omega
  obtain ⟨j, a1, a2, a3, a4, a5, a6, a7⟩ := sqrt_word hrev hw hf hf2 hx hb
  have h10 : 10 ≤ frac := by omega
  have hu := unit_small h10
  have hN0 : (0 : ℚ) < 2 ^ frac := by positivity
  obtain ⟨i1, i2⟩ := hy0.close hf3 h10 a3 a4
  have hE0 : 15 / 1000 + 9 * (1 / 2 ^ frac) ≤ (1 / 50 : ℚ) := by
    have : (1 : ℚ) / 2 ^ frac ≤ 1 / 2 ^ 16 :=
      div_le_div_of_nonneg_left (by norm_num) (by norm_num) (pow_le_pow_right₀ (by norm_num) (by omega))
    norm_num at *
    linarith
  obtain ⟨y1, yR⟩ := RsIterVal.close hf3 h10 a3 a4 prec hy hE0 i1 i2
  have hR := rsErr_le (E := 15 / 1000 + 9 * (1 / 2 ^ frac)) (δ := 7 * (1 / 2 ^ frac))
    (by positivity) (by positivity) hE0 (by linarith) prec
  generalize rsErr (15 / 1000 + 9 * (1 / 2 ^ frac)) (7 * (1 / 2 ^ frac)) prec = R at *
  obtain ⟨-, y2, -⟩ := rs_range hR a3 a4 y1 yR
  -- the factor
  set s := w / 2 - frac with hs
  have heven : (frac + s) % 2 = 0 := by omega
  obtain ⟨h, hh⟩ : ∃ h, h = (frac - s) / 2 := ⟨_, rfl⟩
  have hfac : rsFactors frac s = (2 ^ h, 2 ^ h * root2) := by
    unfold rsFactors
    rw [if_pos heven, hh]
  have h2h : frac - s = h + h := by omega
  rw [hfac, a6] at hg
  simp only at hg
  have hsel := select_real (w := w) (frac := frac) (h := h) (by omega) (decide ((j + s + 1) % 2 = 1))
  rw [show (lowBits (frac + s) (Bits.gather 0 2 (rev (sqrtZ s x) ||| (rev (sqrtZ s x)).sshiftRight 1)))
    = sqrtE rev frac s x from rfl] at a7
  generalize sqrtE rev frac s x = e at *
  generalize selectWord w frac (2 ^ h) (2 ^ h * root2) (decide ((j + s + 1) % 2 = 1)) = f at *
  have hjl : 2 ^ j < 2 ^ (w - 2 - s) := lt_of_le_of_lt a1 hx.2
  have hj : j < w - 2 - s := (Nat.pow_lt_pow_iff_right (by decide)).1 hjl
  have hesq : e.toNat ^ 2 * 2 ^ (h + h) ≤ 2 ^ (3 * frac - 2 - j) := by
    rw [← a7, h2h]
    refine Nat.mul_le_mul_left _ ?_
    split
    · exact le_rfl
    · exact Nat.pow_le_pow_right (by decide) (by omega)
  have heb : e.toNat ^ 2 < 2 ^ (3 * frac) := by
    have h1 : e.toNat ^ 2 * 1 ≤ e.toNat ^ 2 * 2 ^ (h + h) := Nat.mul_le_mul_left _ Nat.one_le_two_pow
    have h2 : (2 : ℕ) ^ (3 * frac - 2 - j) < 2 ^ (3 * frac) := Nat.pow_lt_pow_right (by decide) (by omega)
    omega
  have hesm : e.toNat < 2 ^ (w - 1) := by
    by_contra hc
    have h1 : (2 ^ (w - 1)) ^ 2 ≤ e.toNat ^ 2 := Nat.pow_le_pow_left (not_lt.1 hc) 2
    rw [← pow_mul] at h1
    have h2 : (2 : ℕ) ^ (3 * frac) ≤ 2 ^ ((w - 1) * 2) := Nat.pow_le_pow_right (by decide) (by omega)
    omega
  have her : real frac e = e.toNat / 2 ^ frac := real_small hesm
  have he0 : 0 ≤ real frac e := by rw [her]; positivity
  have hN : (1024 : ℚ) ≤ 2 ^ frac := by
    calc (1024 : ℚ) = 2 ^ 10 := by norm_num
      _ ≤ 2 ^ frac := pow_le_pow_right₀ (by norm_num) h10
  have hq2 : (real frac e * 2 ^ h) ^ 2 ≤ 2 ^ frac := by
    have h1 : ((e.toNat : ℚ)) ^ 2 * 2 ^ (h + h) ≤ 2 ^ (3 * frac) := by
      have : e.toNat ^ 2 * 2 ^ (h + h) ≤ 2 ^ (3 * frac) :=
        hesq.trans (Nat.pow_le_pow_right (by decide) (by omega))
      exact_mod_cast this
    have e3 : (2 : ℚ) ^ (3 * frac) = 2 ^ frac * (2 ^ frac) ^ 2 := by
      rw [show 3 * frac = frac + frac * 2 by ring, pow_add, pow_mul]
    rw [her]
    have : ((e.toNat : ℚ) / 2 ^ frac * 2 ^ h) ^ 2 = (e.toNat ^ 2 * 2 ^ (h + h)) / (2 ^ frac) ^ 2 := by
      rw [pow_add]; field_simp
    rw [this, div_le_iff₀ (by positivity), ← e3]
    exact h1
  have hh1 : (1 : ℚ) ≤ 2 ^ h := one_le_pow₀ (by norm_num)
  have hq : real frac e * 2 ^ h ≤ 2 ^ frac / 32 := by
    by_contra hc
    push Not at hc
    have : (2 ^ frac / 32) ^ 2 < (real frac e * 2 ^ h) ^ 2 := pow_lt_pow_left₀ hc (by positivity) (by decide)
    nlinarith
  have hsb : |real frac f| ≤ 2 * 2 ^ h := by
    have r1 : (0 : ℚ) < root2 := by unfold root2; norm_num
    have r2 : root2 ≤ 142 / 100 := by unfold root2; norm_num
    have h1 : |(if decide ((j + s + 1) % 2 = 1) then (2 : ℚ) ^ h else 2 ^ h * root2)| ≤ 142 / 100 * 2 ^ h := by
      split
      · rw [abs_of_pos (by positivity)]; linarith
      · rw [abs_of_pos (by positivity)]; nlinarith
    have := abs_add_le (real frac f - if decide ((j + s + 1) % 2 = 1) then (2 : ℚ) ^ h else 2 ^ h * root2)
      (if decide ((j + s + 1) % 2 = 1) then (2 : ℚ) ^ h else 2 ^ h * root2)
    rw [sub_add_cancel] at this
    linarith
  have h3 := pow_three hf3
  have hes : |real frac e * real frac f| ≤ 2 ^ frac / 16 := by
    rw [abs_mul, abs_of_nonneg he0]
    calc real frac e * |real frac f| ≤ real frac e * (2 * 2 ^ h) := mul_le_mul_of_nonneg_left hsb he0
      _ = 2 * (real frac e * 2 ^ h) := by ring
      _ ≤ 2 ^ frac / 16 := by linarith
  have hNN : (0 : ℚ) < 2 ^ frac * 2 ^ frac := by positivity
  have mg := mul_real (frac := frac) (by omega) (by
    have := mul_le_mul_of_nonneg_right hes hNN.le
    nlinarith) hg
  have hgb : |real frac g| ≤ 2 ^ frac / 16 + 1 := by
    have := abs_add_le (real frac g - real frac e * real frac f) (real frac e * real frac f)
    rw [sub_add_cancel] at this
    linarith
  have mz := mul_real (frac := frac) (by omega) (by
    have : |real frac y * real frac g| ≤ 203 / 100 * (2 ^ frac / 16 + 1) := by
      rw [abs_mul, abs_of_pos (by linarith)]
      exact mul_le_mul y2 hgb (abs_nonneg _) (by norm_num)
    have := mul_le_mul_of_nonneg_right this hNN.le
    nlinarith) hz
  -- in the reals
  have hxr : real frac x = x.toNat / 2 ^ frac := real_small (lt_of_lt_of_le hx.2
    (Nat.pow_le_pow_right (by decide) (by omega)))
  have hx0 : (0 : ℚ) < real frac x := by
    rw [hxr]
    have : (0 : ℚ) < x.toNat := by exact_mod_cast hx.1
    positivity
  obtain ⟨F, hF⟩ : ∃ F : ℝ, F = if (j + s + 1) % 2 = 1 then 2 ^ h else 2 ^ h * √2 := ⟨_, rfl⟩
  have hs2 : (1 : ℝ) ≤ √2 := by rw [Real.one_le_sqrt]; norm_num
  have hF1 : 1 ≤ F := by
    have : (1 : ℝ) ≤ 2 ^ h := one_le_pow₀ (by norm_num)
    rw [hF]
    split
    · exact this
    · nlinarith
  have hF2 : F ^ 2 = if (j + s + 1) % 2 = 1 then 2 ^ (frac - s) else 2 ^ (frac - s + 1) := by
    rw [hF, h2h]
    split
    · rw [← pow_mul]; congr 1; omega
    · rw [mul_pow, Real.sq_sqrt (by norm_num), pow_succ (2 : ℝ) (h + h), ← pow_mul, Nat.mul_two]
  have hfF : |((real frac f : ℚ) : ℝ) - F| ≤ 3 * (1 / 2 ^ frac) := by
    have h1 : |((real frac f : ℚ) : ℝ) - if (j + s + 1) % 2 = 1 then 2 ^ h else 2 ^ h * (root2 : ℝ)| ≤
        2 * (1 / 2 ^ frac) := by
      have := (Rat.cast_le (K := ℝ)).2 hsel
      by_cases hc : (j + s + 1) % 2 = 1
      · simp only [hc, decide_true, if_true] at this ⊢
        push_cast at this
        exact this
      · simp only [hc, decide_false, if_false, Bool.false_eq_true] at this ⊢
        push_cast at this
        exact this
    have h2 : |(if (j + s + 1) % 2 = 1 then 2 ^ h else 2 ^ h * (root2 : ℝ)) - F| ≤ 1 / 2 ^ frac := by
      rw [hF]
      split
      · simp
      · rw [← mul_sub, abs_mul, abs_of_pos (by positivity)]
        have := root2_real
        calc (2 : ℝ) ^ h * |(root2 : ℝ) - √2| ≤ 2 ^ h * (1 / 2 ^ 51) :=
              mul_le_mul_of_nonneg_left this (by positivity)
          _ ≤ 1 / 2 ^ frac := by
              rw [mul_one_div, div_le_div_iff₀ (by positivity) (by positivity), ← pow_add, one_mul]
              exact pow_le_pow_right₀ (by norm_num) (by omega)
    have h3 := abs_add_le (((real frac f : ℚ) : ℝ) - if (j + s + 1) % 2 = 1 then 2 ^ h else 2 ^ h * (root2 : ℝ))
      ((if (j + s + 1) % 2 = 1 then 2 ^ h else 2 ^ h * (root2 : ℝ)) - F)
    rw [sub_add_sub_cancel] at h3
    linarith
  have heR : (0 : ℝ) ≤ (real frac e : ℚ) := by exact_mod_cast he0
  have hep : (0 : ℝ) < (real frac e : ℚ) := by
    have : e.toNat ≠ 0 := by
      intro hc
      rw [hc] at a7
      have : (0 : ℕ) < 2 ^ (3 * frac - 2 - j) := by positivity
      simp at a7
      omega
    rw [her]
    have : (0 : ℝ) < e.toNat := by exact_mod_cast Nat.pos_of_ne_zero this
    push_cast
    positivity
  have hGsq : ((real frac x : ℚ) : ℝ) * ((real frac e : ℚ) * F) ^ 2 = (x.toNat : ℝ) / 2 ^ (j + 2) := by
    have h7 : ((e.toNat : ℝ)) ^ 2 * F ^ 2 = 2 ^ (3 * frac - 2 - j) := by
      rw [hF2]
      have := congrArg (Nat.cast (R := ℝ)) a7
      push_cast at this
      rw [← this]
    have e3 : (2 : ℝ) ^ frac * (2 ^ frac) ^ 2 = 2 ^ (3 * frac - 2 - j) * 2 ^ (j + 2) := by
      rw [← pow_mul, ← pow_add, ← pow_add]; congr 1; omega
    rw [hxr, her]
    push_cast
    rw [mul_pow, div_pow, div_mul_eq_mul_div (e.toNat ^ 2 : ℝ), h7, div_mul_div_comm, e3]
    field_simp
  have cast : ∀ {p q : ℚ}, p ≤ q → (p : ℝ) ≤ q := fun h => (Rat.cast_le (K := ℝ)).2 h
  have c5 := cast a5
  have cR := cast yR
  have cg := cast mg
  have cz := cast mz
  push_cast at c5 cR cg cz
  have hRR : (R : ℝ) ≤ 1 / 50 := by have := cast hR; push_cast at this; exact this
  have huR : (1 : ℝ) / 2 ^ frac ≤ 1 / 1000 := by have := cast hu; push_cast at this; exact this
  have y1R : (1 : ℝ) ≤ (real frac y : ℚ) := by exact_mod_cast y1
  have y2R : ((real frac y : ℚ) : ℝ) ≤ 203 / 100 := by have := cast y2; push_cast at this; exact this
  have hgG : |((real frac g : ℚ) : ℝ) - (real frac e : ℚ) * F| ≤
      3 * (1 / 2 ^ frac) * ((real frac e : ℚ) * F) + 1 / 2 ^ frac := by
    have h1 : |((real frac e : ℚ) : ℝ) * ((real frac f : ℚ) - F)| ≤ (real frac e : ℚ) * (3 * (1 / 2 ^ frac)) := by
      rw [abs_mul, abs_of_nonneg heR]
      exact mul_le_mul_of_nonneg_left hfF heR
    have h2 := abs_add_le (((real frac g : ℚ) : ℝ) - (real frac e : ℚ) * (real frac f : ℚ))
      (((real frac e : ℚ) : ℝ) * ((real frac f : ℚ) - F))
    have h3 : ((real frac g : ℚ) : ℝ) - (real frac e : ℚ) * F = (((real frac g : ℚ) : ℝ) -
      (real frac e : ℚ) * (real frac f : ℚ)) + (((real frac e : ℚ) : ℝ) * ((real frac f : ℚ) - F)) := by ring
    have h4 : ((real frac e : ℚ) : ℝ) ≤ (real frac e : ℚ) * F := le_mul_of_one_le_right heR hF1
    have h5 : ((real frac e : ℚ) : ℝ) * (3 * (1 / 2 ^ frac)) ≤ 3 * (1 / 2 ^ frac) * ((real frac e : ℚ) * F) := by
      rw [mul_comm]
      exact mul_le_mul_of_nonneg_left h4 (by positivity)
    rw [h3]
    linarith
  have := rs_final (x := (real frac x : ℚ)) (G := (real frac e : ℚ) * F) (by exact_mod_cast hx0)
    (by positivity) hGsq huR hRR y1R y2R c5 cR hgG cz
  push_cast
  exact this

/-- **C60**: in both word sizes, for every tensor of positive values below the bound of the range
reduction, every sharing and every draw, the call succeeds and every entry of the result differs from
the real `1/√x` by at most a relative error, which is what `prec` rounds leave of the first `0.015`,
and four units of the last place. -/
theorem inv_sqrt_close {rev : BitVec w → BitVec w} (hrev : ∀ v, rev v = v.reverse) {frac : ℕ} (prec : ℕ)
    (hw : w = 64 ∨ w = 128) (hf : w / 2 ≤ 2 * frac) (hf3 : 3 * frac + 3 ≤ w)
    {x : T (.arith w n)} {X : Shares (T (.arith w n))} (hX : Holds x X)
    (hx : ∀ i, 0 < (x i).toNat ∧ (x i).toNat < 2 ^ (w - 2 - (w / 2 - frac))) :
    ∃ p, invSqrt rev frac prec X = .ok p ∧ M.All (fun o => ∃ y : T (.arith w n), Holds y o ∧
      ∀ i, |((real frac (y i) : ℚ) : ℝ) - 1 / √(real frac (x i) : ℚ)| ≤
        (rsErr (15 / 1000 + 9 * (1 / 2 ^ frac)) (7 * (1 / 2 ^ frac)) prec + 9 * (1 / 2 ^ frac) : ℚ) *
          (1 / √(real frac (x i) : ℚ)) + 4 * (1 / 2 ^ frac)) p := by
  obtain ⟨F, hF, hs⟩ := invSqrt_sim (n := n) hrev prec (by omega) (by omega) (by omega) hf (by omega)
  refine ⟨F X, hF X, (hs (hX.alike 0)).left ?_⟩
  rintro o o' ⟨z, z', hz, -, ho⟩
  exact ⟨z, ho.1, fun i => (hz i).close hrev hw hf hf3 (hx i)⟩

/-- **C60** for the default 64-bit configuration (16 fractional bits, one round): for all
`0 < x < 2^30` the result is within `1/√x/2000` and four units of the last place. -/
theorem inv_sqrt_default {x : T (.arith 64 n)} {X : Shares (T (.arith 64 n))} (hX : Holds x X)
    (hx : ∀ i, 0 < real 16 (x i) ∧ real 16 (x i) < 2 ^ 30) :
    ∃ p, invSqrt Bits.reverse64 16 1 X = .ok p ∧ M.All (fun o => ∃ y : T (.arith 64 n), Holds y o ∧
      ∀ i, |((real 16 (y i) : ℚ) : ℝ) - 1 / √(real 16 (x i) : ℚ)| ≤
        1 / 2000 * (1 / √(real 16 (x i) : ℚ)) + 4 / 2 ^ 16) p := by
  have hx' : ∀ i, 0 < (x i).toNat ∧ (x i).toNat < 2 ^ 46 := by
    intro i
    obtain ⟨h1, h2⟩ := hx i
    rw [real, lt_div_iff₀ (by positivity), zero_mul] at h1
    rw [real, div_lt_iff₀ (by positivity), ← pow_add] at h2
    have h1' : 0 < (x i).toInt := by exact_mod_cast h1
    have h2' : (x i).toInt < 2 ^ 46 := by exact_mod_cast h2
    have := (x i).isLt
    rw [BitVec.toInt_eq_toNat_cond] at h1' h2'
    split at h1' <;> omega
  obtain ⟨p, hp, h⟩ := inv_sqrt_close (rev := Bits.reverse64) Bits.bit_reverse_64 (frac := 16) 1
    (.inl rfl) (by decide) (by decide) hX hx'
  refine ⟨p, hp, h.mono ?_⟩
  rintro o ⟨y, hy, hc⟩
  refine ⟨y, hy, fun i => (hc i).trans ?_⟩
  have h0 : (0 : ℝ) ≤ 1 / √(real 16 (x i) : ℚ) := by positivity
  have h1 : ((rsErr (15 / 1000 + 9 * (1 / 2 ^ 16)) (7 * (1 / 2 ^ 16)) 1 + 9 * (1 / 2 ^ 16) : ℚ) : ℝ) ≤
      ((1 / 2000 : ℚ) : ℝ) := by
    refine (Rat.cast_le (K := ℝ)).2 ?_
    simp only [rsErr]
    norm_num
  push_cast at h1
  have := mul_le_mul_of_nonneg_right h1 h0
  push_cast
  linarith

/-- The default 128-bit configuration (32 fractional bits) with two rounds: for all `0 < x < 2^62` the
result is within `1/√x/10^7` and four units of the last place. -/
theorem inv_sqrt_128 {rev : BitVec 128 → BitVec 128} (hrev : ∀ v, rev v = v.reverse)
    {x : T (.arith 128 n)} {X : Shares (T (.arith 128 n))} (hX : Holds x X)
    (hx : ∀ i, 0 < (x i).toNat ∧ (x i).toNat < 2 ^ 94) :
    ∃ p, invSqrt rev 32 2 X = .ok p ∧ M.All (fun o => ∃ y : T (.arith 128 n), Holds y o ∧
      ∀ i, |((real 32 (y i) : ℚ) : ℝ) - 1 / √(real 32 (x i) : ℚ)| ≤
        1 / 10 ^ 7 * (1 / √(real 32 (x i) : ℚ)) + 4 / 2 ^ 32) p := by
  obtain ⟨p, hp, h⟩ := inv_sqrt_close hrev (frac := 32) 2 (.inr rfl) (by decide) (by decide) hX hx
  refine ⟨p, hp, h.mono ?_⟩
  rintro o ⟨y, hy, hc⟩
  refine ⟨y, hy, fun i => (hc i).trans ?_⟩
  have h0 : (0 : ℝ) ≤ 1 / √(real 32 (x i) : ℚ) := by positivity
  have h1 : ((rsErr (15 / 1000 + 9 * (1 / 2 ^ 32)) (7 * (1 / 2 ^ 32)) 2 + 9 * (1 / 2 ^ 32) : ℚ) : ℝ) ≤
      ((1 / 10 ^ 7 : ℚ) : ℝ) := by
    refine (Rat.cast_le (K := ℝ)).2 ?_
    simp only [rsErr]
    norm_num
  push_cast at h1
  have := mul_le_mul_of_nonneg_right h1 h0
  push_cast
  linarith

/-- A precision below a quarter of the word size, such as the 13 bits of `fixed64_ni`, is refused. -/
theorem inv_sqrt_refused {rev : BitVec w → BitVec w} {frac : ℕ} (prec : ℕ) (h : 2 * frac < w / 2)
    (X : Shares (T (.arith w n))) : invSqrt rev frac prec X = .error .assertion := by
  unfold invSqrt sqrtReduce
  rw [if_neg (by omega)]

/-- **C60** (secrecy): what any one server sees has the same distribution for all inputs. -/
theorem inv_sqrt_secrecy {rev : BitVec w → BitVec w} (hrev : ∀ v, rev v = v.reverse) {frac : ℕ} (prec : ℕ)
    (hw : w = 64 ∨ w = 128) (hf : w / 2 ≤ 2 * frac) (hf2 : frac + 2 ≤ w / 2) (σ : Fin 3)
    (x x' : T (.arith w n)) :
    ∃ F : Shares (T (.arith w n)) → M (Shares (T (.arith w n))),
      (∀ X, invSqrt rev frac prec X = .ok (F X)) ∧
        M.view σ (share x >>= F) = M.view σ (share x' >>= F) := by
  obtain ⟨F, hF, hs⟩ := invSqrt_sim (n := n) hrev prec (by omega) (by omega) (by omega) hf hf2
  exact ⟨F, hF, hides_of_sim fun _ _ h => hs h⟩

/-- The hypotheses of `inv_sqrt_default` hold of the numbers `1/65536`, `2` and `10^9`. -/
example : ∀ i : Fin 3, 0 < real 16 ((![1, 131072, 65536000000000] : Fin 3 → BitVec 64) i) ∧
    real 16 ((![1, 131072, 65536000000000] : Fin 3 → BitVec 64) i) < 2 ^ 30 := by
  decide +kernel

end Verif.Aby3
