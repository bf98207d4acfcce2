import Verif.Aby3.InvSqrtLemmas
import Verif.Aby3.RecipProps

/-!
# C60: the inverse square root is close to the real one

For all tensors, sharings and draws. `real frac v` is the number that the word `v` stands for.
-/

namespace Verif.Aby3

open Verif

variable {w n : ℕ}

attribute [local irreducible] M.All M.Sim

/-! ## In exact numbers -/

/-- The polynomial of the first approximation. -/
def rsPoly (b : ℚ) : ℚ := (47979 / 10000 * b - 59417 / 10000) * b + 31855 / 10000

theorem rsPoly_close {b : ℚ} (h0 : 1 / 4 ≤ b) (h1 : b ≤ 1 / 2) :
    |1 - b * rsPoly b ^ 2| ≤ 15 / 1000 := by
  have t : 0 ≤ 4 * b - 1 := by linarith
  have s : 0 ≤ 2 - 4 * b := by linarith
  have h : ∀ i j : ℕ, 0 ≤ (4 * b - 1) ^ i * (2 - 4 * b) ^ j := fun i j =>
    mul_nonneg (pow_nonneg t i) (pow_nonneg s j)
  unfold rsPoly
  rw [abs_le]
  constructor <;> linarith [h 0 8, h 1 7, h 2 6, h 3 5, h 4 4, h 5 3, h 6 2, h 7 1, h 8 0]

theorem rsPoly_range {b : ℚ} (h0 : 1 / 4 ≤ b) (h1 : b ≤ 1 / 2) : 14 / 10 ≤ rsPoly b ∧ rsPoly b ≤ 2 := by
  unfold rsPoly
  constructor <;> nlinarith

/-- The first approximation, with every constant and product off by at most `u`. -/
theorem rsInit_close {b c1 t c2 v c3 u : ℚ} (hu : u ≤ 1 / 1000) (h0 : 1 / 4 ≤ b) (h1 : b ≤ 1 / 2)
    (hc1 : |c1 - 47979 / 10000| ≤ u) (ht : |t - b * c1| ≤ u) (hc2 : |c2 - 59417 / 10000| ≤ u)
    (hv : |v - (t - c2) * b| ≤ u) (hc3 : |c3 - 31855 / 10000| ≤ u) :
    1 ≤ v + c3 ∧ |1 - b * (v + c3) ^ 2| ≤ 15 / 1000 + 9 * u := by
  have hu0 : 0 ≤ u := (abs_nonneg _).trans ht
  obtain ⟨p1, p2⟩ := rsPoly_range h0 h1
  have hd : |v + c3 - rsPoly b| ≤ 4 * u := by
    unfold rsPoly
    have k1 : |b * (c1 - 47979 / 10000)| ≤ 1 / 2 * u := by
      rw [abs_mul, abs_of_pos (by linarith)]
      exact mul_le_mul h1 hc1 (abs_nonneg _) (by norm_num)
    have k2 : |(t - b * c1) + b * (c1 - 47979 / 10000) - (c2 - 59417 / 10000)| ≤ 5 / 2 * u := by
      have t1 := abs_sub ((t - b * c1) + b * (c1 - 47979 / 10000)) (c2 - 59417 / 10000)
      have t2 := abs_add_le (t - b * c1) (b * (c1 - 47979 / 10000))
      linarith
    have k3 : |((t - b * c1) + b * (c1 - 47979 / 10000) - (c2 - 59417 / 10000)) * b| ≤ 5 / 2 * u * (1 / 2) := by
      rw [abs_mul, abs_of_pos (show 0 < b by linarith)]
      exact mul_le_mul k2 h1 (by linarith) (by linarith)
    have e : v + c3 - ((47979 / 10000 * b - 59417 / 10000) * b + 31855 / 10000) =
        (v - (t - c2) * b) + (((t - b * c1) + b * (c1 - 47979 / 10000) - (c2 - 59417 / 10000)) * b
          + (c3 - 31855 / 10000)) := by ring
    rw [e]
    have t1 := abs_add_le (v - (t - c2) * b) (((t - b * c1) + b * (c1 - 47979 / 10000)
      - (c2 - 59417 / 10000)) * b + (c3 - 31855 / 10000))
    have t2 := abs_add_le (((t - b * c1) + b * (c1 - 47979 / 10000) - (c2 - 59417 / 10000)) * b)
      (c3 - 31855 / 10000)
    linarith
  have hP := rsPoly_close h0 h1
  generalize rsPoly b = P at *
  generalize v + c3 = y at *
  have hd' := abs_le.1 hd
  refine ⟨by linarith [hd'.1], ?_⟩
  have e : 1 - b * y ^ 2 = (1 - b * P ^ 2) - (y - P) * (b * (y + P)) := by ring
  have k : |(y - P) * (b * (y + P))| ≤ 4 * u * (1 / 2 * (4 + 4 / 1000)) := by
    rw [abs_mul]
    refine mul_le_mul hd ?_ (abs_nonneg _) (by linarith)
    rw [abs_of_nonneg (by nlinarith [hd'.1])]
    exact mul_le_mul h1 (by linarith [hd'.2]) (by linarith [hd'.1]) (by norm_num)
  rw [e]
  have t1 := abs_sub (1 - b * P ^ 2) ((y - P) * (b * (y + P)))
  linarith

/-- What the residual says about `y`. -/
theorem rs_range {b y R : ℚ} (hR : R ≤ 1 / 50) (h0 : 1 / 4 ≤ b) (h1 : b ≤ 1 / 2) (hy : 1 ≤ y)
    (h : |1 - b * y ^ 2| ≤ R) : 7 / 5 ≤ y + 1 / 50 ∧ y ≤ 203 / 100 ∧ b * y ≤ 72 / 100 := by
  have h' := abs_le.1 (h.trans hR)
  refine ⟨?_, ?_, ?_⟩
  · by_contra hc
    push Not at hc
    have : y ^ 2 ≤ (7 / 5 - 1 / 50) ^ 2 := pow_le_pow_left₀ (by linarith) (by linarith) 2
    have : b * y ^ 2 ≤ 1 / 2 * (7 / 5 - 1 / 50) ^ 2 := mul_le_mul h1 this (by positivity) (by norm_num)
    norm_num at this
    linarith [h'.1, h'.2]
  · by_contra hc
    push Not at hc
    have : (203 / 100) ^ 2 ≤ y ^ 2 := pow_le_pow_left₀ (by norm_num) hc.le 2
    have : 1 / 4 * (203 / 100) ^ 2 ≤ b * y ^ 2 := mul_le_mul h0 this (by positivity) (by linarith)
    norm_num at this
    linarith [h'.1, h'.2]
  · by_contra hc
    push Not at hc
    have h2 : (72 / 100) ^ 2 ≤ (b * y) ^ 2 := pow_le_pow_left₀ (by norm_num) hc.le 2
    have h3 : (b * y) ^ 2 = b * (b * y ^ 2) := by ring
    have h4 : b * (b * y ^ 2) ≤ 1 / 2 * (102 / 100) :=
      mul_le_mul h1 (by linarith [h'.1]) (by positivity) (by norm_num)
    norm_num at h2
    linarith

/-- One round, with every product off by at most `u`. -/
theorem rsStep_close {b y t r p z u R : ℚ} (hu : u ≤ 1 / 1000) (hR : R ≤ 1 / 50) (h0 : 1 / 4 ≤ b)
    (h1 : b ≤ 1 / 2) (hy1 : 1 ≤ y) (hy : |1 - b * y ^ 2| ≤ R) (ht : |t - b * y| ≤ u)
    (hr : |r - t * y| ≤ u) (hp : |p - y * (3 - r)| ≤ u) (hz : |z - p * (1 / 2)| ≤ u) :
    1 ≤ z ∧ |1 - b * z ^ 2| ≤ R ^ 2 + 7 * u := by
  have hu0 : 0 ≤ u := (abs_nonneg _).trans ht
  have hR0 : 0 ≤ R := (abs_nonneg _).trans hy
  obtain ⟨y1, y2, y3⟩ := rs_range hR h0 h1 hy1 hy
  have hy' := abs_le.1 (hy.trans hR)
  set ρ := 1 - b * y ^ 2 with hρ
  obtain ⟨e, he⟩ : ∃ e, e = z - y * (1 + ρ / 2) := ⟨_, rfl⟩
  have be : |e| ≤ 46 / 10 * u := by
    have k1 : |(t - b * y) * y| ≤ u * (203 / 100) := by
      rw [abs_mul]; exact mul_le_mul ht (by rw [abs_of_pos (by linarith)]; exact y2) (abs_nonneg _) hu0
    have k2 : |(r - t * y) + (t - b * y) * y| ≤ 303 / 100 * u := by
      have := abs_add_le (r - t * y) ((t - b * y) * y)
      linarith
    have k3 : |y * ((r - t * y) + (t - b * y) * y)| ≤ 203 / 100 * (303 / 100 * u) := by
      rw [abs_mul]; exact mul_le_mul (by rw [abs_of_pos (by linarith)]; exact y2) k2 (abs_nonneg _) (by norm_num)
    have ee : e = (z - p * (1 / 2)) + ((p - y * (3 - r)) * (1 / 2)
        - y * ((r - t * y) + (t - b * y) * y) * (1 / 2)) := by
      rw [he, hρ]; ring
    rw [ee]
    have t1 := abs_add_le (z - p * (1 / 2)) ((p - y * (3 - r)) * (1 / 2)
        - y * ((r - t * y) + (t - b * y) * y) * (1 / 2))
    have t2 := abs_sub ((p - y * (3 - r)) * (1 / 2)) (y * ((r - t * y) + (t - b * y) * y) * (1 / 2))
    have t3 : |(p - y * (3 - r)) * (1 / 2)| ≤ u * (1 / 2) := by
      rw [abs_mul, abs_of_pos (show (0 : ℚ) < 1 / 2 by norm_num)]
      linarith
    have t4 : |y * ((r - t * y) + (t - b * y) * y) * (1 / 2)| ≤ 203 / 100 * (303 / 100 * u) * (1 / 2) := by
      rw [abs_mul, abs_of_pos (show (0 : ℚ) < 1 / 2 by norm_num)]
      linarith
    linarith
  have hzy : z = y * (1 + ρ / 2) + e := by rw [he]; ring
  have he' := abs_le.1 be
  constructor
  · rw [hzy]
    nlinarith [hy'.1, he'.1]
  · have key : 1 - b * z ^ 2 = (3 / 4 * ρ ^ 2 + 1 / 4 * ρ ^ 3) - (b * y * (1 + ρ / 2) * (2 * e) + b * e * e) := by
      have hby : b * y ^ 2 = 1 - ρ := by rw [hρ]; ring
      have : b * z ^ 2 = (b * y ^ 2) * (1 + ρ / 2) ^ 2 + (b * y * (1 + ρ / 2) * (2 * e) + b * e * e) := by
        rw [hzy]; ring
      rw [this, hby]; ring
    have k1 : |3 / 4 * ρ ^ 2 + 1 / 4 * ρ ^ 3| ≤ R ^ 2 := by
      have e1 : 3 / 4 * ρ ^ 2 + 1 / 4 * ρ ^ 3 = ρ ^ 2 * (3 / 4 + 1 / 4 * ρ) := by ring
      have e2 : ρ ^ 2 ≤ R ^ 2 := sq_le_sq' (by linarith [(abs_le.1 hy).1]) (abs_le.1 hy).2
      rw [e1, abs_mul, abs_of_nonneg (sq_nonneg ρ), abs_of_nonneg (by linarith [hy'.1])]
      nlinarith [hy'.1, hy'.2, sq_nonneg ρ]
    have k2 : |b * y * (1 + ρ / 2) * (2 * e)| ≤ 72 / 100 * (101 / 100) * (2 * (46 / 10 * u)) := by
      rw [abs_mul, abs_mul 2, abs_two]
      refine mul_le_mul ?_ (by linarith) (by positivity) (by norm_num)
      rw [abs_of_nonneg (mul_nonneg (mul_nonneg (by linarith) (by linarith)) (by linarith [hy'.1]))]
      exact mul_le_mul y3 (by linarith [hy'.2]) (by linarith [hy'.1]) (by norm_num)
    have k3 : |b * e * e| ≤ 1 / 2 * (46 / 10 * u) * (46 / 10 * (1 / 1000)) := by
      rw [abs_mul, abs_mul, abs_of_pos (show 0 < b by linarith)]
      exact mul_le_mul (mul_le_mul h1 be (abs_nonneg _) (by norm_num)) (by linarith) (abs_nonneg _) (by linarith)
    rw [key]
    have t1 := abs_sub (3 / 4 * ρ ^ 2 + 1 / 4 * ρ ^ 3) (b * y * (1 + ρ / 2) * (2 * e) + b * e * e)
    have t2 := abs_add_le (b * y * (1 + ρ / 2) * (2 * e)) (b * e * e)
    linarith

/-! ## On words -/

/-- Numbers up to 16 and their products do not wrap. -/
theorem small_fits {frac : ℕ} (hw : 3 * frac + 3 ≤ w) (h10 : 10 ≤ frac) {q : ℚ} (h : |q| ≤ 16) :
    |q| * (2 ^ frac * 2 ^ frac) < 2 ^ (w - 2) ∧ |q| * 2 ^ frac < 2 ^ (w - 1) := by
  have h3 := pow_three hw
  have hp : (2 : ℚ) ^ (w - 1) = 2 * 2 ^ (w - 2) := by rw [← pow_succ']; congr 1; omega
  have hN : (1024 : ℚ) ≤ 2 ^ frac := by
    calc (1024 : ℚ) = 2 ^ 10 := by norm_num
      _ ≤ 2 ^ frac := pow_le_pow_right₀ (by norm_num) h10
  rw [hp]
  generalize (2 : ℚ) ^ (w - 2) = W at *
  generalize (2 : ℚ) ^ frac = N at *
  have hNN : 1024 * N ≤ N * N := by nlinarith
  have h1 : |q| * (N * N) ≤ 16 * (N * N) := mul_le_mul_of_nonneg_right h (by positivity)
  have h2 : |q| * N ≤ 16 * N := mul_le_mul_of_nonneg_right h (by positivity)
  have h4 : 1024 * (N * N) ≤ N * (N * N) := by nlinarith
  constructor <;> nlinarith

theorem small_fits' {frac : ℕ} (hw : 3 * frac + 3 ≤ w) (h10 : 10 ≤ frac) {q : ℚ} (h : |q| ≤ 16) :
    |q| * 2 ^ frac < 2 ^ (w - 2) := by
  refine lt_of_le_of_lt ?_ (small_fits hw h10 h).1
  refine mul_le_mul_of_nonneg_left ?_ (abs_nonneg _)
  exact le_mul_of_one_le_left (by positivity) (one_le_pow₀ (by norm_num))

/-- A truncation by `a` bits divides by `2^a`. -/
theorem trunc_real {frac a : ℕ} (hw : 2 ≤ w) {y z : BitVec w} (hr : |real frac y| * 2 ^ frac < 2 ^ (w - 2))
    (hz : TruncOk .heuristic a y z) : |real frac z - real frac y / 2 ^ a| ≤ 1 / 2 ^ frac := by
  have h := (Close.refl frac y).shift hw (by rw [add_zero]; exact hr) hz
  rw [mul_zero, zero_add] at h
  have := h.value (by omega) (by
    have hN : (0 : ℚ) < 2 ^ frac := by positivity
    rw [add_mul, one_div_mul_cancel hN.ne', abs_mul, abs_of_pos (show (0 : ℚ) < 1 / 2 ^ a by positivity)]
    have h1 : 1 / 2 ^ a * |(y.toInt : ℚ) / 2 ^ frac| ≤ |(y.toInt : ℚ) / 2 ^ frac| :=
      mul_le_of_le_one_left (abs_nonneg _) (by
        rw [div_le_one (by positivity)]
        exact one_le_pow₀ (by norm_num))
    have h2 := mul_le_mul_of_nonneg_right h1 hN.le
    have h3 : (2 : ℚ) ^ (w - 1) = 2 * 2 ^ (w - 2) := by rw [← pow_succ']; congr 1; omega
    have h4 : (1 : ℚ) ≤ 2 ^ (w - 2) := one_le_pow₀ (by norm_num)
    unfold real at hr
    linarith)
  unfold real
  rw [div_eq_mul_one_div _ ((2 : ℚ) ^ a), mul_comm _ (1 / (2 : ℚ) ^ a)]
  exact this

theorem unit_small {frac : ℕ} (h10 : 10 ≤ frac) : (1 : ℚ) / 2 ^ frac ≤ 1 / 1000 := by
  refine div_le_div_of_nonneg_left (by norm_num) (by norm_num) ?_
  calc (1000 : ℚ) ≤ 2 ^ 10 := by norm_num
    _ ≤ 2 ^ frac := pow_le_pow_right₀ (by norm_num) h10

theorem RsInitVal.close {frac : ℕ} (hw : 3 * frac + 3 ≤ w) (h10 : 10 ≤ frac) {b z : BitVec w}
    (h : RsInitVal frac b z) (h0 : 1 / 4 ≤ real frac b) (h1 : real frac b ≤ 1 / 2) :
    1 ≤ real frac z ∧ |1 - real frac b * real frac z ^ 2| ≤ 15 / 1000 + 9 * (1 / 2 ^ frac) := by
  obtain ⟨t, v, ht, hv, rfl⟩ := h
  have hu := unit_small h10
  have c1 := const_real (w := w) (frac := frac) (k := 3) (by omega) (q := 47979 / 10000)
    (by rw [abs_of_pos (by norm_num)]; norm_num)
  have c2 := const_real (w := w) (frac := frac) (k := 3) (by omega) (q := 59417 / 10000)
    (by rw [abs_of_pos (by norm_num)]; norm_num)
  have c3 := const_real (w := w) (frac := frac) (k := 3) (by omega) (q := 31855 / 10000)
    (by rw [abs_of_pos (by norm_num)]; norm_num)
  have d1 := abs_le.1 c1
  have d2 := abs_le.1 c2
  have d3 := abs_le.1 c3
  set B := real frac b
  have b1 : |B * real frac (constWord w frac (47979 / 10000))| ≤ 3 := by
    rw [abs_mul, abs_of_pos (by linarith), abs_of_pos (by linarith [d1.1])]
    nlinarith [d1.2]
  have m1 := mul_real (by omega) (small_fits hw h10 (b1.trans (by norm_num))).1 ht
  have e1 := abs_le.1 m1
  have b1' := abs_le.1 b1
  have s1 : real frac (t - constWord w frac (59417 / 10000)) =
      real frac t - real frac (constWord w frac (59417 / 10000)) :=
    sub_real (by omega) (small_fits hw h10 (abs_le.2
      ⟨by linarith [d2.2, e1.1, b1'.1], by linarith [d2.1, e1.2, b1'.2]⟩)).2
  have b2 : |(real frac t - real frac (constWord w frac (59417 / 10000))) * B| ≤ 8 := by
    have : |real frac t - real frac (constWord w frac (59417 / 10000))| ≤ 16 :=
      abs_le.2 ⟨by linarith [d2.2, e1.1, b1'.1], by linarith [d2.1, e1.2, b1'.2]⟩
    rw [abs_mul, abs_of_pos (show 0 < B by linarith)]
    nlinarith [abs_nonneg (real frac t - real frac (constWord w frac (59417 / 10000)))]
  have m2 := mul_real (by omega) (by rw [s1]; exact (small_fits hw h10 (b2.trans (by norm_num))).1) hv
  rw [s1] at m2
  have e2 := abs_le.1 m2
  have b2' := abs_le.1 b2
  have s2 : real frac (v + constWord w frac (31855 / 10000)) =
      real frac v + real frac (constWord w frac (31855 / 10000)) :=
    add_real (by omega) (small_fits hw h10 (abs_le.2
      ⟨by linarith [d3.1, e2.1, b2'.1], by linarith [d3.2, e2.2, b2'.2]⟩)).2
  rw [s2]
  exact rsInit_close hu h0 h1 c1 m1 c2 m2 c3

theorem const_int {frac c : ℕ} (hw : frac + 3 ≤ w) (hc : c < 4) : real frac (constWord w frac c) = c := by
  have hN : (0 : ℚ) < 2 ^ frac := by positivity
  have e : Fixed.toInt ((c : ℚ) * 2 ^ frac) = c * 2 ^ frac := by
    have : (c : ℚ) * 2 ^ frac = ((c * 2 ^ frac : ℤ) : ℚ) := by push_cast; rfl
    rw [this, Fixed.toInt_intCast]
  have h := real_of_int (frac := frac) (w := w) (z := constWord w frac c) (V := c * 2 ^ frac) (by omega)
    (by unfold constWord; rw [e]) (by
      push_cast
      rw [mul_div_cancel_right₀ _ hN.ne', abs_of_nonneg (by positivity)]
      calc (c : ℚ) * 2 ^ frac < 4 * 2 ^ frac := mul_lt_mul_of_pos_right (by exact_mod_cast hc) hN
        _ = 2 ^ (frac + 2) := by rw [pow_add]; ring
        _ ≤ 2 ^ (w - 1) := pow_le_pow_right₀ (by norm_num) (by omega))
  rw [h]
  push_cast
  field_simp

theorem RsStepVal.close {frac : ℕ} (hw : 3 * frac + 3 ≤ w) (h10 : 10 ≤ frac) {b y z : BitVec w}
    (h : RsStepVal frac b y z) {R : ℚ} (hR : R ≤ 1 / 50) (h0 : 1 / 4 ≤ real frac b)
    (h1 : real frac b ≤ 1 / 2) (hy1 : 1 ≤ real frac y) (hy : |1 - real frac b * real frac y ^ 2| ≤ R) :
    1 ≤ real frac z ∧ |1 - real frac b * real frac z ^ 2| ≤ R ^ 2 + 7 * (1 / 2 ^ frac) := by
  obtain ⟨t, r, p, ht, hr, hp, hz⟩ := h
  have hu := unit_small h10
  obtain ⟨-, y2, y3⟩ := rs_range hR h0 h1 hy1 hy
  have k3 : real frac (constWord w frac 3) = 3 := by exact_mod_cast const_int (w := w) (c := 3) (by omega) (by omega)
  set B := real frac b
  set Y := real frac y
  have b1 : |B * Y| ≤ 72 / 100 := by rw [abs_of_nonneg (mul_nonneg (by linarith) (by linarith))]; exact y3
  have m1 := mul_real (by omega) (small_fits hw h10 (b1.trans (by norm_num))).1 ht
  have e1 := abs_le.1 m1
  have b1' := abs_le.1 b1
  have b2 : |real frac t * Y| ≤ 2 := by
    rw [abs_mul, abs_of_pos (show 0 < Y by linarith)]
    have : |real frac t| ≤ 73 / 100 := abs_le.2 ⟨by linarith [e1.1, b1'.1], by linarith [e1.2, b1'.2]⟩
    nlinarith [abs_nonneg (real frac t)]
  have m2 := mul_real (by omega) (small_fits hw h10 (b2.trans (by norm_num))).1 hr
  have e2 := abs_le.1 m2
  have b2' := abs_le.1 b2
  have s1 : real frac (constWord w frac 3 - r) = 3 - real frac r := by
    rw [sub_real (by omega), k3]
    rw [k3]
    exact (small_fits hw h10 (abs_le.2 ⟨by linarith [e2.2, b2'.2], by linarith [e2.1, b2'.1]⟩)).2
  have b3 : |Y * (3 - real frac r)| ≤ 15 := by
    rw [abs_mul, abs_of_pos (show 0 < Y by linarith)]
    have : |3 - real frac r| ≤ 6 := abs_le.2 ⟨by linarith [e2.2, b2'.2], by linarith [e2.1, b2'.1]⟩
    nlinarith [abs_nonneg (3 - real frac r)]
  have m3 := mul_real (by omega) (by rw [s1]; exact (small_fits hw h10 (b3.trans (by norm_num))).1) hp
  rw [s1] at m3
  have e3 := abs_le.1 m3
  have b3' := abs_le.1 b3
  have m4 := trunc_real (a := 1) (by omega) (small_fits' hw h10
    (abs_le.2 ⟨by linarith [e3.1, b3'.1], by linarith [e3.2, b3'.2]⟩)) hz
  rw [pow_one] at m4
  rw [div_eq_mul_one_div] at m4
  exact rsStep_close hu hR h0 h1 hy1 hy m1 m2 m3 m4

/-- The residual after `k` rounds: it starts at `E`, and each round squares it and adds `δ` of
rounding. -/
def rsErr (E δ : ℚ) : ℕ → ℚ
  | 0 => E
  | k + 1 => rsErr (E ^ 2 + δ) δ k

theorem rsErr_le {E δ : ℚ} (h0 : 0 ≤ E) (hd : 0 ≤ δ) (hE : E ≤ 1 / 50) (hδ : δ ≤ 7 / 1000) (k : ℕ) :
    rsErr E δ k ≤ 1 / 50 := by
  induction k generalizing E with
  | zero => exact hE
  | succ k ih =>
    refine ih (by positivity) ?_
    have : E ^ 2 ≤ (1 / 50) ^ 2 := pow_le_pow_left₀ h0 hE 2
    norm_num at this
    linarith

theorem RsIterVal.close {frac : ℕ} (hw : 3 * frac + 3 ≤ w) (h10 : 10 ≤ frac) {b : BitVec w}
    (h0 : 1 / 4 ≤ real frac b) (h1 : real frac b ≤ 1 / 2) (k : ℕ) :
    ∀ {R : ℚ} {y z : BitVec w}, RsIterVal frac b k y z → R ≤ 1 / 50 → 1 ≤ real frac y →
      |1 - real frac b * real frac y ^ 2| ≤ R →
      1 ≤ real frac z ∧ |1 - real frac b * real frac z ^ 2| ≤ rsErr R (7 * (1 / 2 ^ frac)) k := by
  induction k with
  | zero =>
    intro R y z h _ hy1 hy
    rw [show z = y from h]
    exact ⟨hy1, hy⟩
  | succ k ih =>
    intro R y z h hR hy1 hy
    obtain ⟨v, hv, hz⟩ := h
    have hR0 : 0 ≤ R := (abs_nonneg _).trans hy
    obtain ⟨v1, v2⟩ := hv.close hw h10 hR h0 h1 hy1 hy
    refine ih hz ?_ v1 v2
    have : R ^ 2 ≤ (1 / 50) ^ 2 := pow_le_pow_left₀ hR0 hR 2
    have := unit_small h10
    norm_num at *
    linarith

end Verif.Aby3
