import Verif.Aby3.RecipLemmas
import Verif.Aby3.NormProps
import Verif.Aby3.ExpProps

/-!
# C59: the reciprocal is close to the real one

For all tensors, sharings and draws. `real frac v` is the number that the word `v` stands for. The error
is the residual `|1 - x·y|`, the error of `y` relative to `1/x`.
-/

namespace Verif.Aby3

open Verif

variable {w n : ℕ}

attribute [local irreducible] M.All M.Sim

/-! ## Words as numbers -/

theorem mul_real {frac : ℕ} (hw : 2 ≤ w) {u v z : BitVec w}
    (hr : |real frac u * real frac v| * (2 ^ frac * 2 ^ frac) < 2 ^ (w - 2))
    (hz : TruncOk .heuristic frac (u * v) z) :
    |real frac z - real frac u * real frac v| ≤ 1 / 2 ^ frac := by
  have h := (Close.refl frac u).mul_round hw (Close.refl frac v) (by
    rw [add_zero, add_zero, ← abs_mul]; exact hr) hz
  have hN : (1 : ℚ) ≤ 2 ^ frac := one_le_pow₀ (by norm_num)
  have hp : (2 : ℚ) ^ (w - 1) = 2 * 2 ^ (w - 2) := by rw [← pow_succ']; congr 1; omega
  have h1 : (1 : ℚ) ≤ 2 ^ (w - 2) := one_le_pow₀ (by norm_num)
  have h := (h.mono (δ := 1 / 2 ^ frac) (by simp)).value (by omega) (by
    change (|real frac u * real frac v| + _) * _ < _
    have h0 := abs_nonneg (real frac u * real frac v)
    generalize |real frac u * real frac v| = q at *
    have e : (q + 1 / 2 ^ frac) * 2 ^ frac = q * 2 ^ frac + 1 := by field_simp
    have : q * 2 ^ frac ≤ q * (2 ^ frac * 2 ^ frac) := by
      rw [← mul_assoc]
      exact le_mul_of_one_le_right (by positivity) hN
    rw [e, hp]
    linarith)
  exact h

theorem real_of_int {frac : ℕ} (hw : 0 < w) {z : BitVec w} {V : ℤ} (e : z = BitVec.ofInt w V)
    (hr : |(V : ℚ) / 2 ^ frac| * 2 ^ frac < 2 ^ (w - 1)) : real frac z = (V : ℚ) / 2 ^ frac := by
  have hN : (0 : ℚ) < 2 ^ frac := by positivity
  have h := Close.value (frac := frac) hw (z := z) (q := (V : ℚ) / 2 ^ frac) (ε := 0)
    ⟨V, e, by simp⟩ (by rwa [add_zero])
  have := abs_nonpos_iff.1 h
  unfold real
  linarith

theorem add_real {frac : ℕ} (hw : 0 < w) {u v : BitVec w}
    (hr : |real frac u + real frac v| * 2 ^ frac < 2 ^ (w - 1)) :
    real frac (u + v) = real frac u + real frac v := by
  have e : ((u.toInt + v.toInt : ℤ) : ℚ) / 2 ^ frac = real frac u + real frac v := by
    unfold real; push_cast; ring
  rw [← e]
  refine real_of_int hw ?_ (by rw [e]; exact hr)
  rw [Bits.ofInt_add, BitVec.ofInt_toInt, BitVec.ofInt_toInt]

theorem sub_real {frac : ℕ} (hw : 0 < w) {u v : BitVec w}
    (hr : |real frac u - real frac v| * 2 ^ frac < 2 ^ (w - 1)) :
    real frac (u - v) = real frac u - real frac v := by
  have e : ((u.toInt - v.toInt : ℤ) : ℚ) / 2 ^ frac = real frac u - real frac v := by
    unfold real; push_cast; ring
  rw [← e]
  refine real_of_int hw ?_ (by rw [e]; exact hr)
  rw [Bits.ofInt_sub, BitVec.ofInt_toInt, BitVec.ofInt_toInt]

theorem nat_mul_real {frac c : ℕ} (hw : 0 < w) {v : BitVec w}
    (hr : |(c : ℚ) * real frac v| * 2 ^ frac < 2 ^ (w - 1)) :
    real frac (BitVec.ofNat w c * v) = c * real frac v := by
  have e : ((c * v.toInt : ℤ) : ℚ) / 2 ^ frac = c * real frac v := by
    unfold real; push_cast; ring
  rw [← e]
  refine real_of_int hw ?_ (by rw [e]; exact hr)
  rw [Bits.ofInt_mul, BitVec.ofInt_toInt, Bits.ofInt_natCast]

theorem toInt_of_real {frac : ℕ} {v : BitVec w} (hw : 2 * frac + 5 ≤ w)
    (h : |real frac v| ≤ 2 ^ (w - 5 - 2 * frac)) : |v.toInt| < 2 ^ (w - 2) := by
  rw [real, abs_div, abs_of_pos (show (0 : ℚ) < 2 ^ frac by positivity), div_le_iff₀ (by positivity), ← pow_add] at h
  have h' : |((v.toInt : ℤ) : ℚ)| < 2 ^ (w - 2) :=
    lt_of_le_of_lt h (pow_lt_pow_right₀ (by norm_num) (by omega))
  exact_mod_cast h'

/-- A constant of moderate size is encoded to within one unit. -/
theorem const_real {frac k : ℕ} (hw : frac + k + 1 ≤ w) {q : ℚ} (hq : |q| < 2 ^ k) :
    |real frac (constWord w frac q) - q| ≤ 1 / 2 ^ frac := by
  have hN : (0 : ℚ) < 2 ^ frac := by positivity
  obtain ⟨a1, a2, -⟩ := Fixed.toInt_spec (q * 2 ^ frac)
  have e : ((Fixed.toInt (q * 2 ^ frac) : ℤ) : ℚ) / 2 ^ frac * 2 ^ frac = Fixed.toInt (q * 2 ^ frac) := by
    field_simp
  rw [real_of_int (z := constWord w frac q) (V := Fixed.toInt (q * 2 ^ frac)) (by omega) rfl]
  · have : (Fixed.toInt (q * 2 ^ frac) : ℚ) / 2 ^ frac - q =
        ((Fixed.toInt (q * 2 ^ frac) : ℚ) - q * 2 ^ frac) / 2 ^ frac := by field_simp
    rw [this, abs_div, abs_of_pos hN]
    exact div_le_div_of_nonneg_right a2.le hN.le
  · rw [abs_div, abs_of_pos hN, div_mul_cancel₀ _ hN.ne']
    refine a1.trans_lt ?_
    rw [abs_mul, abs_of_pos hN]
    calc |q| * 2 ^ frac < 2 ^ k * 2 ^ frac := mul_lt_mul_of_pos_right hq hN
      _ = 2 ^ (k + frac) := by rw [pow_add]
      _ ≤ 2 ^ (w - 1) := pow_le_pow_right₀ (by norm_num) (by omega)

/-! ## One round -/

/-- One round in exact numbers, every product off by at most `u`: the residual is raised to the fifth
power, up to rounding. -/
theorem quintic {b y t r2 a d u E : ℚ} (hu : u ≤ 1 / 48) (hE : E ≤ 1 / 5)
    (hy : |1 - b * y| ≤ E) (ht : |t - b * y| ≤ u) (hr2 : |r2 - (1 - t) * (1 - t)| ≤ u)
    (ha : |a - y * (r2 + 1)| ≤ u) (hd : |d - a * ((1 - t) + r2)| ≤ u) :
    |1 - b * (y + d)| ≤ E ^ 5 + 2 * u * (|b| + 3) := by
  have hu0 : 0 ≤ u := (abs_nonneg _).trans ht
  have hE0 : 0 ≤ E := (abs_nonneg _).trans hy
  set r := 1 - b * y with hr
  obtain ⟨e1, he1⟩ : ∃ e, e = b * y - t := ⟨_, rfl⟩
  obtain ⟨e2, he2⟩ : ∃ e, e = r2 - (1 - t) * (1 - t) := ⟨_, rfl⟩
  obtain ⟨e3, he3⟩ : ∃ e, e = a - y * (r2 + 1) := ⟨_, rfl⟩
  obtain ⟨e4, he4⟩ : ∃ e, e = d - a * ((1 - t) + r2) := ⟨_, rfl⟩
  have b1 : |e1| ≤ u := by rw [he1, abs_sub_comm]; exact ht
  have b2 : |e2| ≤ u := by rw [he2]; exact hr2
  have b3 : |e3| ≤ u := by rw [he3]; exact ha
  have b4 : |e4| ≤ u := by rw [he4]; exact hd
  have hrb : |r| ≤ 1 / 5 := hy.trans hE
  have et : 1 - t = r + e1 := by rw [he1, hr]; ring
  obtain ⟨D, hD⟩ : ∃ D, D = 2 * r * e1 + e1 * e1 + e2 := ⟨_, rfl⟩
  have er2 : r2 = r ^ 2 + D := by
    have : r2 = e2 + (1 - t) * (1 - t) := by rw [he2]; ring
    rw [this, et, hD]; ring
  have bD : |D| ≤ 143 / 100 * u := by
    have h1 : |2 * r * e1| ≤ 2 / 5 * u := by
      rw [abs_mul, abs_mul, abs_two]
      nlinarith [abs_nonneg r, abs_nonneg e1]
    have h2 : |e1 * e1| ≤ 1 / 48 * u := by
      rw [abs_mul]
      nlinarith [abs_nonneg e1]
    rw [hD]
    refine (abs_add_le _ _).trans ?_
    have := abs_add_le (2 * r * e1) (e1 * e1)
    linarith
  obtain ⟨q, hq⟩ : ∃ q, q = (1 - t) + r2 := ⟨_, rfl⟩
  have bq : |q| ≤ 3 / 10 := by
    have : q = r + r ^ 2 + e1 + D := by rw [hq, et, er2]; ring
    rw [this]
    have h1 : |r ^ 2| ≤ 1 / 25 := by
      rw [abs_pow]; nlinarith [abs_nonneg r]
    have h2 := abs_add_le (r + r ^ 2 + e1) D
    have h3 := abs_add_le (r + r ^ 2) e1
    have h4 := abs_add_le r (r ^ 2)
    linarith
  have key : 1 - b * (y + d) = r ^ 5 - (1 - r) * (D * q + (1 + r ^ 2) * (e1 + D))
      - b * (e3 * q + e4) := by
    have ed : d = (y * (r2 + 1) + e3) * q + e4 := by rw [he4, hq, he3]; ring
    have hby : b * y = 1 - r := by rw [hr]; ring
    have eq : q = r + e1 + (r ^ 2 + D) := by rw [hq, et, er2]
    have : 1 - b * (y + d) = r - (1 - r) * ((r2 + 1) * q) - b * (e3 * q + e4) := by
      rw [ed, hr]
      ring
    rw [this, er2]
    nth_rewrite 1 [eq]
    rw [show D * q = D * (r + e1 + (r ^ 2 + D)) by rw [eq]]
    ring
  rw [key]
  have k1 : |r ^ 5| ≤ E ^ 5 := by rw [abs_pow]; exact pow_le_pow_left₀ (abs_nonneg _) hy 5
  have k2 : |D * q + (1 + r ^ 2) * (e1 + D)| ≤ 3 * u := by
    have h1 : |D * q| ≤ 143 / 100 * u * (3 / 10) := by
      rw [abs_mul]; exact mul_le_mul bD bq (abs_nonneg _) (by positivity)
    have h2 : |1 + r ^ 2| ≤ 26 / 25 := by
      rw [abs_of_nonneg (by positivity)]
      have : r ^ 2 = |r| ^ 2 := (sq_abs r).symm
      rw [this]; nlinarith [abs_nonneg r]
    have h3 : |e1 + D| ≤ 243 / 100 * u := by
      have := abs_add_le e1 D
      linarith
    have h4 : |(1 + r ^ 2) * (e1 + D)| ≤ 26 / 25 * (243 / 100 * u) := by
      rw [abs_mul]; exact mul_le_mul h2 h3 (abs_nonneg _) (by positivity)
    have := abs_add_le (D * q) ((1 + r ^ 2) * (e1 + D))
    linarith
  have k3 : |(1 - r) * (D * q + (1 + r ^ 2) * (e1 + D))| ≤ 6 / 5 * (3 * u) := by
    have h1 : |1 - r| ≤ 6 / 5 := by
      rw [abs_le] at hrb ⊢
      constructor <;> linarith [hrb.1, hrb.2]
    rw [abs_mul]; exact mul_le_mul h1 k2 (abs_nonneg _) (by positivity)
  have k4 : |b * (e3 * q + e4)| ≤ |b| * (2 * u) := by
    rw [abs_mul]
    refine mul_le_mul_of_nonneg_left ?_ (abs_nonneg _)
    have h1 : |e3 * q| ≤ u * (3 / 10) := by
      rw [abs_mul]; exact mul_le_mul b3 bq (abs_nonneg _) hu0
    have := abs_add_le (e3 * q) e4
    linarith
  have t1 := abs_sub (r ^ 5 - (1 - r) * (D * q + (1 + r ^ 2) * (e1 + D))) (b * (e3 * q + e4))
  have t2 := abs_sub (r ^ 5) ((1 - r) * (D * q + (1 + r ^ 2) * (e1 + D)))
  linarith

theorem pow_three {frac : ℕ} (hw : 3 * frac + 3 ≤ w) :
    (2 : ℚ) * (2 ^ frac * (2 ^ frac * 2 ^ frac)) ≤ 2 ^ (w - 2) := by
  calc (2 : ℚ) * (2 ^ frac * (2 ^ frac * 2 ^ frac)) = 2 ^ (3 * frac + 1) := by
        rw [pow_succ, show 3 * frac = frac + (frac + frac) by ring, pow_add, pow_add]; ring
    _ ≤ 2 ^ (w - 2) := pow_le_pow_right₀ (by norm_num) (by omega)

set_option maxHeartbeats 800000 in
/-- One round on words. -/
theorem StepVal.close {frac : ℕ} (hw : 3 * frac + 3 ≤ w) {x y z : BitVec w} (h : StepVal frac x y z)
    {E : ℚ} (hx : 1 / 2 ^ frac ≤ |real frac x|) (hE : E ≤ 1 / 5) (hy : |1 - real frac x * real frac y| ≤ E)
    (hδ : 2 * (1 / 2 ^ frac) * (|real frac x| + 3) ≤ 1 / 8) :
    |1 - real frac x * real frac z| ≤ E ^ 5 + 2 * (1 / 2 ^ frac) * (|real frac x| + 3) := by
  obtain ⟨t, r2, a, d, ht, hr2, ha, hd, rfl⟩ := h
  have hN : (0 : ℚ) < 2 ^ frac := by positivity
  have h3 := pow_three hw
  have hp : (2 : ℚ) ^ (w - 1) = 2 * 2 ^ (w - 2) := by rw [← pow_succ']; congr 1; omega
  have hone : real frac (constWord w frac 1) = 1 := constWord_one (by omega)
  set b := real frac x
  set Y := real frac y
  have hu : (1 : ℚ) / 2 ^ frac ≤ 1 / 48 := by
    have := abs_nonneg b
    have h0 : (0 : ℚ) < 1 / 2 ^ frac := by positivity
    nlinarith
  have hN48 : (48 : ℚ) ≤ 2 ^ frac := by
    rw [div_le_div_iff₀ hN (by norm_num)] at hu
    linarith
  have hu' : (1 : ℚ) / 2 ^ frac * 2 ^ frac = 1 := by field_simp
  generalize hu0 : (1 : ℚ) / 2 ^ frac = u at *
  generalize hNN : (2 : ℚ) ^ frac = N at *
  generalize hW : (2 : ℚ) ^ (w - 2) = W at *
  have hNN2 : (48 : ℚ) * N ≤ N * N := by nlinarith
  have hNN3 : 48 * (N * N) ≤ N * (N * N) := by nlinarith
  have hby : |b * Y| ≤ 6 / 5 := by
    have := hy.trans hE
    rw [abs_le] at this ⊢
    constructor <;> linarith [this.1, this.2]
  have hYb : |Y| ≤ 6 / 5 * N := by
    have h1 : |b| * |Y| ≤ 6 / 5 := by rw [← abs_mul]; exact hby
    have h2 : 1 ≤ |b| * N := by
      have := mul_le_mul_of_nonneg_right hx hN.le
      rwa [hu'] at this
    nlinarith [abs_nonneg Y, mul_nonneg (abs_nonneg Y) (sub_nonneg.2 h2)]
  have big : ∀ {q c : ℚ}, |q| ≤ c → c * 8 ≤ N → |q| * N < 2 * W := by
    intro q c h1 h2
    have : |q| * N ≤ c * N := mul_le_mul_of_nonneg_right h1 hN.le
    nlinarith
  have big2 : ∀ {q c : ℚ}, |q| ≤ c → c ≤ 3 / 2 * N → |q| * (N * N) < W := by
    intro q c h1 h2
    have : |q| * (N * N) ≤ 3 / 2 * N * (N * N) :=
      mul_le_mul_of_nonneg_right (h1.trans h2) (by positivity)
    nlinarith
  -- the products
  have m1 : |real frac t - b * Y| ≤ u := by
    have := mul_real (frac := frac) (by omega) (by rw [hNN, hW]; exact big2 hby (by linarith)) ht
    rwa [hNN, hu0] at this
  set tt := real frac t
  have hr : |1 - tt| ≤ 23 / 100 := by
    have h1 := hy.trans hE
    rw [abs_le] at h1 m1 ⊢
    constructor <;> linarith [h1.1, h1.2, m1.1, m1.2]
  have s1 : real frac (constWord w frac 1 - t) = 1 - tt := by
    rw [sub_real (by omega), hone]
    rw [hone, hNN, hp]
    exact big hr (by linarith)
  have hrr : |(1 - tt) * (1 - tt)| ≤ 529 / 10000 := by
    rw [abs_mul]; nlinarith [abs_nonneg (1 - tt)]
  have m2 : |real frac r2 - (1 - tt) * (1 - tt)| ≤ u := by
    have := mul_real (frac := frac) (by omega) (by rw [s1, hNN, hW]; exact big2 hrr (by linarith)) hr2
    rwa [hNN, hu0, s1] at this
  set R := real frac r2
  have hR : |R| ≤ 8 / 100 := by
    rw [abs_le] at m2 hrr ⊢
    constructor <;> linarith [m2.1, m2.2, hrr.1, hrr.2]
  have s2 : real frac (r2 + constWord w frac 1) = R + 1 := by
    have : |R + 1| ≤ 108 / 100 := by
      rw [abs_le] at hR ⊢
      constructor <;> linarith [hR.1, hR.2]
    rw [add_real (by omega), hone]
    rw [hone, hNN, hp]
    exact big this (by linarith)
  have hya : |Y * (R + 1)| ≤ 13 / 10 * N := by
    have : |R + 1| ≤ 108 / 100 := by
      rw [abs_le] at hR ⊢
      constructor <;> linarith [hR.1, hR.2]
    rw [abs_mul]
    nlinarith [abs_nonneg Y, abs_nonneg (R + 1)]
  have m3 : |real frac a - Y * (R + 1)| ≤ u := by
    have := mul_real (frac := frac) (by omega) (by rw [s2, hNN, hW]; exact big2 hya (by linarith)) ha
    rwa [hNN, hu0, s2] at this
  set A := real frac a
  have hA : |A| ≤ 131 / 100 * N := by
    rw [abs_le] at m3 hya ⊢
    constructor <;> linarith [m3.1, m3.2, hya.1, hya.2]
  have hq : |(1 - tt) + R| ≤ 31 / 100 := by
    have := abs_add_le (1 - tt) R
    linarith
  have s3 : real frac (constWord w frac 1 - t + r2) = (1 - tt) + R := by
    rw [add_real (by omega), s1]
    rw [s1, hNN, hp]
    exact big hq (by linarith)
  have had : |A * ((1 - tt) + R)| ≤ 41 / 100 * N := by
    rw [abs_mul]
    nlinarith [abs_nonneg A, abs_nonneg ((1 - tt) + R)]
  have m4 : |real frac d - A * ((1 - tt) + R)| ≤ u := by
    have := mul_real (frac := frac) (by omega) (by rw [s3, hNN, hW]; exact big2 had (by linarith)) hd
    rwa [hNN, hu0, s3] at this
  set D := real frac d
  have s4 : real frac (y + d) = Y + D := by
    have hD : |Y + D| ≤ 2 * N := by
      rw [abs_le] at m4 had hYb ⊢
      constructor <;> linarith [m4.1, m4.2, had.1, had.2, hYb.1, hYb.2]
    refine add_real (by omega) ?_
    rw [hNN, hp]
    have : |Y + D| * N ≤ 2 * N * N := mul_le_mul_of_nonneg_right hD hN.le
    linarith [mul_pos hN hN]
  rw [s4]
  exact quintic hu hE hy m1 m2 m3 m4

/-- The residual after `k` rounds: it starts at `E`, and each round raises it to the fifth power and
adds `δ` of rounding. -/
def recipErr (E δ : ℚ) : ℕ → ℚ
  | 0 => E
  | k + 1 => recipErr (E ^ 5 + δ) δ k

theorem IterVal.close {frac : ℕ} (hw : 3 * frac + 3 ≤ w) {x : BitVec w} {δ : ℚ}
    (hx : 1 / 2 ^ frac ≤ |real frac x|) (hδ : 2 * (1 / 2 ^ frac) * (|real frac x| + 3) = δ)
    (hδ8 : δ ≤ 1 / 8) (k : ℕ) :
    ∀ {E : ℚ} {y z : BitVec w}, IterVal frac x k y z → E ≤ 1 / 5 →
      |1 - real frac x * real frac y| ≤ E → |1 - real frac x * real frac z| ≤ recipErr E δ k := by
  induction k with
  | zero =>
    intro E y z h _ hy
    rw [show z = y from h]
    exact hy
  | succ k ih =>
    intro E y z h hE hy
    obtain ⟨v, hv, hz⟩ := h
    have h0 : 0 ≤ E := (abs_nonneg _).trans hy
    have h1 := hv.close hw hx hE hy (by rw [hδ]; exact hδ8)
    rw [hδ] at h1
    refine ih hz ?_ h1
    have : E ^ 5 ≤ (1 / 5) ^ 5 := pow_le_pow_left₀ h0 hE 5
    norm_num at this
    linarith

/-! ## The first approximation -/

theorem init_real {frac : ℕ} (hw : frac + 4 ≤ w) {s : BitVec w} (h0 : 0 ≤ real frac s)
    (h1 : real frac s ≤ 1) :
    |real frac (initV frac s) - (29281928 / 10000000 - 2 * real frac s)| ≤ 1 / 2 ^ frac := by
  have hN : (0 : ℚ) < 2 ^ frac := by positivity
  have hN1 : (1 : ℚ) ≤ 2 ^ frac := one_le_pow₀ (by norm_num)
  have hu1 : (1 : ℚ) / 2 ^ frac ≤ 1 := by rw [div_le_one hN]; exact hN1
  have hp : (8 : ℚ) * 2 ^ frac ≤ 2 ^ (w - 1) := by
    calc (8 : ℚ) * 2 ^ frac = 2 ^ (frac + 3) := by rw [pow_add]; ring
      _ ≤ _ := pow_le_pow_right₀ (by norm_num) (by omega)
  have hc := const_real (w := w) (frac := frac) (k := 2) (by omega) (q := 29281928 / 10000000)
    (by rw [abs_of_pos (by norm_num)]; norm_num)
  have e2 : real frac (BitVec.ofNat w 2 * s) = 2 * real frac s := by
    have := nat_mul_real (w := w) (frac := frac) (c := 2) (v := s) (by omega) (by
      rw [abs_of_nonneg (by push_cast; linarith)]
      push_cast
      nlinarith)
    exact_mod_cast this
  unfold initV
  rw [sub_real (by omega), e2]
  · rw [abs_le] at hc ⊢
    constructor <;> linarith [hc.1, hc.2]
  · rw [e2]
    have : |real frac (constWord w frac (29281928 / 10000000)) - 2 * real frac s| ≤ 4 := by
      rw [abs_le] at hc ⊢
      constructor <;> linarith [hc.1, hc.2]
    nlinarith

/-- The line `2.9281928 - 2 s` against `1/s`. -/
theorem line_close {s : ℚ} (h0 : 1 / 2 ≤ s) (h1 : s ≤ 1) :
    |1 - s * (29281928 / 10000000 - 2 * s)| ≤ 719 / 10000 := by
  rw [abs_le]
  constructor <;> nlinarith [sq_nonneg (s - 73204820 / 100000000), mul_nonneg (sub_nonneg.2 h0) (sub_nonneg.2 h1)]

/-- The first approximation in exact numbers: the significand `s` is `b·e` up to `η`. -/
theorem first_close {b s e i y u η : ℚ} (hu : u ≤ 1 / 48) (h0 : 1 / 2 ≤ s) (h1 : s ≤ 1)
    (hη : |s - b * e| ≤ η) (hi : |i - (29281928 / 10000000 - 2 * s)| ≤ u) (hy : |y - i * e| ≤ u) :
    |1 - b * y| ≤ 719 / 10000 + u * (|b| + 1) + 2 * η := by
  have hη0 : 0 ≤ η := (abs_nonneg _).trans hη
  have hu0 : 0 ≤ u := (abs_nonneg _).trans hi
  have hib : |i| ≤ 2 := by
    rw [abs_le] at hi ⊢
    constructor <;> linarith [hi.1, hi.2]
  have key : 1 - b * y = (1 - s * (29281928 / 10000000 - 2 * s))
      + (-(s * (i - (29281928 / 10000000 - 2 * s))) + ((s - b * e) * i - b * (y - i * e))) := by ring
  have k1 : |s * (i - (29281928 / 10000000 - 2 * s))| ≤ u := by
    rw [abs_mul, abs_of_nonneg (by linarith)]
    nlinarith [abs_nonneg (i - (29281928 / 10000000 - 2 * s))]
  have k2 : |(s - b * e) * i| ≤ η * 2 := by
    rw [abs_mul]; exact mul_le_mul hη hib (abs_nonneg _) hη0
  have k3 : |b * (y - i * e)| ≤ |b| * u := by
    rw [abs_mul]; exact mul_le_mul_of_nonneg_left hy (abs_nonneg _)
  have k4 := line_close h0 h1
  rw [key]
  have t1 := abs_add_le (1 - s * (29281928 / 10000000 - 2 * s))
    (-(s * (i - (29281928 / 10000000 - 2 * s))) + ((s - b * e) * i - b * (y - i * e)))
  have t2 := abs_add_le (-(s * (i - (29281928 / 10000000 - 2 * s))))
    ((s - b * e) * i - b * (y - i * e))
  rw [abs_neg] at t2
  have t3 := abs_sub ((s - b * e) * i) (b * (y - i * e))
  linarith

/-- The result on words from a significand and a scale. -/
theorem RecipVal.close {frac prec : ℕ} (hw : 3 * frac + 3 ≤ w) {x s e z : BitVec w}
    (h : RecipVal frac prec x s e z) {η : ℚ} (hx : 1 / 2 ^ frac ≤ |real frac x|)
    (h0 : 1 / 2 ≤ real frac s) (h1 : real frac s ≤ 1) (hη : |real frac s - real frac x * real frac e| ≤ η)
    (he : |real frac e| ≤ 2 ^ frac / 2 + 1)
    (hδ : 2 * (1 / 2 ^ frac) * (|real frac x| + 3) ≤ 1 / 8)
    (hE : 719 / 10000 + 1 / 2 ^ frac * (|real frac x| + 1) + 2 * η ≤ 1 / 5) :
    |1 - real frac x * real frac z| ≤
      recipErr (719 / 10000 + 1 / 2 ^ frac * (|real frac x| + 1) + 2 * η)
        (2 * (1 / 2 ^ frac) * (|real frac x| + 3)) prec := by
  obtain ⟨y, hy, hz⟩ := h
  have hN : (0 : ℚ) < 2 ^ frac := by positivity
  have h3 := pow_three hw
  have hu : (1 : ℚ) / 2 ^ frac ≤ 1 / 48 := by
    have := abs_nonneg (real frac x)
    have h0 : (0 : ℚ) < 1 / 2 ^ frac := by positivity
    nlinarith
  have hN48 : (48 : ℚ) ≤ 2 ^ frac := by
    rw [div_le_div_iff₀ hN (by norm_num)] at hu
    linarith
  refine IterVal.close hw hx rfl hδ prec hz hE ?_
  have hf0 : frac ≠ 0 := by
    rintro rfl
    norm_num at hN48
  have hi := init_real (by omega) (by linarith) h1
  refine first_close hu h0 h1 hη hi (mul_real (by omega) ?_ hy)
  have hib : |real frac (initV frac s)| ≤ 2 := by
    rw [abs_le] at hi ⊢
    constructor <;> linarith [hi.1, hi.2]
  have hp : |real frac (initV frac s) * real frac e| ≤ 2 * (2 ^ frac / 2 + 1) := by
    rw [abs_mul]; exact mul_le_mul hib he (abs_nonneg _) (by norm_num)
  have hNN : (0 : ℚ) < 2 ^ frac * 2 ^ frac := by positivity
  have := mul_le_mul_of_nonneg_right hp hNN.le
  nlinarith

/-- A scale is at most half of the largest. -/
theorem scale_le {frac j : ℕ} (hf : 0 < frac) :
    (2 : ℚ) ^ (2 * frac - 1 - j) / 2 ^ frac ≤ 2 ^ frac / 2 := by
  have hN : (0 : ℚ) < 2 ^ frac := by positivity
  rw [div_le_div_iff₀ hN (by norm_num)]
  calc (2 : ℚ) ^ (2 * frac - 1 - j) * 2 ≤ 2 ^ (2 * frac - 1) * 2 :=
        mul_le_mul_of_nonneg_right (pow_le_pow_right₀ (by norm_num) (by omega)) (by norm_num)
    _ = 2 ^ frac * 2 ^ frac := by rw [← pow_succ, ← pow_add]; congr 1; omega

theorem recipPos_word {rev : BitVec w → BitVec w} (hrev : ∀ v, rev v = v.reverse) {frac m prec : ℕ}
    (h0 : 0 < m) (hm : m ≤ w) (hmf : m < 2 * frac) (hf : 3 * frac + 3 ≤ w) {x z : BitVec w}
    (hx : 0 < x.toNat ∧ x.toNat < 2 ^ (m - 1))
    (hd : 2 * (1 / 2 ^ frac) * (real frac x + 3) ≤ 1 / 8) (hz : RecipPosVal rev frac m prec x z) :
    |1 - real frac x * real frac z| ≤
      recipErr (719 / 10000 + 1 / 2 ^ frac * (real frac x + 3)) (2 * (1 / 2 ^ frac) * (real frac x + 3)) prec := by
  obtain ⟨s, hs1, hr⟩ := hz
  obtain ⟨j, a1, a2, a3, a4, a5, a6⟩ := norm_word hrev h0 hm hmf (by omega) hx hs1
  have hN : (0 : ℚ) < 2 ^ frac := by positivity
  have hw1 : (2 : ℕ) ^ (m - 1) ≤ 2 ^ (w - 1) := Nat.pow_le_pow_right (by decide) (by omega)
  have hxr : real frac x = x.toNat / 2 ^ frac := real_small (by have := hx.2; omega)
  have hx1 : 1 / 2 ^ frac ≤ real frac x := by
    rw [hxr]
    refine div_le_div_of_nonneg_right ?_ hN.le
    exact_mod_cast hx.1
  have hxa : |real frac x| = real frac x := abs_of_nonneg (le_trans (by positivity) hx1)
  have hq : (2 : ℕ) ^ (2 * frac - 1 - j) < 2 ^ (w - 1) := Nat.pow_lt_pow_right (by decide) (by omega)
  have he : real frac (expV rev frac m x) = 2 ^ (2 * frac - 1 - j) / 2 ^ frac := by
    rw [a3, real_small (by rw [BitVec.toNat_twoPow_of_lt (by omega)]; omega),
      BitVec.toNat_twoPow_of_lt (by omega)]
    push_cast
    rfl
  have key := hr.close hf (η := 1 / 2 ^ frac) (by rw [hxa]; exact hx1) a4 a5 a6 (by
      rw [he, abs_of_pos (by positivity)]
      exact (scale_le (by omega)).trans (by linarith)) (by rw [hxa]; exact hd) (by
      rw [hxa]
      linarith)
  rw [hxa] at key
  rw [show (719 / 10000 : ℚ) + 1 / 2 ^ frac * (real frac x + 3) =
    719 / 10000 + 1 / 2 ^ frac * (real frac x + 1) + 2 * (1 / 2 ^ frac) by ring]
  exact key

/-- **C59** (`nonsigned=True`): for every tensor of values `0 < x < 2^(m-1)` for which the rounding
`2·2^-frac·(x + 3)` is at most `1/8`, every sharing and every draw, the call succeeds and every entry
`y` of the result has `|1 - x·y|` at most the residual that `prec` rounds leave of the first one,
`0.0719 + 2^-frac·(x + 3)`. -/
theorem recip_pos {rev : BitVec w → BitVec w} (hrev : ∀ v, rev v = v.reverse) {frac m : ℕ} (prec : ℕ)
    (h0 : 0 < m) (h63 : m ≤ 63) (hm : m ≤ w) (hmf : m < 2 * frac) (hf : 3 * frac + 3 ≤ w)
    {x : T (.arith w n)} {X : Shares (T (.arith w n))} (hX : Holds x X)
    (hx : ∀ i, 0 < (x i).toNat ∧ (x i).toNat < 2 ^ (m - 1))
    (hδ : ∀ i, 2 * (1 / 2 ^ frac) * (real frac (x i) + 3) ≤ 1 / 8) :
    ∃ p, recipPos rev frac m prec X = .ok p ∧ M.All (fun o => ∃ y : T (.arith w n), Holds y o ∧
      ∀ i, |1 - real frac (x i) * real frac (y i)| ≤
        recipErr (719 / 10000 + 1 / 2 ^ frac * (real frac (x i) + 3))
          (2 * (1 / 2 ^ frac) * (real frac (x i) + 3)) prec) p := by
  obtain ⟨F, hF, hs⟩ := recipPos_sim (n := n) hrev prec h0 h63 hm hmf (by omega)
  refine ⟨F X, hF X, (hs (hX.alike 0)).left ?_⟩
  rintro o o' ⟨z, z', hz, -, ho⟩
  refine ⟨z, ho.1, fun i => ?_⟩
  exact recipPos_word hrev h0 hm hmf hf (hx i) (hδ i) (hz i)

/-- One element of a reciprocal with a sign. -/
theorem recipSigned_word {rev : BitVec w → BitVec w} (hrev : ∀ v, rev v = v.reverse) {frac m prec : ℕ}
    (h0 : 0 < m) (hm : m < w) (hmf : m < 2 * frac) (hf : 3 * frac + 3 ≤ w) (hmw : m + frac + 1 ≤ w)
    {x z : BitVec w} (hx : x.toInt.natAbs + 2 ≤ 2 ^ (m - 1)) (hlo : 32 * (1 / 2 ^ frac) ≤ |real frac x|)
    (hhi : 3 * (1 / 2 ^ frac) * (|real frac x| + 1) ≤ 1 / 16) (hz : RecipSignedVal rev frac m prec x z) :
    |1 - real frac x * real frac z| ≤
      recipErr (719 / 10000 + 1 / 2 ^ frac * (3 * |real frac x| + 3 + 2 / |real frac x|))
        (2 * (1 / 2 ^ frac) * (|real frac x| + 3)) prec := by
  obtain ⟨b, s, e, hb, hs1, he1, hr⟩ := hz
  have hN : (0 : ℚ) < 2 ^ frac := by positivity
  have hu0 : (0 : ℚ) < 1 / 2 ^ frac := by positivity
  have hl := hlo
  have hh := hhi
  have hpos : 0 < |real frac x| := lt_of_lt_of_le (by positivity) hl
  have hne : x.toInt ≠ 0 := by
    intro hc
    rw [real, hc] at hpos
    simp at hpos
  obtain ⟨X0, j, a0, a1, a2, a3, a4, a5, a6⟩ :=
    norm_signed_word hrev h0 hm hmf (by omega) hmw hne (hx) hb hs1 he1
  have hax : |real frac x| = x.toInt.natAbs / 2 ^ frac := by
    rw [real, abs_div, abs_of_pos hN, Nat.cast_natAbs]
    push_cast
    rfl
  have hsg : real frac x * sgn x.toInt = |real frac x| := by
    unfold sgn
    rw [real, abs_div, abs_of_pos hN]
    split
    · rename_i h
      rw [abs_of_neg (by exact_mod_cast h)]
      push_cast
      ring
    · rename_i h
      rw [abs_of_nonneg (by exact_mod_cast not_lt.1 h)]
      push_cast
      ring
  have hX0 : |real frac x| ≤ (X0 : ℚ) / 2 ^ frac ∧
      (X0 : ℚ) / 2 ^ frac ≤ |real frac x| + 1 / 2 ^ frac := by
    rw [hax]
    rcases a0 with rfl | rfl
    · exact ⟨le_rfl, by linarith⟩
    · push_cast
      rw [add_div]
      exact ⟨by linarith, le_rfl⟩
  have hP : (X0 : ℚ) / 2 ^ frac * (2 ^ (2 * frac - 1 - j) / 2 ^ frac) ≤ 1 := by
    have hjf : j < 2 * frac := by
      by_contra hc
      have h1 : (2 : ℕ) ^ (2 * frac) ≤ 2 ^ j := Nat.pow_le_pow_right (by decide) (by omega)
      have h2 : (2 : ℕ) ^ (m - 1) ≤ 2 ^ (2 * frac) := Nat.pow_le_pow_right (by decide) (by omega)
      have := hx
      omega
    rw [div_mul_div_comm, div_le_one (by positivity)]
    calc (X0 : ℚ) * 2 ^ (2 * frac - 1 - j) ≤ 2 ^ (j + 1) * 2 ^ (2 * frac - 1 - j) :=
          mul_le_mul_of_nonneg_right (by exact_mod_cast a2.le) (by positivity)
      _ = 2 ^ frac * 2 ^ frac := by rw [← pow_add, ← pow_add]; congr 1; omega
  have hsl := scale_le (frac := frac) (j := j) (by omega)
  have hs2 : |(sgn x.toInt : ℚ)| = 1 := by unfold sgn; split <;> simp
  have hEp : (0 : ℚ) < 2 ^ (2 * frac - 1 - j) / 2 ^ frac := by positivity
  have hr2 := hr
  generalize hS : (2 : ℚ) ^ (2 * frac - 1 - j) / 2 ^ frac = S at *
  generalize hXX : (X0 : ℚ) / 2 ^ frac = Q at *
  set B := real frac x
  have hSB : S ≤ 1 / |B| := by
    rw [le_div_iff₀ hpos]
    nlinarith
  have hη : |real frac s - B * real frac e| ≤ 1 / 2 ^ frac * (|B| + 1 + 1 / |B|) := by
    have key : real frac s - B * real frac e = (real frac s - Q * S) + ((Q - |B|) * S
        - B * (real frac e - sgn x.toInt * S)) := by
      rw [← hsg]; ring
    have k1 : |(Q - |B|) * S| ≤ 1 / 2 ^ frac * (1 / |B|) := by
      rw [abs_mul, abs_of_nonneg (by linarith), abs_of_pos hEp]
      exact mul_le_mul (by linarith) hSB hEp.le hu0.le
    have k2 : |B * (real frac e - sgn x.toInt * S)| ≤ |B| * (1 / 2 ^ frac) := by
      rw [abs_mul]; exact mul_le_mul_of_nonneg_left a6 (abs_nonneg _)
    rw [key]
    have t1 := abs_add_le (real frac s - Q * S) ((Q - |B|) * S
        - B * (real frac e - sgn x.toInt * S))
    have t2 := abs_sub ((Q - |B|) * S) (B * (real frac e - sgn x.toInt * S))
    linarith
  have hu1 : (1 : ℚ) / 2 ^ frac ≤ 1 := by
    rw [div_le_one hN]; exact one_le_pow₀ (by norm_num)
  have h2b : 1 / 2 ^ frac * (2 / |B|) ≤ 1 / 16 := by
    rw [mul_div_assoc', div_le_iff₀ hpos]
    linarith
  have key := hr2.close hf (η := 1 / 2 ^ frac * (|B| + 1 + 1 / |B|)) (by linarith) a3 a4 hη (by
      have h1 : |(sgn x.toInt : ℚ) * S| = S := by rw [abs_mul, hs2, one_mul, abs_of_pos hEp]
      have h2 := abs_add_le (real frac e - sgn x.toInt * S) (sgn x.toInt * S)
      rw [sub_add_cancel, h1] at h2
      linarith) (by nlinarith) (by
      have : 1 / 2 ^ frac * (|B| + 1) + 2 * (1 / 2 ^ frac * (|B| + 1 + 1 / |B|)) =
        3 * (1 / 2 ^ frac) * (|B| + 1) + 1 / 2 ^ frac * (2 / |B|) := by ring
      linarith)
  rw [show 719 / 10000 + 1 / 2 ^ frac * (3 * |B| + 3 + 2 / |B|) =
    719 / 10000 + 1 / 2 ^ frac * (|B| + 1) + 2 * (1 / 2 ^ frac * (|B| + 1 + 1 / |B|)) by ring]
  exact key

/-- **C59** (the default, with a sign): for every tensor of values with `32·2^-frac ≤ |x|`,
`3·2^-frac·(|x| + 1) ≤ 1/16` and `|x| + 2` units at most `2^(m-1)` units, every sharing and every draw,
the call succeeds and every entry `y` of the result has `|1 - x·y|` at most the residual that `prec`
rounds leave of the first one. -/
theorem recip_signed {rev : BitVec w → BitVec w} (hrev : ∀ v, rev v = v.reverse) {frac m : ℕ} (prec : ℕ)
    (h0 : 0 < m) (h63 : m ≤ 63) (hm : m < w) (hcl : 2 ^ Nat.clog 2 m ≤ w) (hmf : m < 2 * frac)
    (hf : 3 * frac + 3 ≤ w) (hmw : m + frac + 1 ≤ w)
    {x : T (.arith w n)} {X : Shares (T (.arith w n))} (hX : Holds x X)
    (hx : ∀ i, (x i).toInt.natAbs + 2 ≤ 2 ^ (m - 1))
    (hlo : ∀ i, 32 * (1 / 2 ^ frac) ≤ |real frac (x i)|)
    (hhi : ∀ i, 3 * (1 / 2 ^ frac) * (|real frac (x i)| + 1) ≤ 1 / 16) :
    ∃ p, recip rev frac m prec X = .ok p ∧ M.All (fun o => ∃ O, o = .ok O ∧ ∃ y : T (.arith w n),
      Holds y O ∧ ∀ i, |1 - real frac (x i) * real frac (y i)| ≤
        recipErr (719 / 10000 + 1 / 2 ^ frac * (3 * |real frac (x i)| + 3 + 2 / |real frac (x i)|))
          (2 * (1 / 2 ^ frac) * (|real frac (x i)| + 3)) prec) p := by
  obtain ⟨F, hF, hs⟩ := recip_sim (n := n) hrev prec h0 h63 hm hcl hmf (by omega)
  refine ⟨F X, hF X, (hs (hX.alike 0)).left ?_⟩
  rintro o o' ⟨O, O', rfl, -, z, z', hz, -, ho⟩
  refine ⟨O, rfl, z, ho.1, fun i => ?_⟩
  exact recipSigned_word hrev h0 hm hmf hf hmw (hx i) (hlo i) (hhi i) (hz i)

/-- **C59** for the default 64-bit configuration (16 fractional bits, 11 integral bits, one round): for
all `2^-11 ≤ |x| ≤ 1023` the relative error is at most `3·10^-4` plus two units of the last place per
unit of `|x| + 3`, and for `1/8 ≤ |x| ≤ 64` the first part is at most `3·10^-6`. -/
theorem recip_default {x : T (.arith 64 n)} {X : Shares (T (.arith 64 n))} (hX : Holds x X)
    (hlo : ∀ i, 1 / 2 ^ 11 ≤ |real 16 (x i)|) (hhi : ∀ i, |real 16 (x i)| ≤ 1023) :
    ∃ p, recip Bits.reverse64 16 27 1 X = .ok p ∧ M.All (fun o => ∃ O, o = .ok O ∧
      ∃ y : T (.arith 64 n), Holds y O ∧ ∀ i,
        |1 - real 16 (x i) * real 16 (y i)| ≤ 3 / 10 ^ 4 + (|real 16 (x i)| + 3) / 2 ^ 15 ∧
        (1 / 8 ≤ |real 16 (x i)| → |real 16 (x i)| ≤ 64 →
          |1 - real 16 (x i) * real 16 (y i)| ≤ 3 / 10 ^ 6 + (|real 16 (x i)| + 3) / 2 ^ 15)) p := by
  obtain ⟨p, hp, h⟩ := recip_signed (rev := Bits.reverse64) Bits.bit_reverse_64 (frac := 16) (m := 27) 1
    (by decide) (by decide) (by decide) (by decide) (by decide) (by decide) (by decide) hX (fun i => by
      have h := hhi i
      rw [real, abs_div, abs_of_pos (show (0 : ℚ) < 2 ^ 16 by positivity), div_le_iff₀ (by positivity)] at h
      have h1 : (((x i).toInt.natAbs : ℕ) : ℚ) ≤ 1023 * 2 ^ 16 := by
        rw [Nat.cast_natAbs]; push_cast; exact h
      have h2 : (x i).toInt.natAbs ≤ 1023 * 2 ^ 16 := by exact_mod_cast h1
      omega) (fun i => by
      have := hlo i
      norm_num at this ⊢
      linarith) (fun i => by
      have := hhi i
      norm_num
      linarith)
  refine ⟨p, hp, h.mono ?_⟩
  rintro o ⟨O, rfl, y, hy, hc⟩
  refine ⟨O, rfl, y, hy, fun i => ?_⟩
  have hci := hc i
  have hl := hlo i
  have hh := hhi i
  have hpos : 0 < |real 16 (x i)| := lt_of_lt_of_le (by norm_num) hl
  simp only [recipErr] at hci
  generalize |1 - real 16 (x i) * real 16 (y i)| = r at *
  generalize |real 16 (x i)| = B at *
  have main : ∀ c : ℚ, 1 / c ≤ B → B ≤ 1023 → 0 < c →
      r ≤ (719 / 10000 + 1 / 2 ^ 16 * (3 * B + 3 + 2 * c)) ^ 5 + (B + 3) / 2 ^ 15 := by
    intro c h1 h2 h3
    have h4 : 2 / B ≤ 2 * c := by
      rw [div_le_iff₀ hpos]
      rw [div_le_iff₀ h3] at h1
      linarith
    have h5 : (719 / 10000 + 1 / 2 ^ 16 * (3 * B + 3 + 2 / B)) ^ 5 ≤
        (719 / 10000 + 1 / 2 ^ 16 * (3 * B + 3 + 2 * c)) ^ 5 := by
      refine pow_le_pow_left₀ (by positivity) ?_ 5
      linarith
    have h6 : 2 * (1 / 2 ^ 16) * (B + 3) = (B + 3) / 2 ^ 15 := by ring
    linarith
  constructor
  · refine (main (2 ^ 11) hl hh (by norm_num)).trans (add_le_add_left ?_ _)
    refine (pow_le_pow_left₀ (by positivity) (show _ ≤ (1968 / 10000 : ℚ) by norm_num; linarith) 5).trans ?_
    norm_num
  · intro h1 h2
    refine (main 8 h1 hh (by norm_num)).trans (add_le_add_left ?_ _)
    refine (pow_le_pow_left₀ (by positivity) (show _ ≤ (752 / 10000 : ℚ) by norm_num; linarith) 5).trans ?_
    norm_num

/-- The hypotheses are met, by `3` and by `-5/2`: the words `3·2^16` and `-5·2^15`. -/
example : (∀ i : Fin 2, 1 / 2 ^ 11 ≤ |real 16 (![196608#64, -163840#64] i)|) ∧
    (∀ i : Fin 2, |real 16 (![196608#64, -163840#64] i)| ≤ 1023) := by
  decide +kernel

/-- The code's comment promises a relative error of `10^-5` after one round (fp.py:101-103). With 16
fractional bits no answer at all is that close to `1/3`. -/
theorem recip_relative_false (y : BitVec 64) : 1 / 10 ^ 5 < |1 - 3 * real 16 y| := by
  have h : (1 : ℚ) ≤ |((2 ^ 16 - 3 * y.toInt : ℤ) : ℚ)| := by
    have : (1 : ℤ) ≤ |2 ^ 16 - 3 * y.toInt| := Int.one_le_abs (by omega)
    exact_mod_cast this
  have e : 1 - 3 * real 16 y = ((2 ^ 16 - 3 * y.toInt : ℤ) : ℚ) / 2 ^ 16 := by
    unfold real
    push_cast
    ring
  rw [e, abs_div, abs_of_pos (show (0 : ℚ) < 2 ^ 16 by positivity), lt_div_iff₀ (by positivity)]
  refine lt_of_lt_of_le ?_ h
  norm_num

/-- A precision that is too small for the normalisation is refused. -/
theorem recip_refused {rev : BitVec w → BitVec w} {frac m : ℕ} (prec : ℕ) (h : 2 * frac ≤ m)
    (X : Shares (T (.arith w n))) : recipPos rev frac m prec X = .error .assertion ∧
      recip rev frac m prec X = .error .assertion := by
  obtain ⟨h1, h2, -⟩ := normalize_refused (rev := rev) h X
  unfold recipPos recip
  rw [h1, h2]
  exact ⟨rfl, rfl⟩

/-- **C59** (secrecy): in both variants, what any one server sees has the same distribution for all
inputs. -/
theorem recip_secrecy {rev : BitVec w → BitVec w} (hrev : ∀ v, rev v = v.reverse) {frac m : ℕ} (prec : ℕ)
    (h0 : 0 < m) (h63 : m ≤ 63) (hm : m < w) (hcl : 2 ^ Nat.clog 2 m ≤ w) (hmf : m < 2 * frac)
    (hf : 2 * frac + 2 ≤ w) (σ : Fin 3) (x x' : T (.arith w n)) :
    (∃ F : Shares (T (.arith w n)) → M (Shares (T (.arith w n))),
      (∀ X, recipPos rev frac m prec X = .ok (F X)) ∧
        M.view σ (share x >>= F) = M.view σ (share x' >>= F)) ∧
    ∃ F : Shares (T (.arith w n)) → M (Except Err (Shares (T (.arith w n)))),
      (∀ X, recip rev frac m prec X = .ok (F X)) ∧
        M.view σ (share x >>= F) = M.view σ (share x' >>= F) := by
  obtain ⟨F, hF, hs⟩ := recipPos_sim (n := n) hrev prec h0 h63 hm.le hmf hf
  obtain ⟨G, hG, hs'⟩ := recip_sim (n := n) hrev prec h0 h63 hm hcl hmf hf
  exact ⟨⟨F, hF, hides_of_sim fun _ _ h => hs h⟩, G, hG, hides_of_sim fun _ _ h => hs' h⟩

end Verif.Aby3
