import Verif.Helpers.Model
import Mathlib.RingTheory.Coprime.Lemmas
import Mathlib.Tactic.LinearCombination
import Mathlib.Data.Int.ModEq

/-!
# C15: modular inverses
-/

namespace Verif.Helpers

/-- `egcd` returns Bezout coefficients, for all integers. -/
theorem egcd_bezout (a b : ℤ) : (egcd a b).1 = (egcd a b).2.1 * a + (egcd a b).2.2 * b := by
  induction a, b using egcd.induct with
  | case1 b => simp [egcd]
  | case2 a b h ih =>
    rw [egcd, dif_neg h]
    simp only
    rw [ih]
    have := Int.mul_fdiv_add_fmod b a
    set q := b.fdiv a
    set m := b.fmod a
    set y := (egcd m a).2.1
    set x := (egcd m a).2.2
    rw [← this]; ring

/-- The first component is the greatest common divisor, up to sign. -/
theorem egcd_natAbs (a b : ℤ) : (egcd a b).1.natAbs = Int.gcd a b := by
  induction a, b using egcd.induct with
  | case1 b => simp [egcd]
  | case2 a b h ih =>
    rw [egcd, dif_neg h]
    simp only
    rw [ih]
    have hd := Int.mul_fdiv_add_fmod b a
    have h1 : b.fmod a = b + a * (-(b.fdiv a)) := by linarith
    rw [h1, Int.gcd_add_mul_left_left, Int.gcd_comm]

/-- For non-negative first argument and positive second one it is the gcd itself. -/
theorem egcd_nonneg (a b : ℤ) (ha : 0 ≤ a) (hb : 0 ≤ b) : 0 ≤ (egcd a b).1 := by
  induction a, b using egcd.induct with
  | case1 b => simpa [egcd] using hb
  | case2 a b h ih =>
    rw [egcd, dif_neg h]
    exact ih (Int.fmod_nonneg_of_pos b (by omega)) ha

/-- With a negative first argument the result of `egcd` is negative. -/
theorem egcd_neg (a b : ℤ) (ha : a < 0) : (egcd a b).1 < 0 := by
  induction a, b using egcd.induct with
  | case1 b => omega
  | case2 a b h ih =>
    rw [egcd, dif_neg h]
    simp only
    rcases lt_or_eq_of_le (fmod_nonpos_of_neg b ha) with h' | h'
    · exact ih h'
    · rw [h', egcd]; simpa using ha

/-- **C15** (for `a ≥ 0`): `inverse a m` succeeds exactly when `a` is invertible modulo `m`, and
then returns the number `b` with `0 ≤ b < m` and `a * b ≡ 1 (mod m)`. -/
theorem inverse_correct_partial (a m : ℤ) (ha : 0 ≤ a) (hm : 0 < m) :
    (∀ b, inverse a m = some b ↔ (Int.gcd a m = 1 ∧ 0 ≤ b ∧ b < m ∧ a * b ≡ 1 [ZMOD m])) ∧
    (inverse a m = none ↔ Int.gcd a m ≠ 1) := by
  have hg : (egcd a m).1 = (Int.gcd a m : ℤ) := by
    have h1 := egcd_natAbs a m
    have h2 := egcd_nonneg a m ha hm.le
    omega
  have hbz := egcd_bezout a m
  unfold inverse
  by_cases h : Int.gcd a m = 1
  · have h1 : (egcd a m).1 = 1 := by rw [hg, h]; rfl
    simp only [h1, if_true, h, true_and, Option.some.injEq, reduceCtorEq, ne_eq,
      not_true_eq_false, and_true]
    have hb : a * (egcd a m).2.1.fmod m ≡ 1 [ZMOD m] := by
      have e : (egcd a m).2.1.fmod m = (egcd a m).2.1 - m * (egcd a m).2.1.fdiv m := by
        have := Int.mul_fdiv_add_fmod (egcd a m).2.1 m; linarith
      rw [e]
      rw [h1] at hbz
      apply Int.ModEq.symm
      rw [Int.modEq_iff_dvd]
      refine ⟨-((egcd a m).2.2) - a * (egcd a m).2.1.fdiv m, ?_⟩
      set q := (egcd a m).2.1.fdiv m
      linear_combination -hbz
    intro b
    constructor
    · rintro rfl
      exact ⟨Int.fmod_nonneg_of_pos _ hm, Int.fmod_lt_of_pos _ hm, hb⟩
    · rintro ⟨h0, h1', h2⟩
      have hcop : IsCoprime a m := Int.isCoprime_iff_gcd_eq_one.mpr h
      have hd : m ∣ a * (b - (egcd a m).2.1.fmod m) := by
        have := (hb.trans h2.symm).dvd
        rwa [← mul_sub] at this
      have hd' : m ∣ b - (egcd a m).2.1.fmod m := hcop.symm.dvd_of_dvd_mul_left hd
      have l0 := Int.fmod_nonneg_of_pos (egcd a m).2.1 hm
      have l1 := Int.fmod_lt_of_pos (egcd a m).2.1 hm
      have := Int.eq_zero_of_abs_lt_dvd hd' (by rw [abs_lt]; constructor <;> linarith)
      linarith
  · have h1 : (egcd a m).1 ≠ 1 := by rw [hg]; exact_mod_cast h
    simp [h1, h]

/-- The full claim fails: a negative argument is always rejected, invertible or not. -/
theorem inverse_negative_rejected (a m : ℤ) (ha : a < 0) : inverse a m = none := by
  have := egcd_neg a m ha
  unfold inverse
  rw [if_neg (by omega)]

/-- **C15 is false for negative arguments**: `-3` is invertible modulo `7` (by `2`), yet
`inverse(-3, 7)` raises. -/
theorem inverse_correct_false :
    ¬ ∀ a m : ℤ, 0 < m → Int.gcd a m = 1 → ∃ b, inverse a m = some b ∧ a * b ≡ 1 [ZMOD m] := by
  intro h
  obtain ⟨b, hb, _⟩ := h (-3) 7 (by norm_num) (by decide)
  rw [inverse_negative_rejected (-3) 7 (by norm_num)] at hb
  cases hb

/-- Non-vacuity: the inverses the library computes, e.g. of the scale of `fixed64`. -/
example : inverse 6561 (2^64) = some 15297779988576995937 := by
  rw [(inverse_correct_partial 6561 (2^64) (by norm_num) (by norm_num)).1]
  refine ⟨by decide +kernel, by norm_num, by norm_num, ?_⟩
  decide +kernel
example : inverse 6 9 = none := by
  rw [(inverse_correct_partial 6 9 (by norm_num) (by norm_num)).2]; decide

/-- **C15.** `prod` of a nonempty list is the product of all its elements; of the empty list it
raises. -/
theorem prod_spec (xs : List ℤ) : prod xs = if xs = [] then none else some xs.prod := by
  cases xs with
  | nil => rfl
  | cons x xs =>
    have : ∀ (ys : List ℤ) (a : ℤ), ys.foldl (· * ·) a = a * ys.prod := by
      intro ys
      induction ys with
      | nil => intro a; simp
      | cons y ys ih => intro a; rw [List.foldl_cons, ih, List.prod_cons, mul_assoc]
    simp only [prod, this, List.prod_cons, reduceCtorEq, if_false]

example : prod [1201, 1433, 3] = some 5163099 := by decide

end Verif.Helpers
