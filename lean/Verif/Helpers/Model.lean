import Mathlib.Data.Int.GCD
import Mathlib.Tactic.Ring
import Mathlib.Tactic.Linarith

/-!
# Integer helpers

Models `tf_encrypted/tensor/helpers.py`. Python's `%` and `//` round towards minus infinity, which
is `Int.fmod` and `Int.fdiv`.
-/

namespace Verif.Helpers

theorem fmod_nonpos_of_neg (b : ℤ) {a : ℤ} (h : a < 0) : b.fmod a ≤ 0 := by
  have := Int.fmod_nonneg_of_pos (-b) (b := -a) (by omega)
  rw [Int.neg_fmod_neg] at this; omega

theorem lt_fmod_of_neg (b : ℤ) {a : ℤ} (h : a < 0) : a < b.fmod a := by
  have := Int.fmod_lt_of_pos (-b) (b := -a) (by omega)
  rw [Int.neg_fmod_neg] at this; omega

/-- `egcd` (helpers.py 7-11).  Terminates because Python's remainder is smaller in absolute value
than its divisor, also for negative divisors. -/
def egcd (a b : ℤ) : ℤ × ℤ × ℤ :=
  if h : a = 0 then (b, 0, 1)
  else
    let r := egcd (b.fmod a) a
    (r.1, r.2.2 - (b.fdiv a) * r.2.1, r.2.1)
termination_by a.natAbs
decreasing_by
  rcases lt_or_gt_of_ne h with h | h
  · have h1 : b.fmod a ≤ 0 := fmod_nonpos_of_neg b h
    have h2 : a < b.fmod a := lt_fmod_of_neg b h
    omega
  · have := Int.fmod_nonneg_of_pos b h
    have := Int.fmod_lt_of_pos b h
    omega

/-- `gcd` (helpers.py 14-16). -/
def gcd (a b : ℤ) : ℤ := (egcd a b).1

/-- `inverse` (helpers.py 19-22); `none` is the failing `assert g == 1`. -/
def inverse (a m : ℤ) : Option ℤ :=
  if (egcd a m).1 = 1 then some ((egcd a m).2.1.fmod m) else none

/-- `prod` (helpers.py 29-30): `functools.reduce`, which raises on the empty list. -/
def prod : List ℤ → Option ℤ
  | [] => none
  | x :: xs => some (xs.foldl (· * ·) x)

end Verif.Helpers
