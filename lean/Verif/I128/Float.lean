import Verif.I128.Model
import Mathlib.Data.Int.Log
import Mathlib.Data.Rat.Floor

/-!
# The last step of decoding 128-bit words

`tf_encrypted/operations/tf_i128/tf_i128.py`: `decode` (85-107). The quotient of two Python integers is the double
closest to it, and `astype(np.float64)` leaves it alone. Every quotient of a 128-bit word and a scale below `2^800` is
zero or in the range of normal doubles, so that neither overflow nor gradual underflow is modelled.
-/

namespace Verif.I128

/-- The closest integer, the even one of two. -/
def halfEven (q : ℚ) : ℤ :=
  if q - ⌊q⌋ < 1 / 2 then ⌊q⌋
  else if 1 / 2 < q - ⌊q⌋ then ⌊q⌋ + 1
  else if ⌊q⌋ % 2 = 0 then ⌊q⌋ else ⌊q⌋ + 1

/-- The closest double: 53 significant bits, ties to even. -/
def roundDouble (q : ℚ) : ℚ := halfEven (q / 2 ^ (Int.log 2 |q| - 52)) * 2 ^ (Int.log 2 |q| - 52)

/-- `decode` of one entry (tf_i128.py:102-107). -/
def decode64 (scale : ℕ) (p : Limbs) : ℚ := roundDouble (decode scale p)

end Verif.I128
