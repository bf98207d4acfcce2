import Verif.Aby3.Poly
import Verif.Aby3.Exp

/-!
# Sigmoid of a private tensor

`tf_encrypted/protocol/aby3/aby3.py`: `_sigmoid_private` (4215-4237). The tensor is scaled. The numbers
in the program are floats; here they are the decimal fractions that are written down.
-/

namespace Verif.Aby3

open Verif

variable {w n : ℕ}

/-- `approx_type`. -/
inductive Pieces
  | three
  | five
  | other
  deriving DecidableEq

/-- `c = (-2.5, 2.5)` (aby3.py:4220). -/
def breaks3 : Fin 2 → ℚ := ![-5 / 2, 5 / 2]

/-- The constant coefficients of line 4221. -/
def consts3 : Fin 3 → ℚ := ![1 / 10 ^ 4, 50 / 100, 1 - 1 / 10 ^ 4]

/-- The coefficients of degree one of line 4221, padded with zeros. -/
def slopes3 : Fin 3 → ℚ := ![0, 17 / 100, 0]

/-- `c = (-4, -1.5, 1.5, 4)` (aby3.py:4223). -/
def breaks5 : Fin 4 → ℚ := ![-4, -3 / 2, 3 / 2, 4]

/-- The constant coefficients of lines 4224-4230. -/
def consts5 : Fin 5 → ℚ := ![1 / 10 ^ 4, 281 / 1000, 5 / 10, 719 / 1000, 1 - 1 / 10 ^ 4]

/-- The coefficients of degree one of lines 4224-4230, padded with zeros. -/
def slopes5 : Fin 5 → ℚ := ![0, 66 / 1000, 212 / 1000, 66 / 1000, 0]

/-- `_sigmoid_private` (aby3.py:4215-4237). -/
def sigmoid (frac : ℕ) (x : Shares (T (.arith w n))) : Pieces → Except Err (M (Shares (T (.arith w n))))
  | .three => piecewise frac true x (fun i => constWord w frac (breaks3 i))
      (fun j => constWord w frac (consts3 j)) [fun j => constWord w frac (slopes3 j)]
  | .five => piecewise frac true x (fun i => constWord w frac (breaks5 i))
      (fun j => constWord w frac (consts5 j)) [fun j => constWord w frac (slopes5 j)]
  | .other => .error .notImplemented

end Verif.Aby3
