import Verif.Aby3.InvSqrt

/-!
# The exponential of a private tensor

`tf_encrypted/protocol/aby3/aby3.py`: `_exp_private` (5676-5693) with `approx_type="mp-spdz"`, the
default, and `approx_type="infinity"`. `np.log2(np.e)` is the double-precision number nearest to the
logarithm.
-/

namespace Verif.Aby3

open Verif

variable {w n : ℕ}

/-- `np.log2(np.e)`. -/
def log2e : ℚ := 6497320848556798 / 4503599627370496

/-- `prot.exp2(adjusted_x, approx_type, sign)` (aby3.py:5693). -/
def expCont (frac : ℕ) (sign : SignArg) (a : Shares (T (.arith w n))) :
    M (Except Err (Shares (T (.arith w n)))) :=
  match exp2 frac sign a with
  | .error e => return .error e
  | .ok p => do
    let z ← p
    return .ok z

/-- `exp(x, sign=sign)` on a scaled tensor (aby3.py:5690-5693). -/
def natExp (frac : ℕ) (sign : SignArg) (x : Shares (T (.arith w n))) :
    Except Err (M (Except Err (Shares (T (.arith w n))))) :=
  match mulPlan w frac true true with
  | .error e => .error e
  | .ok plan => .ok do
    let a ← mulConst frac plan log2e x
    expCont frac sign a

/-- `a = a * a`, `k` times (aby3.py:5683-5684). -/
def squares (frac : ℕ) (plan : Option (BitVec w × BitVec w)) :
    ℕ → Shares (T (.arith w n)) → M (Shares (T (.arith w n)))
  | 0, a => return a
  | k + 1, a => do
    let b ← mulS frac plan a a
    squares frac plan k b

/-- `exp(x, approx_type="infinity")` on a scaled tensor (aby3.py:5679-5685). The division by `2^7` is a
truncation (`div`, `mul_pow2`, aby3.py:1272-1308). -/
def expInf (frac : ℕ) (x : Shares (T (.arith w n))) : Except Err (M (Shares (T (.arith w n)))) :=
  match heurPlan w frac 7, mulPlan w frac true true with
  | .error e, _ => .error e
  | _, .error e => .error e
  | .ok p, .ok plan => .ok do
    let t ← heurRun p.1 p.2 7 x
    squares frac plan 7 (addPub t fun _ _ => constWord w frac 1)

end Verif.Aby3
