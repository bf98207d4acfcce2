import Verif.Aby3.Norm
import Verif.Aby3.InvSqrt
import Verif.Aby3.LogReal

/-!
# The logarithm of a private tensor

`tf_encrypted/protocol/aby3/aby3.py`: `_log_private` (4309-4342), reached through `log` (1901-1905), and
`tf_encrypted/protocol/aby3/fp.py`: `_do_fp_log_private` (144-183) with `_fp_log2_private`,
`_fp_log10_private`, `_fp_ln_private` (185-194). The tensors are scaled. Numbers written in the source
are exact rationals and are encoded towards zero (`constWord`).
-/

namespace Verif.Aby3

open Verif

variable {w n : ℕ}

/-- `approx_type` of `log`. -/
inductive LogApprox
  | chebyshev
  | other
  deriving DecidableEq

/-- The polynomial of `_log_private` (aby3.py:4323-4336). -/
def chebRun (frac : ℕ) (plan : Option (BitVec w × BitVec w)) (x : Shares (T (.arith w n))) :
    M (Shares (T (.arith w n))) := do
  let x2 ← mulS frac plan x x
  let x3 ← mulS frac plan x2 x
  let x4 ← mulS frac plan x3 x
  let x5 ← mulS frac plan x2 x3
  let y1 ← mulConst frac plan (chebCoeffs.getD 1 0) x
  let y2 ← mulConst frac plan (chebCoeffs.getD 2 0) x2
  let y3 ← mulConst frac plan (chebCoeffs.getD 3 0) x3
  let y4 ← mulConst frac plan (chebCoeffs.getD 4 0) x4
  let y5 ← mulConst frac plan (chebCoeffs.getD 5 0) x5
  return addPub (Shares.map₂ (· + ·) (Shares.map₂ (· + ·) (Shares.map₂ (· + ·) (Shares.map₂ (· + ·) y5 y4) y3) y2) y1)
    fun _ _ => constWord w frac (chebCoeffs.getD 0 0)

/-- `log(x, approx_type)` (aby3.py:4309-4342). -/
def logPrivate (frac : ℕ) (x : Shares (T (.arith w n))) : LogApprox → Except Err (M (Shares (T (.arith w n))))
  | .chebyshev =>
      match mulPlan w frac true true with
      | .error e => .error e
      | .ok plan => .ok (chebRun frac plan x)
  | .other => .error .notImplemented

/-- The base of `_do_fp_log_private`. -/
inductive LogBase
  | two
  | ten
  | e
  deriving DecidableEq

/-- `adjust = 1.0 / np.log2(base)` (fp.py:156), as the double-precision number that comes out. -/
def LogBase.adjust : LogBase → ℚ
  | .two => 1
  | .ten => 5422874305198591 / 18014398509481984
  | .e => 6243314768165359 / 9007199254740992

/-- `if base != 2.0: log_exponent = log_exponent * adjust` (fp.py:173-174). -/
def adjustExp (frac : ℕ) (plan : Option (BitVec w × BitVec w)) (l : Shares (T (.arith w n))) :
    LogBase → M (Shares (T (.arith w n)))
  | .two => return l
  | b => mulConst frac plan b.adjust l

/-- The polynomial of `_do_fp_log_private` (fp.py:173-183), from the reduced value and the exponent. -/
def fpLogTail (frac : ℕ) (plan : Option (BitVec w × BitVec w)) (base : LogBase) (f l : Shares (T (.arith w n))) :
    M (Shares (T (.arith w n))) := do
  let l ← adjustExp frac plan l base
  let t ← mulConst frac plan (fpCoeffs.getD 2 0 * base.adjust) f
  let v ← mulS frac plan (addPub t fun _ _ => constWord w frac (fpCoeffs.getD 1 0 * base.adjust)) f
  return Shares.map₂ (· + ·) (addPub v fun _ _ => constWord w frac (fpCoeffs.getD 0 0 * base.adjust)) l

/-- `_do_fp_log_private(x, base)` on a scaled tensor. -/
def fpLog (rev : BitVec w → BitVec w) (frac m : ℕ) (base : LogBase) (x : Shares (T (.arith w n))) :
    Except Err (M (Shares (T (.arith w n)))) :=
  match logReduce rev frac m x, mulPlan w frac true true with
  | .error e, _ => .error e
  | _, .error e => .error e
  | .ok red, .ok plan => .ok do
    let r ← red
    fpLogTail frac plan base r.1 r.2

end Verif.Aby3
