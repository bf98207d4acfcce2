import Verif.Aby3.Norm
import Verif.Aby3.Exp

/-!
# The reciprocal of a private tensor

`tf_encrypted/protocol/aby3/fp.py`: `_fp_recip_private` (83-110), reached through `reciprocal`
(aby3.py:1580-1588). The tensor is scaled, so every product is truncated by `frac` bits. Numbers
written in the source are exact rationals and are encoded towards zero (`constWord`).
-/

namespace Verif.Aby3

open Verif

variable {w n : ℕ}

/-- `inv_sgf = 2.9281928 - two * sgf` (fp.py:98): `two` is an unscaled constant, so this product is
not truncated; the difference lifts the number to a scaled constant. -/
def recipInit (frac : ℕ) (s : Shares (T (.arith w n))) : Shares (T (.arith w n)) :=
  pubSub (fun _ _ => constWord w frac (29281928 / 10000000))
    (pubBilin (fun u v => emul id id u v) (fun _ _ => BitVec.ofNat w 2) s)

/-- One round of the loop (fp.py:104-108). -/
def recipStep (frac : ℕ) (plan : Option (BitVec w × BitVec w)) (x y : Shares (T (.arith w n))) :
    M (Shares (T (.arith w n))) := do
  let t ← mulS frac plan x y
  let res := pubSub (fun _ _ => constWord w frac 1) t
  let res2 ← mulS frac plan res res
  let a ← mulS frac plan y (addPub res2 fun _ _ => constWord w frac 1)
  let d ← mulS frac plan a (Shares.map₂ (· + ·) res res2)
  return Shares.map₂ (· + ·) y d

/-- The loop over `range(precision)` (fp.py:100). -/
def recipLoop (frac : ℕ) (plan : Option (BitVec w × BitVec w)) (x : Shares (T (.arith w n))) :
    ℕ → Shares (T (.arith w n)) → M (Shares (T (.arith w n)))
  | 0, y => return y
  | k + 1, y => do
    let y ← recipStep frac plan x y
    recipLoop frac plan x k y

/-- `_fp_recip_private` after the normalisation (fp.py:94-110). -/
def recipTail (frac prec : ℕ) (plan : Option (BitVec w × BitVec w)) (x s e : Shares (T (.arith w n))) :
    M (Shares (T (.arith w n))) := do
  let y ← mulS frac plan (recipInit frac s) e
  recipLoop frac plan x prec y

/-- `_fp_recip_private(x, nonsigned=True, precision)`. -/
def recipPos (rev : BitVec w → BitVec w) (frac m prec : ℕ) (x : Shares (T (.arith w n))) :
    Except Err (M (Shares (T (.arith w n)))) :=
  match normalizePos rev frac m x, mulPlan w frac true true with
  | .error e, _ => .error e
  | _, .error e => .error e
  | .ok nrm, .ok plan => .ok do
    let r ← nrm
    recipTail frac prec plan x r.1 r.2

/-- What follows a normalisation that may raise. -/
def recipCont (frac prec : ℕ) (plan : Option (BitVec w × BitVec w)) (x : Shares (T (.arith w n))) :
    Except Err (Shares (T (.arith w n)) × Shares (T (.arith w n))) →
      M (Except Err (Shares (T (.arith w n))))
  | .error e => return .error e
  | .ok r => do
    let y ← recipTail frac prec plan x r.1 r.2
    return .ok y

/-- `_fp_recip_private(x, nonsigned=False, precision)`, the default of `reciprocal`. -/
def recip (rev : BitVec w → BitVec w) (frac m prec : ℕ) (x : Shares (T (.arith w n))) :
    Except Err (M (Except Err (Shares (T (.arith w n))))) :=
  match normalize rev frac m x, mulPlan w frac true true with
  | .error e, _ => .error e
  | _, .error e => .error e
  | .ok nrm, .ok plan => .ok do
    let r ← nrm
    recipCont frac prec plan x r

end Verif.Aby3
