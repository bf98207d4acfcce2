import Verif.Aby3.NatExp
import Verif.Aby3.Recip

/-!
# ABY3 powers with `approx_type="as2019"`

`tf_encrypted/protocol/aby3/aby3.py`: `exp2` (5593-5641) and `exp` (5686-5689) for that variant. The
power of the absolute value is computed as in the other variant (`Exp.lean`); for negative numbers the
result is its reciprocal (`reciprocal`, aby3_tensors.py:387-388, fp.py:83-110, with the default
precision 1). The argument `sign` is not used.
-/

namespace Verif.Aby3

open Verif

variable {w n : ℕ}

/-- `z = select(s, g, g.reciprocal())` once the reciprocal is there (aby3.py:5641). -/
def as19Select (s : Shares (T (.bool 1 n))) (g : Shares (T (.arith w n))) :
    Except Err (Shares (T (.arith w n))) → M (Except Err (Shares (T (.arith w n))))
  | .error e => return .error e
  | .ok y => do
    let z ← selectA s (.priv g) (.priv y)
    return .ok z

/-- The call of `reciprocal` (aby3.py:5641); `m` is the number of bits that it looks at. -/
def as19Choose (rev : BitVec w → BitVec w) (frac m : ℕ) (s : Shares (T (.bool 1 n)))
    (g : Shares (T (.arith w n))) : M (Except Err (Shares (T (.arith w n)))) :=
  match recip rev frac m 1 g with
  | .error e => return .error e
  | .ok r => do
    let y ← r
    as19Select s g y

/-- From the bits of the absolute value on (aby3.py:5614-5641). `bits(i_x, 5)` reads the lowest five
bits of the integral part, which is not masked here. -/
def as19Run (rev : BitVec w → BitVec w) (frac m : ℕ) (plan : Option (BitVec w × BitVec w))
    (s : Shares (T (.bool 1 n))) (bits : M (Shares (T (.bool w n)))) :
    M (Except Err (Shares (T (.arith w n)))) := do
  let bp ← bits
  let ix := bshr frac bp
  let fx := andConst (BitVec.ofNat w (2 ^ frac - 1)) bp
  let d ← pow2Run 5 (by omega) (ix.map (bitRows 5))
  let f ← b2aBits fx frac
  let u ← padeRun frac plan f
  let g ← mulBody frac u d
  as19Choose rev frac m s g

/-- `a2b(pos_x)` (aby3.py:5612). -/
def as19Bits (rev : BitVec w → BitVec w) (frac m : ℕ) (plan : Option (BitVec w × BitVec w))
    (s : Shares (T (.bool 1 n))) (p : Shares (T (.arith w n))) : M (Except Err (Shares (T (.arith w n)))) :=
  match a2b none p with
  | .error e => return .error e
  | .ok bits => as19Run rev frac m plan s bits

/-- `exp2(x, approx_type="as2019")` on a scaled tensor (aby3.py:5605-5641). -/
def exp2As (rev : BitVec w → BitVec w) (frac m : ℕ) (x : Shares (T (.arith w n))) :
    Except Err (M (Except Err (Shares (T (.arith w n))))) :=
  if padeDegree frac = 0 then .error .indexError
  else
    match mulPlan w frac true true with
    | .error e => .error e
    | .ok plan => .ok do
      let s ← msb (subPub x fun _ _ => 0)
      let p ← selectA s (.priv x) (.priv (x.map (- ·)))
      as19Bits rev frac m plan s p

/-- `prot.exp2(adjusted_x, approx_type="as2019")` (aby3.py:5689). -/
def expAsCont (rev : BitVec w → BitVec w) (frac m : ℕ) (a : Shares (T (.arith w n))) :
    M (Except Err (Shares (T (.arith w n)))) :=
  match exp2As rev frac m a with
  | .error e => return .error e
  | .ok p => p

/-- `exp(x, approx_type="as2019")` on a scaled tensor (aby3.py:5686-5689). -/
def expAs (rev : BitVec w → BitVec w) (frac m : ℕ) (x : Shares (T (.arith w n))) :
    Except Err (M (Except Err (Shares (T (.arith w n))))) :=
  match mulPlan w frac true true with
  | .error e => .error e
  | .ok plan => .ok do
    let a ← mulConst frac plan log2e x
    expAsCont rev frac m a

end Verif.Aby3
