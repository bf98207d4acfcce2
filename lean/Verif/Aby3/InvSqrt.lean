import Verif.Aby3.Norm
import Verif.Aby3.Exp

/-!
# The inverse square root of a private tensor

`tf_encrypted/protocol/aby3/fp.py`: `_fp_inv_sqrt_private` (112-118), `approx_sqrt_inv` (249-331),
reached through `inv_sqrt` (aby3.py:1590-1592). The range reduction is `sqrtReduce`. Numbers written in
the source are exact rationals and are encoded towards zero (`constWord`); `np.sqrt(2.0)` is the
double-precision number nearest to the square root of two, and the products and differences the code
forms with it are exact in double precision.
-/

namespace Verif.Aby3

open Verif

variable {w n : ℕ}

/-- `np.sqrt(2.0)`. -/
def root2 : ℚ := 6369051672525773 / 4503599627370496

/-- A private tensor times a number, both scaled. -/
def mulConst (frac : ℕ) (plan : Option (BitVec w × BitVec w)) (q : ℚ) (x : Shares (T (.arith w n))) :
    M (Shares (T (.arith w n))) :=
  mulRound frac plan (bilinPub (fun u v => emul id id u v) x fun _ _ => constWord w frac q)

/-- `((4.7979 * normalized) - 5.9417) * normalized + 3.1855` (fp.py:291). -/
def rsInit (frac : ℕ) (plan : Option (BitVec w × BitVec w)) (b : Shares (T (.arith w n))) :
    M (Shares (T (.arith w n))) := do
  let t ← mulConst frac plan (47979 / 10000) b
  let v ← mulS frac plan (subPub t fun _ _ => constWord w frac (59417 / 10000)) b
  return addPub v fun _ _ => constWord w frac (31855 / 10000)

/-- One round of the loop (fp.py:293-295). The factor 0.5 is a power of two, so the product with it is
a truncation by one bit (`mul_pow2`, aby3.py:1256-1281), with constants `half`. -/
def rsStep (frac : ℕ) (plan : Option (BitVec w × BitVec w)) (half : BitVec w × BitVec w)
    (b y : Shares (T (.arith w n))) :
    M (Shares (T (.arith w n))) := do
  let t ← mulS frac plan b y
  let t ← mulS frac plan t y
  let p ← mulS frac plan y (pubSub (fun _ _ => constWord w frac 3) t)
  heurRun half.1 half.2 1 p

/-- The loop over `range(precision)` (fp.py:293). -/
def rsLoop (frac : ℕ) (plan : Option (BitVec w × BitVec w)) (half : BitVec w × BitVec w)
    (b : Shares (T (.arith w n))) :
    ℕ → Shares (T (.arith w n)) → M (Shares (T (.arith w n)))
  | 0, y => return y
  | k + 1, y => do
    let y ← rsStep frac plan half b y
    rsLoop frac plan half b k y

/-- The inner `select(x, y, bit)` (fp.py:254-259). -/
def rsSelect (frac : ℕ) (x y : ℚ) (bit : Shares (T (.bool 1 n))) : M (Shares (T (.arith w n))) := do
  let t ← mulAbPub (fun _ _ => constWord w frac (x - y)) bit
  return addPub t fun _ _ => constWord w frac y

/-- The two factors between which the parity chooses (fp.py:325-329), for bit 1 and for bit 0. -/
def rsFactors (frac s : ℕ) : ℚ × ℚ :=
  let esk : ℚ := 2 ^ ((frac - s) / 2)
  if (frac + s) % 2 = 0 then (esk, esk * root2) else (esk * root2, esk * 2)

/-- `approx_sqrt_inv` after the range reduction (fp.py:291-331). -/
def rsTail (frac s prec : ℕ) (plan : Option (BitVec w × BitVec w)) (half : BitVec w × BitVec w)
    (b e : Shares (T (.arith w n))) (bit : Shares (T (.bool 1 n))) : M (Shares (T (.arith w n))) := do
  let y ← rsInit frac plan b
  let y ← rsLoop frac plan half b prec y
  let f ← rsSelect frac (rsFactors frac s).1 (rsFactors frac s).2 bit
  let g ← mulS frac plan e f
  mulS frac plan y g

/-- `inv_sqrt(x, precision)` on a scaled tensor. -/
def invSqrt (rev : BitVec w → BitVec w) (frac prec : ℕ) (x : Shares (T (.arith w n))) :
    Except Err (M (Shares (T (.arith w n)))) :=
  match sqrtReduce rev frac x, mulPlan w frac true true, heurPlan w frac 1 with
  | .error e, _, _ => .error e
  | _, .error e, _ => .error e
  | _, _, .error e => .error e
  | .ok red, .ok plan, .ok half => .ok do
    let r ← red
    rsTail frac (w / 2 - frac) prec plan half r.1 r.2.1 r.2.2

end Verif.Aby3
