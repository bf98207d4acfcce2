import Verif.Aby3.Poly
import Verif.Bits.Kernels

/-!
# Normalisation for division, square roots and logarithms

`tf_encrypted/protocol/aby3/fp.py`: `prefix_ORs` (127-141), `__fp_normalize` (197-246), the range
reduction of `_do_fp_log_private` (144-172) and of `approx_sqrt_inv` (249-323). The polynomials that
follow are products and sums of the results. `frac` is `precision_fractional`, `m` is
`precision_fractional + precision_integral`, `rev` is the reversal kernel of the word size
(`Bits.reverse64`, `Bits.reverse128`).
-/

namespace Verif.Aby3

open Verif

variable {w n : ℕ}

/-- The loop of `prefix_ORs` (fp.py:138-140). -/
def orLoopS : ℕ → ℕ → Shares (T (.bool w n)) → M (Shares (T (.bool w n)))
  | 0, _, b => return b
  | r + 1, e, b => do
    let b ← bor2 b (bsar e b)
    orLoopS r (2 * e) b

/-- `prefix_ORs(b, k)` (fp.py:127-141). -/
def prefixOrsS (k : ℕ) (b : Shares (T (.bool w n))) : M (Shares (T (.bool w n))) :=
  orLoopS (Nat.clog 2 k) 1 b

/-- `y = prefix_ORs(b, k)`, `y ^ (y >> 1)` (fp.py:222-223). -/
def topBitS (k : ℕ) (b : Shares (T (.bool w n))) : M (Shares (T (.bool w n))) := do
  let y ← prefixOrsS k b
  return bxor2 y (bsar 1 y)

/-- `(bits << (n - m)) >> (n - m)` (fp.py:216, 159): the second shift is arithmetic. -/
def cutS (m : ℕ) (b : Shares (T (.bool w n))) : Shares (T (.bool w n)) :=
  bsar (w - m) (bshl (w - m) b)

/-- `__fp_normalize` from the bit decomposition on (fp.py:215-244), once the decomposition `bits` and
the truncation `plan` are known: `(sgf, _exp)`. -/
def normCore (rev : BitVec w → BitVec w) (frac m : ℕ) (plan : Option (BitVec w × BitVec w))
    (bits : M (Shares (T (.bool w n)))) (x : Shares (T (.arith w n))) :
    M (Shares (T (.arith w n)) × Shares (T (.arith w n))) := do
  let b ← bits
  let z ← topBitS m (cutS m b)
  let e ← b2aBits (bsar (w - 2 * frac) (z.map (blift rev))) (2 * frac)
  let sgf ← mulS frac plan x e
  return (sgf, e)

/-- `__fp_normalize(x, nonsigned=True)` on a scaled tensor (fp.py:197-246). -/
def normalizePos (rev : BitVec w → BitVec w) (frac m : ℕ) (x : Shares (T (.arith w n))) :
    Except Err (M (Shares (T (.arith w n)) × Shares (T (.arith w n)))) :=
  if m < 2 * frac then
    match a2b (some m) x, mulPlan w frac true true with
    | .error e, _ => .error e
    | _, .error e => .error e
    | .ok bits, .ok plan => .ok (normCore rev frac m plan bits x)
  else .error .assertion

/-- `__fp_normalize(b)` with a sign (fp.py:209-214): `prot.define_constant(two)` is scaled, and so is
the `1` lifted to it, so `sign` is a scaled `±1` and both products with it are truncated. -/
def normalizeRun (rev : BitVec w → BitVec w) (frac m : ℕ) (plan : Option (BitVec w × BitVec w))
    (msb : M (Shares (T (.bool 1 n))))
    (bits : Shares (T (.arith w n)) → Except Err (M (Shares (T (.bool w n)))))
    (b : Shares (T (.arith w n))) :
    M (Except Err (Shares (T (.arith w n)) × Shares (T (.arith w n)))) := do
  let c ← msb
  let t ← mulAbPub (fun _ _ => BitVec.ofNat w (2 * 2 ^ frac)) c
  let sign := pubSub (fun _ _ => BitVec.ofNat w (2 ^ frac)) t
  let x ← mulS frac plan sign b
  match bits x with
  | .error e => return .error e
  | .ok bits => do
    let r ← normCore rev frac m plan bits x
    let exp ← mulS frac plan sign r.2
    return .ok (r.1, exp)

/-- `__fp_normalize(b)` (fp.py:197-246). -/
def normalize (rev : BitVec w → BitVec w) (frac m : ℕ) (b : Shares (T (.arith w n))) :
    Except Err (M (Except Err (Shares (T (.arith w n)) × Shares (T (.arith w n))))) :=
  if m < 2 * frac then
    match bitExtract m b, mulPlan w frac true true with
    | .error e, _ => .error e
    | _, .error e => .error e
    | .ok msb, .ok plan => .ok (normalizeRun rev frac m plan msb (a2b (some m)) b)
  else .error .assertion

/-- The range reduction of `_do_fp_log_private` (fp.py:157-172) with base 2: `(frac, log_exponent)`.
`logn = int(log2(n) + 1) * 2` is written with the integer logarithm. -/
def logCore (rev : BitVec w → BitVec w) (frac m : ℕ) (plan : Option (BitVec w × BitVec w))
    (bits : M (Shares (T (.bool w n)))) (x : Shares (T (.arith w n))) :
    M (Shares (T (.arith w n)) × Shares (T (.arith w n))) := do
  let b ← bits
  let z ← topBitS m (cutS m b)
  let e ← b2aBits (bsar (w - 2 * frac - 1) (z.map (blift rev))) (2 * frac)
  let l ← b2aBits (z.map (blift Bits.xorIndices)) ((Nat.log 2 w + 1) * 2)
  let l := l.map (alift (· <<< frac))
  let l := subPub l fun _ _ => BitVec.ofNat w (frac * 2 ^ frac)
  let f ← mulS frac plan x e
  return (f, l)

/-- The range reduction of `_do_fp_log_private` on a scaled tensor. -/
def logReduce (rev : BitVec w → BitVec w) (frac m : ℕ) (x : Shares (T (.arith w n))) :
    Except Err (M (Shares (T (.arith w n)) × Shares (T (.arith w n)))) :=
  if m < 2 * frac then
    match a2b (some m) x, mulPlan w frac true true with
    | .error e, _ => .error e
    | _, .error e => .error e
    | .ok bits, .ok plan => .ok (logCore rev frac m plan bits x)
  else .error .assertion

/-- The range reduction of `approx_sqrt_inv` (fp.py:262-287, 312-316), with `s = n // 2 - k`:
`(normalized, exponet, lsb)` before the correction by the square root of two. -/
def sqrtCore (rev : BitVec w → BitVec w) (frac s : ℕ) (plan : BitVec w × BitVec w)
    (bits : M (Shares (T (.bool w n)))) (x : Shares (T (.arith w n))) :
    M (Shares (T (.arith w n)) × Shares (T (.arith w n)) × Shares (T (.bool 1 n))) := do
  let b ← bits
  let z ← topBitS w b
  let z := bshl 1 z
  let rz := z.map (blift rev)
  let f ← b2a rz
  let p ← mulS frac none f x
  let normalized ← heurRun plan.1 plan.2 (frac + s) p
  let lsb := bitExtractB 0 (z.map (blift Bits.xorIndices))
  let g ← bor2 rz (bsar 1 rz)
  let exponet ← b2aBits (g.map (blift (Bits.gather 0 2))) (frac + s)
  return (normalized, exponet, lsb)

/-- The range reduction of `approx_sqrt_inv` on a scaled tensor. -/
def sqrtReduce (rev : BitVec w → BitVec w) (frac : ℕ) (x : Shares (T (.arith w n))) :
    Except Err (M (Shares (T (.arith w n)) × Shares (T (.arith w n)) × Shares (T (.bool 1 n)))) :=
  let s := w / 2 - frac
  if s ≤ frac ∧ w % 2 = 0 then
    match a2b (some w) (x.map (alift (· <<< s))), heurPlan w frac (frac + s) with
    | .error e, _ => .error e
    | _, .error e => .error e
    | .ok bits, .ok plan => .ok (sqrtCore rev frac s plan bits x)
  else .error .assertion

end Verif.Aby3
