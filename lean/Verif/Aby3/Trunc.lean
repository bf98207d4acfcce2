import Verif.Aby3.Circuits

/-!
# ABY3 truncation protocols

Model of the truncations in `tf_encrypted/protocol/aby3/aby3.py`. The scaling base is two, as the
power-of-two shifts in the code require.
-/

namespace Verif.Aby3

open Verif

variable {w n : ℕ}

/-- `msb_mask = 1 << (nbits - 1)` (aby3.py:2867). -/
def msbMask (w : ℕ) : BitVec w := BitVec.twoPow w (w - 1)

/-- `mod_mask = (1 << (nbits - amount - 1)) - 1` (aby3.py:2868). -/
def modMask (w a : ℕ) : BitVec w := BitVec.ofNat w ((1 <<< (w - a - 1)) - 1)

/-- `mod_mask + 1`. -/
def modPow (w a : ℕ) : BitVec w := modMask w a + 1

/-- `s = (r >>> amount) - (h >>> amount)` with `h = r & msb_mask` (aby3.py:2879-2880). -/
def q8s (a : ℕ) (r : BitVec w) : BitVec w := (r >>> a) - ((r &&& msbMask w) >>> a)

/-- `r_msb = h.cast(bool).cast(int)` (aby3.py:2881). -/
def q8m (r : BitVec w) : BitVec w := if r &&& msbMask w = 0 then 0 else 1

/-- `c_prime = (c >> amount) & mod_mask` (aby3.py:2917). -/
def q8c (a : ℕ) (c : BitVec w) : BitVec w := c.sshiftRight a &&& modMask w a

/-- `where(c_msb, u, v)` (aby3.py:2918-2919, 2930-2931). -/
def q8where (c u v : BitVec w) : BitVec w := if c &&& msbMask w = 0 then v else u

/-- `y_prime0` (aby3.py:2917-2920) from the opened `c` and server 0's parts. -/
def q8y0 (a : ℕ) (c s0 m0 : BitVec w) : BitVec w :=
  q8c a c - s0 + q8where c (1 - m0) m0 * modPow w a

/-- `y_prime1` (aby3.py:2930-2932) from the opened `c` and server 1's parts. -/
def q8y1 (a : ℕ) (c s1 m1 : BitVec w) : BitVec w :=
  -s1 + q8where c (-m1) m1 * modPow w a

/-- Elementwise function of three tensors. -/
def alift3 (f : BitVec w → BitVec w → BitVec w → BitVec w) (x y z : T (.arith w n)) :
    T (.arith w n) := fun i => f (x i) (y i) (z i)

/-- `_truncate_msb0_secureq8_private` (aby3.py:2851-2950) for `amount < nbits` (otherwise the
shift amount in `mod_mask` is negative and Python raises). The draws are made in an order of our
choice; `r` comes from server 2's own generator, `y2` from the generator shared by servers 1 and
2, the others from the one shared by servers 0 and 2. -/
def truncQ8 (a : ℕ) (x : Shares (T (.arith w n))) : M (Shares (T (.arith w n))) := do
  let r0 ← M.draw (.arith w n)
  let r ← M.draw (.arith w n)
  let s0 ← M.draw (.arith w n)
  let m0 ← M.draw (.arith w n)
  let y0 ← M.draw (.arith w n)
  let y2 ← M.draw (.arith w n)
  M.tell 2 r0; M.tell 2 s0; M.tell 2 m0; M.tell 2 y0; M.tell 2 y2; M.tell 2 r
  M.tell 0 r0; M.tell 0 s0; M.tell 0 m0; M.tell 0 y0
  M.tell 1 y2
  let r1 := r - r0
  let s1 := alift (q8s a) r - s0
  let m1 := alift q8m r - m0
  M.tell 1 r1; M.tell 1 s1; M.tell 1 m1
  let c0 := (x 0).1 + (x 0).2 + r0
  let c1 := (x 1).2 + r1
  M.tell 0 c1
  M.tell 1 c0
  let yt0 := alift3 (q8y0 a) (c0 + c1) s0 m0 - y0
  let yt1 := alift3 (q8y1 a) (c0 + c1) s1 m1 - y2
  M.tell 0 yt1
  M.tell 1 yt0
  return ![(y0, yt0 + yt1), (yt0 + yt1, y2), (y2, y0)]

/-- `truncate_msb0(·, method="secureq8")` (aby3.py:1448-1454, 2851-2950) with the negative shift
count that Python rejects. -/
def truncMsb0Q8 (a : ℕ) (x : Shares (T (.arith w n))) : Except Err (M (Shares (T (.arith w n)))) :=
  if a + 1 ≤ w then .ok (truncQ8 a x) else .error .valueError

/-- Lines 2685-2690 of `_truncate_heuristic_private` for the constants `lift` and `drop`. -/
def heurRun (lift drop : BitVec w) (a : ℕ) (x : Shares (T (.arith w n))) :
    M (Shares (T (.arith w n))) := do
  let z ← truncQ8 a (addPub x fun _ _ => lift)
  return subPub z fun _ _ => drop

/-- The two constants of `_truncate_heuristic_private` (aby3.py:2684-2690), lifted with the
operand's own scaling factor `2^scale` (1181-1234); a negative shift count raises. -/
def heurPlan (w scale a : ℕ) : Except Err (BitVec w × BitVec w) :=
  if scale + a + 2 ≤ w then
    .ok (BitVec.ofNat w ((1 <<< (w - 2 - scale)) * 2 ^ scale),
      BitVec.ofNat w ((1 <<< (w - 2 - (scale + a))) * 2 ^ scale))
  else .error .valueError

/-- `_truncate_heuristic_private` (aby3.py:2673-2691), the default. `scale` is the number of
fractional bits, or `0` for an unscaled tensor. -/
def truncHeuristic (scale a : ℕ) (x : Shares (T (.arith w n))) :
    Except Err (M (Shares (T (.arith w n)))) :=
  match heurPlan w scale a with
  | .error e => .error e
  | .ok p => .ok (heurRun p.1 p.2 a x)

/-- `_truncate_local_private` (aby3.py:2711-2761). -/
def truncLocal (a : ℕ) (x : Shares (T (.arith w n))) : M (Shares (T (.arith w n))) := do
  let r ← M.draw (.arith w n)
  M.tell 2 r
  M.tell 1 r
  let y0 := alift (·.sshiftRight a) (x 0).1
  let y1 := alift (·.sshiftRight a) ((x 1).1 + (x 1).2) - r
  M.tell 0 y1
  M.tell 2 y0
  return ![(y0, y1), (y1, r), (r, y0)]

/-- `_truncate_local_public` (aby3.py:2694-2708). -/
def truncLocalPub (a : ℕ) (x : Pub (T (.arith w n))) : Pub (T (.arith w n)) :=
  fun i => alift (·.sshiftRight a) (x i)

/-- `logical_rshift(nbits - 1).cast(bool)`. -/
def msbBit (x : T (.arith w n)) : T (.bool 1 n) :=
  castBool (toBool (alift (· >>> (w - 1)) x))

/-- `_truncate_msb0_cheetah_private` (aby3.py:2764-2848). `w_alice` comes from server 0's own
generator and is later placed on server 2; `q` comes from the generator of servers 0 and 1. -/
def truncCheetah (a : ℕ) (x : Shares (T (.arith w n))) : M (Shares (T (.arith w n))) := do
  let xa := (x 0).1 + (x 0).2
  let wa ← M.draw (.bool 1 n)
  M.tell 0 wa
  let s0 := wa + msbBit xa
  let s1 := wa + fun _ => ⟨1#1⟩
  let wb ← ot 0 1 2 s0 s1 (msbBit (x 1).2) (msbBit (x 2).1)
  let q ← M.draw (.bool 1 n)
  M.tell 0 q
  M.tell 1 q
  M.tell 2 (wb + q)
  M.tell 2 wa
  let e ← b2aSingle w ![(wa, q), (q, wb + q), (wb + q, wa)]
  let e := e.map (alift (· <<< (w - a)))
  let z00 := alift (· >>> a) xa - (e 0).1
  M.tell 2 z00
  return ![(z00, -(e 0).2), (-(e 1).1, alift (· >>> a) (x 1).2 - (e 1).2),
    (alift (· >>> a) (x 2).1 - (e 2).1, z00)]

/-- The part of `mul_trunc2` after `r` has been drawn (aby3.py:2506-2562). -/
def mulTrunc2With {n₁ n₂ : ℕ} (f : T (.arith w n₁) → T (.arith w n₂) → T (.arith w n)) (a : ℕ)
    (x : Shares (T (.arith w n₁))) (y : Shares (T (.arith w n₂)))
    (r : Shares (T (.bool w n))) : M (Shares (T (.arith w n))) := do
  let rt := bsar a r
  let r ← b2a r
  let rt ← b2a rt
  let z0 ← zeroSharing (.arith w n)
  let z : Fin 3 → T (.arith w n) := fun i =>
    f (x i).1 (y i).1 + f (x i).1 (y i).2 + f (x i).2 (y i).1 + z0 i - (r i).1
  M.tell 0 (z 1); M.tell 0 (z 2)
  M.tell 1 (z 2); M.tell 1 (z 0)
  M.tell 2 (z 0); M.tell 2 (z 1)
  let p : Pub (T (.arith w n)) := fun _ => alift (·.sshiftRight a) (z 0 + z 1 + z 2)
  return addPub rt p

/-- `_mul_trunc2_private_private` (aby3.py:2492-2562) for two scaled operands, with `f` the local
product. Each server receives the other two masked products. -/
def mulTrunc2 {n₁ n₂ : ℕ} (f : T (.arith w n₁) → T (.arith w n₂) → T (.arith w n)) (a : ℕ)
    (x : Shares (T (.arith w n₁))) (y : Shares (T (.arith w n₂))) :
    M (Shares (T (.arith w n))) := randomSharing (.bool w n) >>= mulTrunc2With f a x y

end Verif.Aby3
