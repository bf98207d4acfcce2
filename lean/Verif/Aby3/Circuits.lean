import Verif.Aby3.Model
import Verif.Bits.Prefix

/-!
# Boolean circuits on shared words: adders, carry, conversions

Model of `tf_encrypted/protocol/aby3/aby3.py:3337-3983`.
-/

namespace Verif.Aby3

open Verif

/-- Exceptions raised by the modelled operations. -/
inductive Err
  | valueError | indexError | overflowError | typeError | assertion | notImplemented
deriving DecidableEq, Repr

variable {w n : ℕ}

/-- Xor with the same public word everywhere (`x ^ prot.define_constant(...)`). -/
def xorConst (c : BitVec w) (x : Shares (T (.bool w n))) : Shares (T (.bool w n)) :=
  xorPub x fun _ _ => ⟨c⟩

/-- And with the same public word everywhere. -/
def andConst (c : BitVec w) (x : Shares (T (.bool w n))) : Shares (T (.bool w n)) :=
  bilinPub band x fun _ _ => ⟨c⟩

/-- `_lshift_private` (aby3.py:3248-3266). -/
def bshl (k : ℕ) (x : Shares (T (.bool w n))) : Shares (T (.bool w n)) := x.map (blift (· <<< k))
/-- `_rshift_private` (aby3.py:3285-3303), arithmetic shift of each component. -/
def bsar (k : ℕ) (x : Shares (T (.bool w n))) : Shares (T (.bool w n)) :=
  x.map (blift (·.sshiftRight k))
/-- `_logical_rshift_private` (aby3.py:3305-3323). -/
def bshr (k : ℕ) (x : Shares (T (.bool w n))) : Shares (T (.bool w n)) := x.map (blift (· >>> k))

/-- Componentwise xor of two sharings. -/
def bxor2 (x y : Shares (T (.bool w n))) : Shares (T (.bool w n)) := Shares.map₂ (· + ·) x y

/-! ## Adders -/

/-- A natural number stored as a double (`np.ones(x.shape) * keep_masks[i]`, aby3.py:3502). Only
ever applied to `2^m - 1`, where rounding to 53 bits is never a tie. -/
def f64 (m : ℕ) : ℕ :=
  if m < 2 ^ 53 then m
  else (m + 2 ^ (Nat.log 2 m - 52 - 1)) / 2 ^ (Nat.log 2 m - 52) * 2 ^ (Nat.log 2 m - 52)

/-- `keep_masks[i]` of the Kogge-Stone adder as the constant that is really defined
(aby3.py:3486-3488, 3501-3504). -/
def ksMask (w i : ℕ) : BitVec w := BitVec.ofNat w (f64 ((1 <<< 2 ^ i) - 1))

/-- The loop of `_ppa_kogge_stone_private_private` (aby3.py:3500-3523). -/
def ksLoop (mask : ℕ → BitVec w) : List ℕ → Shares (T (.bool w n)) → Shares (T (.bool w n)) →
    M (Shares (T (.bool w n)))
  | [], G, _ => return G
  | i :: is, G, P => do
    let G1 := bshl (2 ^ i) G
    let P1 := bshl (2 ^ i) P
    let P1 := xorConst (mask i) P1
    let PG1 ← band2 P G1
    let G' := bxor2 G PG1
    let P' ← band2 P P1
    ksLoop mask is G' P'

/-- How many rounds run and which mask is applied at the end (aby3.py:3499-3500, 3530-3534), or
the exception: `log2(0)`, `keep_masks[i]` out of range, or `np.array((1 << k) - 1)` not
convertible to `int64`. For `k = 64` that conversion wraps to `-1`. -/
def ksPlan (w : ℕ) : Option ℕ → Except Err (ℕ × Option (BitVec w))
  | none => .ok (Nat.clog 2 w, none)
  | some k =>
    if k = 0 then .error .valueError
    else if Nat.clog 2 w < Nat.clog 2 k then .error .indexError
    else if k < w then
      if k ≤ 64 then
        .ok (Nat.clog 2 k, some ((BitVec.ofNat 64 ((1 <<< k) - 1)).signExtend w))
      else .error .overflowError
    else .ok (Nat.clog 2 k, none)

/-- `_ppa_kogge_stone_private_private` (aby3.py:3472-3535) once the plan is known. -/
def ksRun (plan : ℕ × Option (BitVec w)) (x y : Shares (T (.bool w n))) :
    M (Shares (T (.bool w n))) := do
  let G ← band2 x y
  let P := bxor2 x y
  let G ← ksLoop (ksMask w) (List.range plan.1) G P
  let C := bshl 1 G
  let z := bxor2 C (bxor2 x y)
  return match plan.2 with
    | none => z
    | some mask => andConst mask z

/-- `ppa` with its default topology (aby3.py:3337-3350). -/
def ppa (nBits : Option ℕ) (x y : Shares (T (.bool w n))) :
    Except Err (M (Shares (T (.bool w n)))) :=
  match ksPlan w nBits with
  | .error e => .error e
  | .ok plan => .ok (ksRun plan x y)

/-- `ppa` on full words, which never fails. -/
def ppaFull (x y : Shares (T (.bool w n))) : M (Shares (T (.bool w n))) :=
  ksRun (Nat.clog 2 w, none) x y

/-- The smearing loop `for j in range(i): G1 = (G1 << (2**j)) ^ G1` (aby3.py:3420-3422). -/
def smear2 (i : ℕ) (G1 : Shares (T (.bool w n))) : Shares (T (.bool w n)) :=
  (List.range i).foldl (fun G1 j => bxor2 (bshl (2 ^ j) G1) G1) G1

/-- The loop of `_ppa_sklansky_private_private` (aby3.py:3406-3461). -/
def skLoop (keep copy : ℕ → BitVec w) : List ℕ → Shares (T (.bool w n)) →
    Shares (T (.bool w n)) → M (Shares (T (.bool w n)))
  | [], G, _ => return G
  | i :: is, G, P => do
    let G1 := smear2 i (bshl 1 (andConst (copy i) G))
    let P1 := smear2 i (bshl 1 (andConst (copy i) P))
    let P1 := xorConst (keep i) P1
    let PG1 ← band2 P G1
    let G' := bxor2 G PG1
    let P' ← band2 P P1
    skLoop keep copy is G' P'

/-- `keep_masks` for 64 bits (aby3.py:3373-3380). -/
def skKeep64 : ℕ → BitVec 64
  | 0 => 0x5555555555555555#64
  | 1 => 0x3333333333333333#64
  | 2 => 0x0F0F0F0F0F0F0F0F#64
  | 3 => 0x00FF00FF00FF00FF#64
  | 4 => 0x0000FFFF0000FFFF#64
  | _ => 0x00000000FFFFFFFF#64

/-- `copy_masks` for 64 bits (aby3.py:3381-3388). -/
def skCopy64 : ℕ → BitVec 64
  | 0 => 0x5555555555555555#64
  | 1 => 0x2222222222222222#64
  | 2 => 0x0808080808080808#64
  | 3 => 0x0080008000800080#64
  | 4 => 0x0000800000008000#64
  | _ => 0x0000000080000000#64

/-- `keep_masks` for 128 bits (aby3.py:3390-3398). -/
def skKeep128 : ℕ → BitVec 128
  | 0 => 0x55555555555555555555555555555555#128
  | 1 => 0x33333333333333333333333333333333#128
  | 2 => 0x0F0F0F0F0F0F0F0F0F0F0F0F0F0F0F0F#128
  | 3 => 0x00FF00FF00FF00FF00FF00FF00FF00FF#128
  | 4 => 0x0000FFFF0000FFFF0000FFFF0000FFFF#128
  | 5 => 0x00000000FFFFFFFF00000000FFFFFFFF#128
  | _ => 0x0000000000000000FFFFFFFFFFFFFFFF#128

/-- `copy_masks` for 128 bits (aby3.py:3399-3407). -/
def skCopy128 : ℕ → BitVec 128
  | 0 => 0x55555555555555555555555555555555#128
  | 1 => 0x22222222222222222222222222222222#128
  | 2 => 0x08080808080808080808080808080808#128
  | 3 => 0x00800080008000800080008000800080#128
  | 4 => 0x00008000000080000000800000008000#128
  | 5 => 0x00000000800000000000000080000000#128
  | _ => 0x00000000000000008000000000000000#128

/-- `_ppa_sklansky_private_private` (aby3.py:3356-3469) with the masks of a word size;
`rounds = ceil(log2(k))`. There is no final mask. -/
def skRun (keep copy : ℕ → BitVec w) (rounds : ℕ) (x y : Shares (T (.bool w n))) :
    M (Shares (T (.bool w n))) := do
  let G ← band2 x y
  let P := bxor2 x y
  let G ← skLoop keep copy (List.range rounds) G P
  let C := bshl 1 G
  return bxor2 C (bxor2 x y)

/-! ## Carry -/

/-- Word size of `factories[k]` for `k` a power of two (tensor/__init__.py:24-42). -/
def facBits (k : ℕ) : ℕ := if k ≤ 8 then 8 else k

/-- The loop of `_carry_computation` (aby3.py:3577-3584) on words of `k = 2^e` bits. -/
def carryLoop {n : ℕ} : (e : ℕ) → Shares (T (.bool (facBits (2 ^ e)) n)) →
    Shares (T (.bool (facBits (2 ^ e)) n)) → M (Shares (T (.bool (facBits 1) n)))
  | 0, G, _ => return G
  | e + 1, G, P => do
    let v := facBits (2 ^ e)
    let G0 : Shares (T (.bool v n)) := (G.map (blift (Bits.gather 0 2))).map (blift (·.setWidth v))
    let G1 : Shares (T (.bool v n)) := (G.map (blift (Bits.gather 1 2))).map (blift (·.setWidth v))
    let P0 : Shares (T (.bool v n)) := (P.map (blift (Bits.gather 0 2))).map (blift (·.setWidth v))
    let P1 : Shares (T (.bool v n)) := (P.map (blift (Bits.gather 1 2))).map (blift (·.setWidth v))
    let G0P1 ← band2 G0 P1
    let G' := bxor2 G1 G0P1
    let P' ← band2 P0 P1
    carryLoop e G' P'

/-- `_carry_computation` (aby3.py:3554-3589) for `pos ≥ 0`, with `k = 2^e` the next power of two
of `pos + 1`. The cast is the identity when `k` is the word size. -/
def carry (pos : ℕ) (x y : Shares (T (.bool w n))) : M (Shares (T (.bool (facBits 1) n))) := do
  let e := Nat.clog 2 (pos + 1)
  let x := bshl (2 ^ e - pos - 1) x
  let y := bshl (2 ^ e - pos - 1) y
  let x := x.map (blift (·.setWidth (facBits (2 ^ e))))
  let y := y.map (blift (·.setWidth (facBits (2 ^ e))))
  let G ← band2 x y
  let P := bxor2 x y
  let G ← carryLoop e G P
  return andConst 1 G

/-! ## Conversions -/

/-- The two operands of the addition circuit in `_a2b_private` (aby3.py:3757-3783) and
`_bit_extract_private` (3844-3872): a fresh boolean sharing of `x0 + x1` and the trivial boolean
sharing of `x2`. -/
def a2bOperands (x : Shares (T (.arith w n))) :
    M (Shares (T (.bool w n)) × Shares (T (.bool w n))) := do
  let op1 ← reshare (zs := .bool w n) id ![toBool ((x 0).1 + (x 0).2), 0, 0]
  let op2 : Shares (T (.bool w n)) := ![(0, 0), (0, toBool (x 1).2), (toBool (x 2).1, 0)]
  return (op1, op2)

/-- `_a2b_private` (aby3.py:3744-3791). -/
def a2b (nBits : Option ℕ) (x : Shares (T (.arith w n))) :
    Except Err (M (Shares (T (.bool w n)))) :=
  match ksPlan w nBits with
  | .error e => .error e
  | .ok plan => .ok do
    let ops ← a2bOperands x
    ksRun plan ops.1 ops.2

/-- `cast(factories[tf.bool])` of one component: a word is true when it is not zero
(tensor/native.py:520, tensor/int128.py:514). -/
def castBool (x : T (.bool w n)) : T (.bool 1 n) := blift (fun v => if v = 0 then 0#1 else 1#1) x

/-- `_bit_extract_private` for a boolean sharing (aby3.py:3836-3838). -/
def bitExtractB (i : ℕ) (x : Shares (T (.bool w n))) : Shares (T (.bool 1 n)) :=
  (andConst 1 (bsar i x)).map castBool

/-- `_bit_extract_private` for an arithmetic sharing (aby3.py:3840-3883). For `i = 0` the carry
circuit is asked for position `-1` and `_zeros_public` raises (3563-3564, 5418-5432). -/
def bitExtract (i : ℕ) (x : Shares (T (.arith w n))) : Except Err (M (Shares (T (.bool 1 n)))) :=
  match i with
  | 0 => .error .typeError
  | i + 1 => .ok do
    let ops ← a2bOperands x
    let c ← carry i ops.1 ops.2
    let P := (andConst 1 (bsar (i + 1) (bxor2 ops.1 ops.2))).map (blift (·.setWidth (facBits 1)))
    return (bxor2 c P).map castBool

/-- `_msb_private` (aby3.py:3889-3892) for words of at least two bits. -/
def msb (x : Shares (T (.arith w n))) : M (Shares (T (.bool 1 n))) := do
  let ops ← a2bOperands x
  let c ← carry (w - 2) ops.1 ops.2
  let P := (andConst 1 (bsar (w - 1) (bxor2 ops.1 ops.2))).map (blift (·.setWidth (facBits 1)))
  return (bxor2 c P).map castBool

theorem msb_eq (x : Shares (T (.arith (w + 2) n))) : bitExtract (w + 2 - 1) x = .ok (msb x) := rfl

/-- `_b2a_private`, method "ppa" (aby3.py:3903-3959). -/
def b2a (x : Shares (T (.bool w n))) : M (Shares (T (.arith w n))) := do
  let x1 ← b2aSharing w n 2
  let x2 ← b2aSharing w n 0
  let neg ← reshare (zs := .bool w n) id ![0, toBool (-toArith x1.1 - toArith x2.1), 0]
  let x0 ← ppaFull x neg
  M.tell 0 (x0 2).1
  M.tell 2 (x0 1).1
  return ![(toArith (reconstruct x0 (some 0)), toArith x1.1), (toArith x1.1, toArith x2.1),
    (toArith x2.1, toArith (reconstruct x0 (some 2)))]

/-- Bit `k` of every element as a single-bit tensor (`_bits_private` aby3.py:5696-5707, native
bits tensor/native.py via shared.py:9-30). -/
def bitAt (k : ℕ) (x : Shares (T (.bool w n))) : Shares (T (.bool 1 n)) :=
  x.map (blift fun v => BitVec.ofBool (v.getLsbD k))

/-- `_b2a_private` when `nbits` is given, or the method is not "ppa" (aby3.py:3961-3973): every bit
is converted with `b2a_single`, scaled by its power of two and summed. The code converts all bits
in one tensor; here they are converted one after the other. -/
def b2aBits (x : Shares (T (.bool w n))) : ℕ → M (Shares (T (.arith w n)))
  | 0 => return fun _ => (0, 0)
  | k + 1 => do
    let acc ← b2aBits x k
    let b ← b2aSingle w (bitAt k x)
    return Shares.map₂ (· + ·) acc (b.map fun v i => v i * BitVec.twoPow w k)

end Verif.Aby3
