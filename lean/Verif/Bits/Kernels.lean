import Verif.Bits.Prefix

/-!
# The bit kernels

Models `/repo/operations/aux/aux_kernels.cc`, the bit kernels of
`/repo/operations/tf_i128/int128_tensor.cc` and `prefix_ORs` (`tf_encrypted/protocol/aby3/fp.py`).
`gather` itself is in `Prefix.lean`. Loops run on fuel that is never used up. Kernels act on each
element of a tensor; the element is modelled. An attribute for which the C++ loop does not end or a
shift is undefined is outside the model (`none`).
-/

namespace Verif.Bits

/-- One line of `u32_reverse` (aux_kernels.cc:115-121, int128_tensor.cc:285-291). -/
def swapStep (s : ℕ) (m v : BitVec 32) : BitVec 32 := ((v >>> s) &&& m) ||| ((v &&& m) <<< s)

/-- `u32_reverse` (aux_kernels.cc:114-125, int128_tensor.cc:284-295). -/
def u32Reverse (v : BitVec 32) : BitVec 32 :=
  let v := swapStep 1 0x55555555#32 v
  let v := swapStep 2 0x33333333#32 v
  let v := swapStep 4 0x0F0F0F0F#32 v
  let v := swapStep 8 0x00FF00FF#32 v
  (v >>> 16) ||| (v <<< 16)

/-- The `i`-th little-endian 32-bit word of memory (`raw[i]`, aux_kernels.cc:131). -/
def word {w : ℕ} (v : BitVec w) (i : ℕ) : BitVec 32 := v.extractLsb' (32 * i) 32

/-- `BitReverse` on 64 bits (aux_kernels.cc:130-136): reverse the two words and swap them. -/
def reverse64 (v : BitVec 64) : BitVec 64 :=
  let raw0 := u32Reverse (word v 0)
  let raw1 := u32Reverse (word v 1)
  raw0 ++ raw1

/-- `CwiseBitReverse` on 128 bits (int128_tensor.cc:297-305): reverse the four words, swap the outer
and the inner ones. -/
def reverse128 (v : BitVec 128) : BitVec 128 :=
  let raw0 := u32Reverse (word v 0)
  let raw1 := u32Reverse (word v 1)
  let raw2 := u32Reverse (word v 2)
  let raw3 := u32Reverse (word v 3)
  (raw0 ++ raw1) ++ (raw2 ++ raw3)

/-- The loop of `XorIndices` (aux_kernels.cc:155-158, int128_tensor.cc:885-888): from position `d`,
with `fuel = w - d`. -/
def xorLoop {w : ℕ} (v : BitVec w) (d : ℕ) (ans : BitVec 64) : ℕ → BitVec 64
  | 0 => ans
  | fuel + 1 =>
      if v = 0 then ans
      else xorLoop (v >>> 1) (d + 1) (if v.getLsbD 0 then ans ^^^ BitVec.ofNat 64 d else ans) fuel

/-- `XorIndices` (aux_kernels.cc:153-160, int128_tensor.cc:883-890), `long ans` converted to the word
type. -/
def xorIndices {w : ℕ} (v : BitVec w) : BitVec w := (xorLoop v 0 0 w).setWidth w

/-- The loop of `i128TensorGatherBits` (int128_tensor.cc:869-872). -/
def gather128Loop (stride : ℕ) (v : BitVec 128) (d i : ℕ) (ans : BitVec 128) : ℕ → BitVec 128
  | 0 => ans
  | fuel + 1 =>
      if v ≠ 0 ∧ d < 128 then
        gather128Loop stride (v >>> stride) (d + stride) (i + 1)
          (if v.getLsbD 0 then ans ||| (1#128 <<< i) else ans) fuel
      else ans

/-- `i128TensorGatherBits` (int128_tensor.cc:860-876); shifting by 128 or more is undefined and a
stride of 0 does not end. -/
def gather128 (start stride : ℕ) (v : BitVec 128) : Option (BitVec 128) :=
  if start < 128 ∧ 1 ≤ stride ∧ stride < 128 then
    some (gather128Loop stride (v >>> start) start 0 0 128)
  else none

/-- `BitSplitAndGather` (aux_kernels.cc:62, 78-101, int128_kernels.cc): one word for each offset,
refused unless the stride divides the width. -/
def splitGather {w : ℕ} (stride : ℕ) (v : BitVec w) : Option (List (BitVec w)) :=
  if stride ≠ 0 ∧ w % stride = 0 then some ((List.range stride).map fun s => gather s stride v)
  else none

/-- The loop of `prefix_ORs` (fp.py:138-140): `e` doubles, the shift is arithmetic (aby3.py:3285). -/
def orLoop {w : ℕ} : ℕ → ℕ → BitVec w → BitVec w
  | 0, _, b => b
  | n + 1, e, b => orLoop n (2 * e) (b ||| b.sshiftRight e)

/-- `prefix_ORs(b, k)` (fp.py:127-141) on the clear word. -/
def prefixOrs {w : ℕ} (k : ℕ) (b : BitVec w) : BitVec w := orLoop (Nat.clog 2 k) 1 b

end Verif.Bits
