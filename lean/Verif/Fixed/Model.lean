import Verif.Helpers.Model
import Mathlib.Data.ZMod.Basic
import Mathlib.Data.Nat.Log
import Mathlib.Data.Rat.Floor
import Mathlib.Algebra.Order.Field.Rat

/-!
# Fixed-point configuration, encoding and decoding

Models `tf_encrypted/tensor/fixed.py`, the numeric side of the tensor factories
(`tensor/native.py`, `tensor/int100.py`) and `_encode`/`_decode` of Pond and ABY3.

Floats are exact rationals here. Everything is per element; tensors apply it pointwise.
-/

namespace Verif.Fixed

/-- `FixedpointConfig` (fixed.py 12-53). -/
structure Config where
  base : ℕ
  nbits : ℕ
  pInt : ℕ
  pFrac : ℕ
  matmulThreshold : ℕ
  gap : ℕ
  noninteractive : Bool

namespace Config
/-- `bound_single_precision` (fixed.py 36-39). -/
def boundSingle (c : Config) : ℕ := c.base ^ (c.pInt + c.pFrac)
/-- `bound_double_precision` (fixed.py 41-44). -/
def boundDouble (c : Config) : ℕ := c.base ^ (c.pInt + 2 * c.pFrac)
/-- `bound_intermediate_results` (fixed.py 46-48). -/
def boundIntermediate (c : Config) : ℕ := c.boundDouble * c.matmulThreshold
/-- `scaling_factor` (fixed.py 50-52). -/
def scale (c : Config) : ℕ := c.base ^ c.pFrac
/-- `mask_bitlength` of the interactive truncation (pond.py 2437-2438). -/
def maskBits (c : Config) : ℕ := Nat.clog 2 c.boundDouble + 1 + c.gap
end Config

/-- fixed.py 55-63 -/
def fixed100 : Config := ⟨2, 100, 14, 16, 1024, 40, false⟩
/-- fixed.py 65-73 -/
def fixed100_ni : Config := ⟨2, 100, 14, 16, 1024, 20, true⟩
/-- fixed.py 77-85 -/
def fixed64 : Config := ⟨3, 64, 7, 8, 256, 20, false⟩
/-- fixed.py 87-95 -/
def fixed64_ni : Config := ⟨2, 64, 10, 13, 256, 20, true⟩
/-- fixed.py 97-105 -/
def fixed64_heuristic : Config := ⟨2, 64, 11, 16, 256, 0, false⟩
/-- fixed.py 107-115 -/
def fixed128_heuristic : Config := ⟨2, 128, 20, 32, 256, 0, false⟩

/-- `_validate_fixedpoint_config` (fixed.py 118-152). `ceil(log2 x)` of a positive integer is
`Nat.clog 2 x`, and `k >= log2 m` is `m ≤ 2 ^ k` (the code takes logarithms in floating point;
they are exact here). -/
def validate (c : Config) (modulus : ℕ) : Bool :=
  let check32 := decide (Nat.clog 2 c.boundSingle > 31)
  let check64 := decide (Nat.clog 2 c.boundSingle > 63)
  let truncOverMod := decide (modulus ≤ 2 ^ (Nat.clog 2 c.boundDouble + c.gap))
  !check32 && !check64 && !truncOverMod

/-- The numeric side of a tensor factory.  Elements are residues modulo `modulus`; the integer a
residue stands for is its representative in `[lo, lo + modulus)`. -/
structure Factory where
  modulus : ℕ
  lo : ℤ
  /-- does `sample_bounded(shape, k)` pass its assertion? -/
  boundedOk : ℕ → Bool
  /-- what `to_native` makes of the representative -/
  native : ℤ → ℤ

namespace Factory
variable (F : Factory)
/-- The representative of a residue in the factory's window. -/
def rep (x : ZMod F.modulus) : ℤ := F.lo + ((x.cast : ℤ) - F.lo) % F.modulus
/-- `Tensor.to_native` -/
def toNative (x : ZMod F.modulus) : ℤ := F.native (F.rep x)
end Factory

/-- A native factory of `w` bits without explicit modulus (native.py 81-105, 182-184): values are
two's complement, `sample_bounded` asserts `2^k <= max = 2^(w-1)-1`. -/
def native (w : ℕ) : Factory where
  modulus := 2 ^ w
  lo := -2 ^ (w - 1)
  boundedOk k := decide ((2 ^ k : ℤ) ≤ 2 ^ (w - 1) - 1)
  native x := x

/-- A native factory with an explicit modulus (native.py 81-97: `min` is 0, `max` is the modulus;
every operation reduces with `%`, so the stored values are in `[0, m)`). -/
def explicit (m : ℕ) : Factory where
  modulus := m
  lo := 0
  boundedOk k := decide (2 ^ k ≤ m)
  native x := x

/-- The CRT factory with modulus `m` (int100.py): `%` and `to_native` work on the representative
closest to zero (that the CRT code does so is `Verif.Crt`), `to_native` keeps it modulo 2^32 as an
int32, `sample_bounded` asserts nothing (int100.py 263-298, 368-374). -/
def crt (m : ℕ) : Factory where
  modulus := m
  lo := -((m : ℤ) / 2)
  boundedOk _ := true
  native x := x.bmod (2 ^ 32)

/-- The modulus of `int100factory` (int100.py 837-840). -/
def int100Modulus : ℕ := 1201 * 1433 * 1217 * 1237 * 1321 * 1103 * 1129 * 1367 * 1093 * 1039

/-- Float to integer conversion (`astype(np.int64)`, `tf.cast`): towards zero. -/
def toInt (q : ℚ) : ℤ := if 0 ≤ q then ⌊q⌋ else ⌈q⌉

/-- `Pond._encode` (pond.py 724-778) and `ABY3._encode` followed by the cast of the factory
(aby3.py 793-830, native.py 60-71): scale, then convert towards zero.  Which numpy or TensorFlow
type the argument has makes no difference to the numbers. The `tf.Tensor` branch of Pond without
`tf_int_type` is `encodeTfTensor`. -/
def encode (c : Config) (scaled : Bool) (q : ℚ) : ℤ :=
  toInt (if scaled then q * c.scale else q)

/-- The branch of `Pond._encode` for a `tf.Tensor` (pond.py 746-760): `scaled` is read before
anything is assigned to it when `tf_int_type` is not given; `none` is the `UnboundLocalError`. -/
def encodeTfTensor (c : Config) (tfIntTypeGiven : Bool) (scaled : Bool) (q : ℚ) : Option ℤ :=
  if tfIntTypeGiven then some (encode c scaled q) else none

/-- `Pond._decode` (pond.py 780-796). -/
def decodePond (F : Factory) (c : Config) (scaled : Bool) (x : ZMod F.modulus) : ℚ :=
  let n : ℤ := F.toNative (x + (c.boundSingle : ZMod F.modulus)) - c.boundSingle
  if scaled then (n : ℚ) / c.scale else n

/-- `ABY3._decode` (aby3.py 833-840). -/
def decodeAby3 (F : Factory) (c : Config) (scaled : Bool) (x : ZMod F.modulus) : ℚ :=
  let n : ℤ := F.toNative x
  if scaled then (n : ℚ) / c.scale else n

end Verif.Fixed
