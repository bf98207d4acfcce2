import Verif.Helpers.Model
import Mathlib.Algebra.BigOperators.Fin
import Mathlib.Algebra.Order.Round
import Mathlib.Data.Rat.Floor
import Mathlib.Data.Matrix.Basic
import Mathlib.Data.Nat.Log

/-!
# Chinese-remainder tensors

Models `crt_factory` of `tf_encrypted/tensor/int100.py`, the `int100` tensors. A number is held by its
residues modulo `k` small moduli, each in an `int32`. All `int32` operations wrap modulo `2^32`.

The operations are written for one element; `matmul` and `reduce_sum` for whole matrices and vectors.
-/

namespace Verif.Crt

open Finset

/-- The value an `int32` operation returns when `z` is the exact result. -/
def wrap32 (z : ℤ) : ℤ := z.bmod (2 ^ 32)

/-- The same for `int64`. -/
def wrap64 (z : ℤ) : ℤ := z.bmod (2 ^ 64)

/-- Python exceptions. -/
inductive Err
  /-- `ValueError` -/
  | valueError
  /-- a failing `assert` -/
  | assertion
  /-- `TypeError` -/
  | typeError
deriving DecidableEq

/-- A factory: the moduli and the precomputed `q` (int100.py:68, 122). -/
structure Factory (k : ℕ) where
  /-- `MODULI` -/
  m : Fin k → ℕ
  /-- `q[i] = inverse(MODULUS // m_i, m_i)` -/
  q : Fin k → ℤ

/-- `MODULUS` (int100.py:37). -/
def modulus {k : ℕ} (m : Fin k → ℕ) : ℕ := ∏ i, m i

/-- `MODULUS // m_i`. -/
def cofactor {k : ℕ} (m : Fin k → ℕ) (i : Fin k) : ℤ := ((modulus m / m i : ℕ) : ℤ)

/-- `crt_factory` (int100.py:32-148) with `INT_TYPE = tf.int32`. `prod` of an empty list raises
`TypeError`, `math.log2(0)` raises `ValueError` (38, 44), the assertion of 43-44 is
`1024 * m_i^2 < 2^31 - 1`, and each `inverse` asserts coprimality (54, 68, 122). The logarithms are
exact here. -/
def Factory.make {k : ℕ} (m : Fin k → ℕ) : Except Err (Factory k) :=
  if k = 0 then .error .typeError
  else if ∃ i, m i = 0 then .error .valueError
  else if ∃ i, ¬ 1024 * m i ^ 2 < 2 ^ 31 - 1 then .error .assertion
  else if ∃ i, Helpers.inverse (cofactor m i) (m i) = none then .error .assertion
  else .ok ⟨m, fun i => (Helpers.inverse (cofactor m i) (m i)).getD 0⟩

variable {k : ℕ}

/-- The backing of one element. -/
abbrev Backing (k : ℕ) : Type := Fin k → ℤ

namespace Factory
variable (F : Factory k)

/-- `_crt_decompose` (int100.py:153-154). -/
def decompose (z : ℤ) : Backing k := fun i => z % F.m i

/-- `_crt_add` (int100.py:156-157). -/
def add (x y : Backing k) : Backing k := fun i => wrap32 (x i + y i) % F.m i

/-- `_crt_sub` (int100.py:159-160). -/
def sub (x y : Backing k) : Backing k := fun i => wrap32 (x i - y i) % F.m i

/-- `_crt_mul` (int100.py:162-163). -/
def mul (x y : Backing k) : Backing k := fun i => wrap32 (x i * y i) % F.m i

/-- `negative` (int100.py:757-759). -/
def neg (x : Backing k) : Backing k := fun i => wrap32 (-x i) % F.m i

/-- `z - x` for a Python integer `z`: `__rsub__` (int100.py:554-556). `_lift(self, other)` gives the
pair `(x, z)`, and the method returns `x.sub(z)`. -/
def rsub (z : ℤ) (x : Backing k) : Backing k := F.sub x (F.decompose z)

/-- `_crt_matmul` (int100.py:165-166) restricted to the columns `left ≤ j < right`; `tf.matmul` sums
`int32` products in `int32`. -/
def matmulPart {p n r : ℕ} (left right : ℕ) (x : Fin k → Fin p → Fin n → ℤ)
    (y : Fin k → Fin n → Fin r → ℤ) : Fin k → Fin p → Fin r → ℤ := fun i a b =>
  wrap32 (∑ j : Fin n with left ≤ j.val ∧ j.val < right, x i a j * y i j b) % F.m i

/-- `matmul` (int100.py:581-615): directly if there are at most 1024 columns, otherwise in parts of
1024 columns that are added up. -/
def matmul {p n r : ℕ} (x : Fin k → Fin p → Fin n → ℤ) (y : Fin k → Fin n → Fin r → ℤ) :
    Fin k → Fin p → Fin r → ℤ :=
  if n ≤ 1024 then F.matmulPart 0 n x y
  else
    let parts := (List.range ((n + 1023) / 1024)).map fun i =>
      F.matmulPart (i * 1024) ((i + 1) * 1024) x y
    match parts with
    | [] => fun _ _ _ => 0
    | z :: zs => zs.foldl (fun s t i a b => wrap32 (s i a b + t i a b) % F.m i) z

/-- `reduce_sum` over one axis of length `n` (int100.py:621-627): summed in `int32`, then reduced. -/
def reduceSum {n : ℕ} (x : Fin n → Backing k) : Backing k := fun i =>
  wrap32 (∑ j, x j i) % F.m i

/-- `t` of int100.py:78, 97, 132. -/
def ts (x : Backing k) : Backing k := fun i => wrap32 (x i * F.q i) % F.m i

/-- `crt_mod` (int100.py:124-141). `fl` is the sum of `t_i / m_i` in `float32` (133-138), which is
rounded to the nearest integer; the rest is `int32`. -/
def crtMod (fl : Backing k → ℚ) (x : Backing k) (K : ℕ) : ℤ :=
  let t := F.ts x
  let alpha := round (fl t)
  let u := wrap32 (∑ i, t i * (cofactor F.m i % K))
  let v := wrap32 (alpha * ((modulus F.m : ℤ) % K))
  wrap32 (u - v) % K

/-- `mod` (int100.py:617-619). -/
def mod (fl : Backing k → ℚ) (x : Backing k) (K : ℕ) : Backing k := F.decompose (F.crtMod fl x K)

/-- `truncate` (int100.py:773-776); `none` is the assertion in `inverse`. -/
def truncate (fl : Backing k → ℚ) (x : Backing k) (amount : ℕ) (base : ℕ := 2) :
    Option (Backing k) :=
  (Helpers.inverse ((base ^ amount : ℕ) : ℤ) (modulus F.m)).map fun inv =>
    F.mul (F.sub x (F.mod fl x (base ^ amount))) (F.decompose inv)

/-- `crt_recombine_explicit(x, bound)` for NumPy arrays (int100.py:76-92): `int64` arithmetic, the
result is cast to `int32`. -/
def recombineNp (fl : Backing k → ℚ) (x : Backing k) (bound : ℕ) : ℤ :=
  let t := F.ts x
  let alpha := round (fl t)
  let u := wrap64 (∑ i, t i * (cofactor F.m i % bound))
  let v := wrap64 (alpha * ((modulus F.m : ℤ) % bound))
  wrap32 (wrap64 (u - v) % bound)

/-- `crt_recombine_explicit(x, bound)` for TensorFlow tensors (int100.py:94-112). The products
`ti * bi` are `int32` tensors: TensorFlow converts the `int64` array `bi` to the type of `ti`, dropping
its high bits. -/
def recombineTf (fl : Backing k → ℚ) (x : Backing k) (bound : ℕ) : ℤ :=
  let t := F.ts x
  let alpha := round (fl t)
  let u := wrap32 (∑ i, t i * wrap32 (cofactor F.m i % bound))
  let v := wrap64 (alpha * ((modulus F.m : ℤ) % bound))
  wrap32 (wrap64 (u - v) % bound)

/-- `_decode` (int100.py:368-374), what `to_native` returns, on either backing. -/
def decode (tf : Bool) (fl : Backing k → ℚ) (x : Backing k) : ℤ :=
  if tf then F.recombineTf fl x (2 ^ 32) else F.recombineNp fl x (2 ^ 32)

/-- `crt_recombine_lagrange` (int100.py:50-63), what `to_bigint` returns; exact integers. -/
def toBigint (x : Backing k) : ℤ :=
  (∑ i, x i * (cofactor F.m i * F.q i % modulus F.m)) % modulus F.m

/-- `equal` (int100.py:653-668); the number of matches is counted in the factory's native type. -/
def equal (_F : Factory k) (x y : Backing k) : ℤ :=
  if (∑ i, if x i = y i then (1 : ℤ) else 0) = k then 1 else 0

/-- `equal_zero` (int100.py:640-651). -/
def equalZero (_F : Factory k) (x : Backing k) : ℤ :=
  if (∑ i, if x i = 0 then (1 : ℤ) else 0) = k then 1 else 0

/-- The chunk sizes of `bits` (int100.py:462-464). -/
def chunkSizes (bitsize : ℕ) : List ℕ :=
  List.replicate (bitsize / 16) 16 ++ if 0 < bitsize % 16 then [bitsize % 16] else []

/-- `shifted * inverse(chunk_modulus, self.modulus)` of int100.py:509-510, after `chunk`. -/
def nextRemaining (x : Backing k) (s : ℕ) (chunk : ℤ) : Backing k :=
  F.mul (F.sub x (F.decompose chunk))
    (F.decompose ((Helpers.inverse ((2 ^ s : ℕ) : ℤ) (modulus F.m)).getD 0))

/-- The loop of `bits` (int100.py:495-510) without correction. -/
def chunks (fl : Backing k → ℚ) : List ℕ → Backing k → List ℤ
  | [], _ => []
  | s :: ss, x =>
    let chunk := F.crtMod fl x (2 ^ s)
    chunk :: chunks fl ss (F.nextRemaining x s chunk)

/-- The loop of `bits` with the correction applied to the first chunk (int100.py:501-503). -/
def chunksCorrected (fl : Backing k → ℚ) : List ℕ → Backing k → List ℤ
  | [], _ => []
  | s :: ss, x =>
    let chunk := wrap32 (F.crtMod fl x (2 ^ s) + (modulus F.m : ℤ) % (2 ^ s : ℕ)) % (2 ^ s : ℕ)
    chunk :: F.chunks fl ss (F.nextRemaining x s chunk)

/-- `binarize` (shared.py:10-44) of a chunk: `(x >> j) & 1`. -/
def binarize (x : ℤ) (bitsize : ℕ) : List ℤ := (List.range bitsize).map fun j => x / 2 ^ j % 2

/-- `bits(ensure_positive_interpretation)` (int100.py:447-531), with `BITSIZE = ceil(log2 MODULUS)`
exact. `none`: `inverse` raises, as the modulus is even, or there is no first chunk to correct. -/
def bits (fl : Backing k → ℚ) (positive : Bool) (x : Backing k) : Option (List ℤ) :=
  let sizes := chunkSizes (Nat.clog 2 (modulus F.m))
  if (positive && sizes.isEmpty) || sizes.any fun s => (Helpers.inverse ((2 ^ s : ℕ) : ℤ) (modulus F.m)).isNone then none
  else
    let plain := F.chunks fl sizes x
    let msb : Bool := decide (2 ^ (sizes.getLast?.getD 0) / 2 ≤ plain.getLast?.getD 0)
    let chosen := if positive && msb then F.chunksCorrected fl sizes x else plain
    some ((chosen.zip sizes).flatMap fun c => binarize c.1 c.2)

/-- `_construct_backing_from_chunks` (int100.py:168-176). -/
def fromChunks (chunks : List (ℕ × ℤ)) : Backing k :=
  chunks.foldl (fun b c => F.add (F.mul b (F.decompose (2 ^ c.1))) (F.decompose c.2)) (F.decompose 0)

end Factory

/-- The moduli of `int100factory` (int100.py:836-839). -/
def moduli100 : Fin 10 → ℕ := ![1201, 1433, 1217, 1237, 1321, 1103, 1129, 1367, 1093, 1039]

/-- What Python computes with exact integers: the reference for expressions. -/
inductive Expr (n : ℕ)
  /-- an input -/
  | var (i : Fin n)
  /-- a Python integer, lifted (int100.py:391-407) -/
  | const (z : ℤ)
  /-- `x + y` -/
  | add (x y : Expr n)
  /-- `x - y` of two tensors -/
  | sub (x y : Expr n)
  /-- `x * y` -/
  | mul (x y : Expr n)
  /-- `-x` -/
  | neg (x : Expr n)

/-- Run an expression on tensors. -/
def Expr.run (F : Factory k) {n : ℕ} (env : Fin n → Backing k) : Expr n → Backing k
  | .var i => env i
  | .const z => F.decompose z
  | .add x y => F.add (x.run F env) (y.run F env)
  | .sub x y => F.sub (x.run F env) (y.run F env)
  | .mul x y => F.mul (x.run F env) (y.run F env)
  | .neg x => F.neg (x.run F env)

end Verif.Crt
