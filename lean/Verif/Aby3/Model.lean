import Verif.Aby3.Base

/-!
# ABY3 sharing and its local and interactive building blocks

Model of `tf_encrypted/protocol/aby3/aby3.py`. `shares i` is the Python list `shares[i]`, the two
components held by server `i`. Whatever is placed on server `i`'s device and was computed
elsewhere, and every draw from a generator whose seed server `i` holds, is recorded with `tell`.

Simplifications: draws are uniform and independent (see C18, C19, C20, C33 for the samplers and
the seeds), tensors are flattened, and the order of draws from different seeds is fixed by us.
-/

namespace Verif.Aby3

open Verif

/-- `shares[i] = [shares[i][0], shares[i][1]]` for the three servers (aby3_tensors.py:389-420). -/
abbrev Shares (A : Type) : Type := Fin 3 → A × A

/-- `x_on_0, x_on_1, x_on_2`: one copy of a public tensor per server
(aby3_tensors.py:510-540). -/
abbrev Pub (A : Type) : Type := Fin 3 → A

/-- Run the same local computation on every component, as the loops
`for i in range(3): with device(i): z[i][0] = f(x[i][0]); z[i][1] = f(x[i][1])` do
(`_negative_private` aby3.py:2326-2340, `_reshape_private` 4878-4886, `_lshift_private`
3248-3266, `_cast_private` 2106-2123, …). -/
def Shares.map {A B : Type} (f : A → B) (x : Shares A) : Shares B :=
  fun i => (f (x i).1, f (x i).2)

/-- Componentwise combination of two sharings (`_add_private_private` aby3.py:2148-2160,
`_sub_private_private` 2238-2253, `_xor_private_private` 3041-3062). -/
def Shares.map₂ {A B C : Type} (f : A → B → C) (x : Shares A) (y : Shares B) : Shares C :=
  fun i => (f (x i).1 (y i).1, f (x i).2 (y i).2)

/-- `_share` (aby3.py:842-887): two seeded draws, the third share is the difference; server 0
gets (s0, s1), server 1 gets (s1, s2), server 2 gets (s2, s0). -/
def share {s : Srt} (secret : T s) : M (Shares (T s)) := do
  let share0 ← M.draw s
  let share1 ← M.draw s
  let share2 := secret - share0 - share1
  M.tell 0 share0; M.tell 0 share1
  M.tell 1 share1; M.tell 1 share2
  M.tell 2 share2; M.tell 2 share0
  return ![(share0, share1), (share1, share2), (share2, share0)]

/-- `_reconstruct` (aby3.py:899-936). `none` is a player that is not one of the three servers. -/
def reconstruct {s : Srt} (x : Shares (T s)) : Option (Fin 3) → T s
  | some 0 => (x 0).1 + (x 0).2 + (x 2).1
  | some 1 => (x 1).1 + (x 1).2 + (x 0).1
  | some 2 => (x 2).1 + (x 2).2 + (x 1).1
  | none => (x 0).1 + (x 1).1 + (x 2).1

/-- `_reveal_private` (aby3.py:2029-2045): every server reconstructs, receiving the share it
lacks from the previous server. -/
def reveal {s : Srt} (x : Shares (T s)) : M (Pub (T s)) := do
  M.tell 0 (x 2).1
  M.tell 1 (x 0).1
  M.tell 2 (x 1).1
  return fun i => reconstruct x (some i)

/-- The pairwise correlated draws used by `_gen_zero_sharing` and `_gen_random_sharing`
(aby3.py:938-1020): seed `i` is held by server `i` (as `keys[i][0]`) and by server `i - 1`
(as `keys[i-1][1]`), with the nonces of that pair. -/
def pairwise (s : Srt) : M (Fin 3 → T s) := do
  let f0 ← M.draw s
  let f1 ← M.draw s
  let f2 ← M.draw s
  M.tell 0 f0; M.tell 0 f1
  M.tell 1 f1; M.tell 1 f2
  M.tell 2 f2; M.tell 2 f0
  return ![f0, f1, f2]

/-- `_gen_zero_sharing` (aby3.py:938-983): `a_i = f(key_i) - f(key_{i+1})`
(xor for boolean sharings). -/
def zeroSharing (s : Srt) : M (Fin 3 → T s) := do
  let f ← pairwise s
  return fun i => f i - f (i + 1)

/-- `_gen_random_sharing` (aby3.py:985-1020). -/
def randomSharing (s : Srt) : M (Shares (T s)) := do
  let f ← pairwise s
  return fun i => (f i, f (i + 1))

/-- The re-sharing step of `_mul_private_private` (aby3.py:2443-2489), `_matmul_private_private`
(2619-2670), `_and_private_private` (3123-3168), `_a2b_private` (3744-3791) and `_b2a_private`
(3920-3935): server `i` holds the additive part `t i`, masks it with its zero share and sends
the result to server `i - 1`. `bc` broadcasts the zero sharing, which is drawn with shape `zs`. -/
def reshare {zs t : Srt} (bc : T zs → T t) (parts : Fin 3 → T t) : M (Shares (T t)) := do
  let a ← zeroSharing zs
  let z : Fin 3 → T t := fun i => parts i + bc (a i)
  M.tell 0 (z 1)
  M.tell 1 (z 2)
  M.tell 2 (z 0)
  return fun i => (z i, z (i + 1))

/-- `_mul_private_private` (aby3.py:2443-2489) before truncation, `_matmul_private_private`
(2619-2670), `_and_private_private` (3123-3168): `f` is the local product. The zero sharing is
drawn with the shape `zs` of the first operand (2455, 3138), and broadcast by `bc`. -/
def bilin {s u zs t : Srt} (f : T s → T u → T t) (bc : T zs → T t)
    (x : Shares (T s)) (y : Shares (T u)) : M (Shares (T t)) :=
  reshare bc fun i => f (x i).1 (y i).1 + f (x i).1 (y i).2 + f (x i).2 (y i).1

/-- `_add_private_public` (aby3.py:2162-2187): the public tensor is added to share 0 only, which
is held by server 0 as `[0][0]` and by server 2 as `[2][1]`. -/
def addPub {s : Srt} (x : Shares (T s)) (y : Pub (T s)) : Shares (T s) :=
  ![((x 0).1 + y 0, (x 0).2), x 1, ((x 2).1, (x 2).2 + y 2)]

/-- `_sub_private_public` (aby3.py:2255-2279). -/
def subPub {s : Srt} (x : Shares (T s)) (y : Pub (T s)) : Shares (T s) :=
  ![((x 0).1 - y 0, (x 0).2), x 1, ((x 2).1, (x 2).2 - y 2)]

/-- `_sub_public_private` (aby3.py:2281-2304): all shares are negated and the public tensor is
added to share 0. -/
def pubSub {s : Srt} (x : Pub (T s)) (y : Shares (T s)) : Shares (T s) :=
  ![(x 0 - (y 0).1, -(y 0).2), (-(y 1).1, -(y 1).2), (-(y 2).1, x 2 - (y 2).2)]

/-- `_xor_private_public` (aby3.py:3064-3084): the public tensor is xored into all six
components. -/
def xorPub {s : Srt} (x : Shares (T s)) (y : Pub (T s)) : Shares (T s) :=
  fun i => ((x i).1 + y i, (x i).2 + y i)

/-- A public operand times a private one (`_mul_private_public` aby3.py:2416-2441,
`_and_private_public` 3170-3191): each server multiplies its two components with its copy. -/
def bilinPub {s u t : Srt} (f : T s → T u → T t) (x : Shares (T s)) (y : Pub (T u)) :
    Shares (T t) := fun i => (f (x i).1 (y i), f (x i).2 (y i))

/-- Public on the left (`_mul_public_private` aby3.py:2389-2414, `_and_public_private`
3193-3214). -/
def pubBilin {s u t : Srt} (f : T s → T u → T t) (x : Pub (T s)) (y : Shares (T u)) :
    Shares (T t) := fun i => (f (x i) (y i).1, f (x i) (y i).2)

/-- Elementwise word operation on a boolean tensor. -/
def blift {w v n : ℕ} (g : BitVec w → BitVec v) (x : T (.bool w n)) : T (.bool v n) :=
  fun i => ⟨g (x i).bits⟩

/-- Elementwise word operation on an arithmetic tensor. -/
def alift {w v n : ℕ} (g : BitVec w → BitVec v) (x : T (.arith w n)) : T (.arith v n) :=
  fun i => g (x i)

/-- Elementwise conjunction. -/
def band {w n : ℕ} (x y : T (.bool w n)) : T (.bool w n) :=
  fun i => ⟨(x i).bits &&& (y i).bits⟩

/-- The words of an arithmetic tensor read as a boolean tensor, and back: share types are only
tags on the same words. -/
def toBool {w n : ℕ} (x : T (.arith w n)) : T (.bool w n) := fun i => ⟨x i⟩
/-- See `toBool`. -/
def toArith {w n : ℕ} (x : T (.bool w n)) : T (.arith w n) := fun i => (x i).bits

/-- `_not_private` (aby3.py:3226-3246): only share 0 is flipped, at servers 0 and 2. -/
def bnot {w n : ℕ} (x : Shares (T (.bool w n))) : Shares (T (.bool w n)) :=
  ![(blift (~~~ ·) (x 0).1, (x 0).2), x 1, ((x 2).1, blift (~~~ ·) (x 2).2)]

/-- `_and_private_private` (aby3.py:3123-3168) for operands of the same shape. -/
def band2 {w n : ℕ} (x y : Shares (T (.bool w n))) : M (Shares (T (.bool w n))) :=
  bilin (zs := .bool w n) band id x y

/-- `_or_private_private` (aby3.py:3216-3224): `(x ^ y) ^ (x & y)`. -/
def bor2 {w n : ℕ} (x y : Shares (T (.bool w n))) : M (Shares (T (.bool w n))) := do
  let z ← band2 x y
  return Shares.map₂ (· + ·) (Shares.map₂ (· + ·) x y) z

/-- `_gen_b2a_sharing` (aby3.py:1022-1067) with keys that let every server except `out` see all
three components: servers see components `i` and `i+1` and, unless they are `out`, the third
one. Returns the clear value (for the servers that know it) and the sharing. -/
def b2aSharing (w n : ℕ) (out : Fin 3) : M (T (.bool w n) × Shares (T (.bool w n))) := do
  let f ← pairwise (.bool w n)
  M.tellUnless (out = 0) 0 (f 2)
  M.tellUnless (out = 1) 1 (f 0)
  M.tellUnless (out = 2) 2 (f 1)
  return (f 0 + f 1 + f 2, fun i => (f i, f (i + 1)))

/-- Choice by a single-bit tensor: `factory.where(c, a, b)` per element. -/
def bwhere {n : ℕ} {A : Type} (c : T (.bool 1 n)) (a b : Fin n → A) : Fin n → A :=
  fun i => if (c i).bits = 1#1 then a i else b i

/-- `_ot` (aby3.py:1069-1115): the sender masks both messages with draws it shares with the
helper, the helper sends the mask of the chosen one. -/
def ot {w n : ℕ} (sender receiver helper : Fin 3) (m0 m1 : T (.bool w n))
    (cReceiver cHelper : T (.bool 1 n)) : M (T (.bool w n)) := do
  let w0 ← M.draw (.bool w n)
  let w1 ← M.draw (.bool w n)
  M.tell sender w0; M.tell sender w1
  M.tell helper w0; M.tell helper w1
  let masked0 := m0 + w0
  let masked1 := m1 + w1
  let wc : T (.bool w n) := bwhere cHelper w1 w0
  M.tell receiver masked0
  M.tell receiver masked1
  M.tell receiver wc
  return (bwhere cReceiver masked1 masked0 : T (.bool w n)) + wc

/-- `__mul_ab_routine` (aby3.py:4023-4080): multiply a tensor `a` known to server `i0` with a
single-bit boolean sharing. -/
def mulAbRoutine {w n : ℕ} (a : T (.arith w n)) (b : Shares (T (.bool 1 n))) (i0 : Fin 3) :
    M (Shares (T (.arith w n))) := do
  let s ← zeroSharing (.arith w n)
  let i1 := i0 + 1
  let i2 := i0 + 2
  M.tell i0 (s i2)
  M.tell i0 (s i1)
  let tmp : T (.arith w n) := fun i => ((b i0).1 i + (b i0).2 i).bits.setWidth w * a i
  let m0 := tmp + s i0
  let m1 := -tmp + a + s i0
  let z1 ← ot i0 i1 i2 (toBool m0) (toBool m1) (b i1).2 (b i2).1
  let z2 ← ot i0 i2 i1 (toBool m0) (toBool m1) (b i2).1 (b i1).2
  let z : Fin 3 → T (.arith w n) × T (.arith w n) := fun i =>
    if i = i0 then (s i2, s i1)
    else if i = i1 then (s i1, toArith z1)
    else (toArith z2, s i2)
  return z

/-- `_mul_ab_public_private` (aby3.py:3986-3998): server 2 is the sender. -/
def mulAbPub {w n : ℕ} (a : Pub (T (.arith w n))) (b : Shares (T (.bool 1 n))) :
    M (Shares (T (.arith w n))) := mulAbRoutine (a 2) b 2

/-- `_mul_ab_private_private` (aby3.py:4000-4020): `x0 * b` from server 0 plus `(x1 + x2) * b`
from server 1. -/
def mulAb {w n : ℕ} (x : Shares (T (.arith w n))) (b : Shares (T (.bool 1 n))) :
    M (Shares (T (.arith w n))) := do
  let u ← mulAbRoutine (x 0).1 b 0
  let z ← mulAbRoutine ((x 1).1 + (x 1).2) b 1
  return Shares.map₂ (· + ·) u z

/-- `_b2a_single_private` (aby3.py:3976-3983): the public tensor of ones times the bit. -/
def b2aSingle {n : ℕ} (w : ℕ) (b : Shares (T (.bool 1 n))) : M (Shares (T (.arith w n))) :=
  mulAbPub (fun _ _ => 1) b

end Verif.Aby3
