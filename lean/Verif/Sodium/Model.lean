import Mathlib.Data.Nat.Notation
import Mathlib.Algebra.BigOperators.Group.List.Basic

/-!
# Sealed tensors

Models `primitives/tf_encrypted/primitives/sodium/python/easy_box.py`, the kernels in
`primitives/tf_encrypted/primitives/sodium/cc/easy_box_kernels.cc` and the shape functions in
`primitives/tf_encrypted/primitives/sodium/cc/ops.cc`.

libsodium itself is a parameter (`Box`): how it derives a key from a public and a secret key, its
key stream and its authenticator are arbitrary functions. What is fixed is the documented
construction of `crypto_box_detached`: the message is xored with the key stream, the authenticator
is computed from the ciphertext, and opening recomputes it. Allocation failures and the maximal
message length of libsodium are left out.
-/

namespace Verif.Sodium

abbrev Byte := BitVec 8

/-- Exceptions. -/
inductive Err
  /-- no kernel for the type, `TypeError` / `InvalidArgumentError` -/
  | dtype
  /-- `errors::Internal`: an input of the wrong size or shape -/
  | shape
  /-- `errors::Internal`: libsodium refuses -/
  | sodium
  deriving DecidableEq, Repr

/-- Types of tensors; the last two stand for those without a kernel. -/
inductive Dtype
  | uint8 | uint16 | uint32 | uint64 | int8 | int16 | int32 | int64 | bfloat16 | float32 | float64
  | bool | complex128
  deriving DecidableEq, Repr

/-- `sizeof(T)`, `DataTypeSize`. -/
def Dtype.size : Dtype → ℕ
  | .uint8 | .int8 | .bool => 1
  | .uint16 | .int16 | .bfloat16 => 2
  | .uint32 | .int32 | .float32 => 4
  | .uint64 | .int64 | .float64 => 8
  | .complex128 => 16

/-- The kernels that are registered (ops.cc 37, 81; easy_box_kernels.cc 199-244). -/
def Dtype.supported : Dtype → Bool
  | .bool | .complex128 => false
  | _ => true

/-- A plaintext tensor: its shape and its elements in row-major order, each as the bits it is stored
in. -/
structure Plain (d : Dtype) where
  shape : List ℕ
  data : List (BitVec (8 * d.size))
  deriving DecidableEq

/-- A tensor of bytes. -/
structure Bytes where
  shape : List ℕ
  data : List Byte
  deriving DecidableEq

/-- The bytes of an element in memory (least significant first). -/
def toBytes {d : Dtype} (x : BitVec (8 * d.size)) : List Byte :=
  (List.range d.size).map fun k => x.extractLsb' (8 * k) 8

/-- The element stored in the given bytes. -/
def ofBytes (d : Dtype) (bs : List Byte) : BitVec (8 * d.size) :=
  (BitVec.ofBoolListLE ((List.range (8 * d.size)).map fun i =>
    (bs.getD (i / 8) 0).getLsbD (i % 8))).cast (by simp)

/-- Reinterpret memory as elements. -/
def elements (d : Dtype) (n : ℕ) (bs : List Byte) : List (BitVec (8 * d.size)) :=
  (List.range n).map fun k => ofBytes d ((bs.drop (k * d.size)).take d.size)

/-- libsodium. `Pk`, `Sk`, nonces and authenticators are strings of bytes. -/
structure Box where
  Key : Type
  /-- public key of a secret key -/
  pub : List Byte → List Byte
  /-- `crypto_box_beforenm`; it fails for weak public keys -/
  key : List Byte → List Byte → Option Key
  /-- key stream -/
  stream : Key → List Byte → ℕ → Byte
  /-- authenticator of a ciphertext -/
  tag : Key → List Byte → List Byte → List Byte
  /-- both sides derive the same key -/
  agree : ∀ a b, key (pub a) b = key (pub b) a

variable (B : Box)

/-- xor with the key stream. -/
def crypt (k : B.Key) (nonce : List Byte) (m : List Byte) : List Byte :=
  m.mapIdx fun i x => x ^^^ B.stream k nonce i

/-- `crypto_box_detached`. -/
def boxDetached (m nonce pk sk : List Byte) : Option (List Byte × List Byte) :=
  (B.key pk sk).map fun k => (crypt B k nonce m, B.tag k nonce (crypt B k nonce m))

/-- `crypto_box_open_detached`. -/
def boxOpenDetached (c mac nonce pk sk : List Byte) : Option (List Byte) :=
  (B.key pk sk).bind fun k => if B.tag k nonce c = mac then some (crypt B k nonce c) else none

/-- `crypto_box_NONCEBYTES` etc. -/
def nonceBytes : ℕ := 24
def publicKeyBytes : ℕ := 32
def secretKeyBytes : ℕ := 32
def macBytes : ℕ := 16

/-- Output of the seal kernel: the shape of the plaintext with the size of the type as a last
dimension (easy_box_kernels.cc 110-114, 127-131). -/
def sealed (shape : List ℕ) (size : ℕ) : Option (List Byte × List Byte) → Except Err (Bytes × List Byte)
  | none => .error .sodium
  | some (c, mac) => .ok (⟨shape ++ [size], c⟩, mac)

/-- `seal_detached` (easy_box.py 50-59, ops.cc 36-78, easy_box_kernels.cc 73-133). The keys and the
nonce are vectors (the shape function refuses other ranks). -/
def sealT {d : Dtype} (x : Plain d) (nonce pk sk : List Byte) : Except Err (Bytes × List Byte) :=
  if !d.supported then .error .dtype
  else if nonce.length ≠ nonceBytes then .error .shape
  else if pk.length ≠ publicKeyBytes then .error .shape
  else if sk.length ≠ secretKeyBytes then .error .shape
  else sealed x.shape d.size (boxDetached B (x.data.flatMap toBytes) nonce pk sk)

/-- `open_detached` (easy_box.py 62-80, ops.cc 80-129, easy_box_kernels.cc 135-197). -/
def openT (d : Dtype) (c : Bytes) (mac nonce pk sk : List Byte) : Except Err (Plain d) :=
  if !d.supported then .error .dtype
  else if c.shape.getLast? ≠ some d.size then .error .shape
  else if mac.length ≠ macBytes then .error .shape
  else if nonce.length ≠ nonceBytes then .error .shape
  else if pk.length ≠ publicKeyBytes then .error .shape
  else if sk.length ≠ secretKeyBytes then .error .shape
  else
    match boxOpenDetached B c.data mac nonce pk sk with
    | none => .error .sodium
    | some m => .ok ⟨c.shape.dropLast, elements d c.shape.dropLast.prod m⟩

/-- What is known of a shape when the graph is built: nothing, or every dimension or not. -/
abbrev Known := Option (List (Option ℕ))

/-- The test of the shape function of `open_detached` on the ciphertext (ops.cc 96-101): the value of
an unknown dimension is -1. -/
def openShapeFn (d : Dtype) (s : Known) : Except Err Known :=
  match s with
  | none => .error .shape
  | some l =>
    match l.getLast? with
    | some (some n) => if n = d.size then .ok (some l.dropLast) else .error .shape
    | _ => .error .shape

end Verif.Sodium
