import Mathlib.Data.Int.GCD

/-!
# Paillier encryption

Models `primitives/tf_encrypted/primitives/paillier/primitives.py` on one tensor entry. Big integers
(`tf_big`) are integers; `%` has a non-negative result. Randomness is an argument. Import and export of
limbs and strings is not modelled.
-/

namespace Verif.Paillier

/-- `tf_big.inv(a, m)`: the inverse modulo `m` if there is one. -/
def inv (a m : ℤ) : ℤ := Int.gcdA a m % m

/-- `EncryptionKey` (primitives.py:27-39): only `n` is stored, `nn = n * n`. -/
structure EncryptionKey where
  n : ℤ

/-- `nn` (primitives.py:37). -/
def EncryptionKey.nn (ek : EncryptionKey) : ℤ := ek.n * ek.n

/-- `DecryptionKey` (primitives.py:42-54). -/
structure DecryptionKey where
  p : ℕ
  q : ℕ

/-- `dk.n` (primitives.py:47). -/
def DecryptionKey.n (dk : DecryptionKey) : ℤ := dk.p * dk.q
/-- `dk.nn` (primitives.py:48). -/
def DecryptionKey.nn (dk : DecryptionKey) : ℤ := dk.n * dk.n
/-- `dk.d1`, the order (primitives.py:50-51); an exponent. -/
def DecryptionKey.d1 (dk : DecryptionKey) : ℕ := (dk.p - 1) * (dk.q - 1)
/-- `dk.d2` (primitives.py:52). -/
def DecryptionKey.d2 (dk : DecryptionKey) : ℤ := inv dk.d1 dk.n

/-- `gen_keypair` (primitives.py:63-67) from the primes of `random_rsa_modulus`. -/
def keypair (p q : ℕ) : EncryptionKey × DecryptionKey := (⟨(p : ℤ) * q⟩, ⟨p, q⟩)

/-- `encrypt` (primitives.py:98-112); `n` as an exponent is `n.toNat`. -/
def encrypt (ek : EncryptionKey) (x r : ℤ) : ℤ :=
  let gx := 1 + (ek.n * x) % ek.nn
  let rn := r ^ ek.n.toNat % ek.nn
  gx * rn % ek.nn

/-- `decrypt` (primitives.py:115-127), before the export to a TensorFlow type. -/
def decrypt (dk : DecryptionKey) (c : ℤ) : ℤ :=
  let gxd := c ^ dk.d1 % dk.nn
  let xd := (gxd - 1) / dk.n
  (xd * dk.d2) % dk.n

/-- `refresh` (primitives.py:130-135). -/
def refresh (ek : EncryptionKey) (c s : ℤ) : ℤ :=
  let sn := s ^ ek.n.toNat % ek.nn
  (c * sn) % ek.nn

/-- `add` (primitives.py:138-151); `none`: `do_refresh=False`. -/
def add (ek : EncryptionKey) (c0 c1 : ℤ) : Option ℤ → ℤ
  | none => (c0 * c1) % ek.nn
  | some s => refresh ek ((c0 * c1) % ek.nn) s

/-- `mul` (primitives.py:154-167) by a non-negative constant: the power is not reduced before `%`. -/
def mul (ek : EncryptionKey) (c : ℤ) (k : ℕ) : Option ℤ → ℤ
  | none => c ^ k % ek.nn
  | some s => refresh ek (c ^ k % ek.nn) s

/-- Expressions over ciphertexts, as a program builds them. -/
inductive Expr
  | enc (x r : ℤ)
  | add (a b : Expr) (s : Option ℤ)
  | mul (a : Expr) (k : ℕ) (s : Option ℤ)
  | refresh (a : Expr) (s : ℤ)

/-- The ciphertext. -/
def Expr.cipher (ek : EncryptionKey) : Expr → ℤ
  | .enc x r => encrypt ek x r
  | .add a b s => Paillier.add ek (a.cipher ek) (b.cipher ek) s
  | .mul a k s => Paillier.mul ek (a.cipher ek) k s
  | .refresh a s => Paillier.refresh ek (a.cipher ek) s

end Verif.Paillier
