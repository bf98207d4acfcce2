import Verif.Paillier.Model
import Mathlib.FieldTheory.Finite.Basic
import Mathlib.NumberTheory.Basic
import Mathlib.Data.Nat.Totient
import Mathlib.Data.ZMod.Units
import Mathlib.Tactic.Ring
import Mathlib.Tactic.NormNum.Prime

/-!
# C42: Paillier encryption
-/

namespace Verif.Paillier

/-- The plaintext of an expression. -/
def Expr.plain : Expr → ℤ
  | .enc x _ => x
  | .add a b _ => a.plain + b.plain
  | .mul a k _ => a.plain * k
  | .refresh a _ => a.plain

/-- All randomness is invertible modulo `n`. -/
def Expr.Good (n : ℤ) : Expr → Prop
  | .enc _ r => IsCoprime r n
  | .add a b s => a.Good n ∧ b.Good n ∧ ∀ t, s = some t → IsCoprime t n
  | .mul a _ s => a.Good n ∧ ∀ t, s = some t → IsCoprime t n
  | .refresh a s => a.Good n ∧ IsCoprime s n

/-- `c` is an encryption of `x`. -/
def IsEnc (n c x : ℤ) : Prop :=
  ∃ r : ℤ, IsCoprime r n ∧ c ≡ (1 + n * x) * r ^ n.toNat [ZMOD n * n]

theorem isEnc_encrypt (ek : EncryptionKey) (x r : ℤ) (hr : IsCoprime r ek.n) :
    IsEnc ek.n (encrypt ek x r) x := by
  refine ⟨r, hr, ?_⟩
  unfold encrypt EncryptionKey.nn
  simp only
  refine (Int.mod_modEq _ _).trans (Int.ModEq.mul ?_ (Int.mod_modEq _ _))
  exact Int.ModEq.add_left 1 (Int.mod_modEq _ _)

theorem isEnc_mod {n c x : ℤ} (h : IsEnc n c x) : IsEnc n (c % (n * n)) x := by
  obtain ⟨r, hr, hc⟩ := h
  exact ⟨r, hr, (Int.mod_modEq _ _).trans hc⟩

theorem isEnc_refresh (ek : EncryptionKey) (c x s : ℤ) (h : IsEnc ek.n c x) (hs : IsCoprime s ek.n) :
    IsEnc ek.n (refresh ek c s) x := by
  obtain ⟨r, hr, hc⟩ := h
  refine ⟨r * s, hr.mul_left hs, ?_⟩
  unfold refresh EncryptionKey.nn
  simp only
  refine (Int.mod_modEq _ _).trans ((hc.mul (Int.mod_modEq _ _)).trans ?_)
  rw [mul_pow, mul_assoc]

theorem isEnc_mul_cipher {n c d x y : ℤ} (h : IsEnc n c x) (h' : IsEnc n d y) :
    IsEnc n (c * d) (x + y) := by
  obtain ⟨r, hr, hc⟩ := h
  obtain ⟨s, hs, hd⟩ := h'
  refine ⟨r * s, hr.mul_left hs, (hc.mul hd).trans ?_⟩
  apply Int.ModEq.symm
  rw [Int.modEq_iff_dvd]
  exact ⟨x * y * (r * s) ^ n.toNat, by rw [mul_pow]; ring⟩

theorem isEnc_pow {n c x : ℤ} (h : IsEnc n c x) (k : ℕ) : IsEnc n (c ^ k) (x * k) := by
  induction k with
  | zero => exact ⟨1, isCoprime_one_left, by simp⟩
  | succ k ih =>
    have := isEnc_mul_cipher ih h
    rw [pow_succ]
    convert this using 1
    push_cast
    ring

theorem isEnc_expr (ek : EncryptionKey) (e : Expr) (h : e.Good ek.n) :
    IsEnc ek.n (e.cipher ek) e.plain := by
  induction e with
  | enc x r => exact isEnc_encrypt ek x r h
  | add a b s iha ihb =>
    have := isEnc_mod (isEnc_mul_cipher (iha h.1) (ihb h.2.1))
    cases s with
    | none => exact this
    | some t => exact isEnc_refresh ek _ _ t this (h.2.2 t rfl)
  | mul a k s ih =>
    have := isEnc_mod (isEnc_pow (ih h.1) k)
    cases s with
    | none => exact this
    | some t => exact isEnc_refresh ek _ _ t this (h.2 t rfl)
  | refresh a s ih => exact isEnc_refresh ek _ _ s (ih h.1) h.2

/-- A key pair: two distinct primes such that `n` and the order are coprime (true if the primes have the
same length). -/
structure Primes (p q : ℕ) : Prop where
  p_prime : p.Prime
  q_prime : q.Prime
  ne : p ≠ q
  coprime : Nat.Coprime (p * q) ((p - 1) * (q - 1))

theorem totient_n {p q : ℕ} (h : Primes p q) : Nat.totient (p * q) = (p - 1) * (q - 1) := by
  rw [Nat.totient_mul ((Nat.coprime_primes h.p_prime h.q_prime).2 h.ne),
    Nat.totient_prime h.p_prime, Nat.totient_prime h.q_prime]

theorem one_add_pow (n x : ℤ) (k : ℕ) : (1 + n * x) ^ k ≡ 1 + n * (x * k) [ZMOD n * n] := by
  induction k with
  | zero => simp
  | succ k ih =>
    rw [pow_succ]
    refine (ih.mul_right _).trans ?_
    apply Int.ModEq.symm
    rw [Int.modEq_iff_dvd]
    exact ⟨x * k * x, by push_cast; ring⟩

/-- Randomness disappears under the order of the group. -/
theorem random_vanishes {p q : ℕ} (h : Primes p q) (r : ℤ) (hr : IsCoprime r ((p : ℤ) * q)) :
    (r ^ (p * q)) ^ ((p - 1) * (q - 1)) ≡ 1 [ZMOD ((p : ℤ) * q) * (p * q)] := by
  have hu : IsUnit ((r : ℤ) : ZMod (p * q)) := by
    rw [ZMod.coe_int_isUnit_iff_isCoprime]
    push_cast
    exact hr.symm
  obtain ⟨u, hu⟩ := hu
  have h1 : ((r ^ ((p - 1) * (q - 1)) : ℤ) : ZMod (p * q)) = ((1 : ℤ) : ZMod (p * q)) := by
    have := ZMod.pow_totient u
    rw [totient_n h] at this
    push_cast
    rw [← hu, ← Units.val_pow_eq_pow_val, this, Units.val_one]
  rw [ZMod.intCast_eq_intCast_iff, Int.modEq_iff_dvd] at h1
  have h2 : ((p * q : ℕ) : ℤ) ∣ r ^ ((p - 1) * (q - 1)) - 1 := by
    rw [← dvd_neg, neg_sub]
    exact h1
  have h3 := dvd_sub_pow_of_dvd_sub h2 1
  rw [pow_one, one_pow] at h3
  rw [← pow_mul, mul_comm (p * q), pow_mul]
  apply Int.ModEq.symm
  rw [Int.modEq_iff_dvd]
  push_cast at h3 ⊢
  rw [show ((p : ℤ) * q) * (p * q) = (p * q) ^ (1 + 1) by ring]
  exact h3

theorem inv_spec {a m : ℤ} (h : IsCoprime a m) : a * inv a m ≡ 1 [ZMOD m] := by
  have hg : (Int.gcd a m : ℤ) = 1 := by
    rw [Int.isCoprime_iff_gcd_eq_one] at h
    rw [h]; rfl
  have := Int.gcd_eq_gcd_ab a m
  rw [hg] at this
  unfold inv
  refine ((Int.mod_modEq _ _).mul_left a).trans ?_
  rw [Int.modEq_iff_dvd]
  exact ⟨Int.gcdB a m, by linarith⟩

theorem decrypt_isEnc {p q : ℕ} (h : Primes p q) (c x : ℤ) (hc : IsEnc ((p : ℤ) * q) c x) :
    decrypt ⟨p, q⟩ c = x % ((p : ℤ) * q) := by
  have hn : (0 : ℤ) < (p : ℤ) * q := by
    have := Nat.mul_pos h.p_prime.pos h.q_prime.pos
    exact_mod_cast this
  obtain ⟨r, hr, hc⟩ := hc
  have htn : ((p : ℤ) * q).toNat = p * q := by
    rw [← Nat.cast_mul, Int.toNat_natCast]
  rw [htn] at hc
  have h1 : c ^ ((p - 1) * (q - 1)) ≡
      1 + ((p : ℤ) * q) * (x * ((p - 1) * (q - 1) : ℕ)) [ZMOD ((p : ℤ) * q) * (p * q)] := by
    refine (hc.pow _).trans ?_
    rw [mul_pow]
    have := (one_add_pow ((p : ℤ) * q) x ((p - 1) * (q - 1))).mul (random_vanishes h r hr)
    rwa [mul_one] at this
  have hd1 : (⟨p, q⟩ : DecryptionKey).d1 = (p - 1) * (q - 1) := rfl
  have hnn : (⟨p, q⟩ : DecryptionKey).nn = ((p : ℤ) * q) * (p * q) := rfl
  have hnk : (⟨p, q⟩ : DecryptionKey).n = (p : ℤ) * q := rfl
  unfold decrypt
  simp only [hd1, hnn, hnk]
  have h2 := (Int.mod_modEq (c ^ ((p - 1) * (q - 1))) (((p : ℤ) * q) * (p * q))).trans h1
  generalize c ^ ((p - 1) * (q - 1)) % (((p : ℤ) * q) * (p * q)) = g at h2
  obtain ⟨t, ht⟩ := Int.modEq_iff_dvd.1 h2
  have hg : g - 1 = ((p : ℤ) * q) * (x * ((p - 1) * (q - 1) : ℕ) - p * q * t) := by linarith
  rw [hg, Int.mul_ediv_cancel_left _ (ne_of_gt hn)]
  show _ ≡ x [ZMOD (p : ℤ) * q]
  have hcop : IsCoprime (((p - 1) * (q - 1) : ℕ) : ℤ) ((p : ℤ) * q) := by
    have := h.coprime.symm
    rw [← Nat.cast_mul]
    exact Nat.isCoprime_iff_coprime.2 this
  have hinv := inv_spec hcop
  have hd2 : (⟨p, q⟩ : DecryptionKey).d2 = inv (((p - 1) * (q - 1) : ℕ) : ℤ) ((p : ℤ) * q) := rfl
  rw [hd2]
  generalize inv (((p - 1) * (q - 1) : ℕ) : ℤ) ((p : ℤ) * q) = d at hinv
  have h3 := hinv.mul_left x
  rw [mul_one] at h3
  refine Int.ModEq.trans ?_ h3
  apply Int.ModEq.symm
  rw [Int.modEq_iff_dvd]
  exact ⟨-(t * d), by ring⟩

/-- **C42 (partial)**: for every key pair and every expression of encryptions, homomorphic additions,
multiplications by constants and refreshes, decrypting gives the value of the expression modulo `n`,
provided all randomness is invertible modulo `n`. In particular `decrypt(encrypt(x)) = x` for `0 ≤ x < n`.
Missing: randomness that is not invertible, which `gen_randomness` can return
(`zero_randomness_false`, `bad_randomness_count`). -/
theorem paillier_partial {p q : ℕ} (h : Primes p q) (e : Expr) (he : e.Good ((p : ℤ) * q)) :
    decrypt (keypair p q).2 (e.cipher (keypair p q).1) = e.plain % ((p : ℤ) * q) :=
  decrypt_isEnc h _ _ (isEnc_expr (keypair p q).1 e he)

/-- **C42 (partial)**: the round trip. -/
theorem round_trip_partial {p q : ℕ} (h : Primes p q) (x r : ℤ) (hr : IsCoprime r ((p : ℤ) * q))
    (h0 : 0 ≤ x) (h1 : x < (p : ℤ) * q) :
    decrypt (keypair p q).2 (encrypt (keypair p q).1 x r) = x := by
  have := paillier_partial h (.enc x r) hr
  rw [Expr.plain, Int.emod_eq_of_lt h0 h1] at this
  exact this

/-- Refreshing an encryption gives exactly an encryption of the same plaintext with the product of the
randomness, so the old randomness leaves no trace beyond that product. -/
theorem refresh_is_encrypt (n : ℕ) (x r s : ℤ) :
    refresh ⟨n⟩ (encrypt ⟨n⟩ x r) s = encrypt ⟨n⟩ x (r * s % n) := by
  unfold refresh encrypt EncryptionKey.nn
  simp only [Int.toNat_natCast]
  show _ ≡ _ [ZMOD (n : ℤ) * n]
  have h1 : (r * s % n) ^ n ≡ (r * s) ^ n [ZMOD (n : ℤ) * n] := by
    have hd : ((n : ℕ) : ℤ) ∣ (r * s) - (r * s % n) := Int.dvd_self_sub_emod
    have := dvd_sub_pow_of_dvd_sub hd 1
    rw [pow_one] at this
    rw [Int.modEq_iff_dvd]
    rw [show (n : ℤ) * n = (n : ℤ) ^ (1 + 1) by ring]
    exact this
  refine ((Int.mod_modEq _ _).mul (Int.mod_modEq _ _)).trans ?_
  have h2 : (1 + (n * x) % (n * n)) * (r ^ n % (n * n)) * s ^ n ≡
      (1 + (n * x) % (n * n)) * (r ^ n * s ^ n) [ZMOD (n : ℤ) * n] := by
    rw [mul_assoc]
    exact ((Int.mod_modEq _ _).mul_right _).mul_left _
  refine h2.trans (Int.ModEq.mul_left _ ?_)
  rw [← mul_pow]
  exact h1.symm.trans (Int.mod_modEq _ _).symm

/-- Plaintexts count modulo `n`. -/
theorem encrypt_mod (n : ℕ) (x k r : ℤ) : encrypt ⟨n⟩ (x + n * k) r = encrypt ⟨n⟩ x r := by
  unfold encrypt EncryptionKey.nn
  simp only
  have : (n * (x + n * k)) % ((n : ℤ) * n) = (n * x) % (n * n) := by
    rw [show (n : ℤ) * (x + n * k) = n * x + n * n * k by ring, Int.add_mul_emod_self_left]
  rw [this]

/-- **C42 is false** for the randomness 0, which `gen_randomness` may return: all plaintexts have the same
ciphertext, 0, so it cannot be decrypted to all of them. -/
theorem zero_randomness_false {p q : ℕ} (h : Primes p q) :
    (∀ x, encrypt (keypair p q).1 x 0 = 0) ∧
      ∃ x, 0 ≤ x ∧ x < (p : ℤ) * q ∧ decrypt (keypair p q).2 (encrypt (keypair p q).1 x 0) ≠ x := by
  have hz : ∀ x, encrypt (keypair p q).1 x 0 = 0 := by
    intro x
    have hne : ((p : ℤ) * q).toNat ≠ 0 := by
      rw [← Nat.cast_mul, Int.toNat_natCast]
      exact Nat.mul_ne_zero h.p_prime.ne_zero h.q_prime.ne_zero
    simp [encrypt, keypair, hne]
  refine ⟨hz, ?_⟩
  have h2 : 1 < p * q := Nat.one_lt_mul_iff.2
    ⟨h.p_prime.pos, h.q_prime.pos, Or.inl h.p_prime.one_lt⟩
  have h2' : (1 : ℤ) < (p : ℤ) * q := by exact_mod_cast h2
  by_cases hd : decrypt (keypair p q).2 0 = 0
  · exact ⟨1, by omega, h2', by rw [hz, hd]; omega⟩
  · exact ⟨0, by omega, by omega, by rw [hz]; exact hd⟩

/-- How often: of the `n` values `gen_randomness` draws from, exactly `p + q - 1` are not invertible. -/
theorem bad_randomness_count {p q : ℕ} (h : Primes p q) :
    ((Finset.range (p * q)).filter fun r : ℕ => ¬ IsCoprime (r : ℤ) ((p : ℤ) * q)).card = p + q - 1 := by
  have e : ∀ r : ℕ, IsCoprime (r : ℤ) ((p : ℤ) * q) ↔ (p * q).Coprime r := by
    intro r
    rw [← Nat.cast_mul, Nat.isCoprime_iff_coprime, Nat.coprime_comm]
  have hf : ((Finset.range (p * q)).filter fun r : ℕ => IsCoprime (r : ℤ) ((p : ℤ) * q)).card =
      (p - 1) * (q - 1) := by
    rw [← totient_n h, Nat.totient_eq_card_coprime]
    congr 1
    ext r
    simp only [Finset.mem_filter, e]
  have := Finset.card_filter_add_card_filter_not (s := Finset.range (p * q))
    (fun r : ℕ => IsCoprime (r : ℤ) ((p : ℤ) * q))
  rw [hf, Finset.card_range] at this
  obtain ⟨a, rfl⟩ : ∃ a, p = a + 1 := ⟨p - 1, by have := h.p_prime.pos; omega⟩
  obtain ⟨b, rfl⟩ : ∃ b, q = b + 1 := ⟨q - 1, by have := h.q_prime.pos; omega⟩
  simp only [Nat.add_sub_cancel] at this
  have e2 : (a + 1) * (b + 1) = a * b + (a + b + 1) := by ring
  omega

example : Primes 5 7 ∧ IsCoprime (3 : ℤ) (5 * 7) ∧
    decrypt (keypair 5 7).2 (add (keypair 5 7).1 (encrypt (keypair 5 7).1 4 3)
      (mul (keypair 5 7).1 (encrypt (keypair 5 7).1 10 2) 2 none) (some 8)) = 24 := by
  refine ⟨⟨by norm_num, by norm_num, by norm_num, by decide⟩, ?_, by decide +kernel⟩
  exact ⟨12, -1, by norm_num⟩

end Verif.Paillier
