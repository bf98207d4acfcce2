import Verif.SecureNN.Compare
import Verif.SecureNN.OddProps
import Verif.Bits.Int

/-! # Least and most significant bits -/

namespace Verif.SecureNN

open Pond (Priv)
open RandM

variable {w p : ℕ}

/-- A boolean as a word. -/
def bit (b : Bool) : BitVec w := if b then 1 else 0

theorem bit_xor (a b : Bool) : (bit a + bit b - bit a * bit b * 2 : BitVec w) = bit (a ^^ b) := by
  cases a <;> cases b <;> simp only [bit, if_true, Bool.false_eq_true, if_false, Bool.xor_true,
    Bool.xor_false, Bool.not_true, Bool.not_false] <;> ring

theorem bitwiseXor_all {x y : Priv (BitVec w)} {a b : Bool} (hx : Holds x (bit a))
    (hy : Holds y (bit b)) :
    (bitwiseXor (p := p) x y).All fun z => Holds z (bit (a ^^ b)) := by
  unfold bitwiseXor bitwiseAnd
  rw [all_bind]
  refine All.mono (fun z hz => ?_) (mul_all hx hy)
  rw [all_pure, ← bit_xor]
  exact (hx.add hy).sub (hz.mulPub 2)

/-- Odd coins: what the sampler of the odd ring is meant to return, and non-zero masks. -/
def Coins.Good (k : Coins w p) : Prop := IsOdd k.r0 ∧ IsOdd k.r1 ∧ ∀ i, k.mask i ≠ 0

theorem parity (m V R c : ℕ) (hm : m % 2 = 1) (hV : V < m) (hR : R < m) (hc : c = (V + R) % m) :
    (decide (c < R) ^^ (decide (R % 2 = 1) ^^ decide (c % 2 = 1))) = decide (V % 2 = 1) := by
  have : c = V + R ∨ (c = V + R - m ∧ m ≤ V + R) := by
    by_cases h : V + R < m
    · left; rw [hc, Nat.mod_eq_of_lt h]
    · right; rw [hc, Nat.mod_eq_sub_mod (by omega), Nat.mod_eq_of_lt (by omega)]; omega
  by_cases h1 : c < R <;> by_cases h2 : R % 2 = 1 <;> by_cases h3 : c % 2 = 1 <;>
    simp [h1, h2, h3] <;> omega

theorem getLsbD_zero_toNat (x : BitVec w) : x.getLsbD 0 = decide (x.toNat % 2 = 1) := by
  rw [← BitVec.testBit_toNat, Nat.testBit_zero]

/-- The least significant bit of a value shared in the odd ring. -/
theorem lsb_all [Fact p.Prime] (hw : 2 ≤ w) (hp : w + 1 < p) (x : Priv (BitVec w)) (h0 : IsOdd x.x0)
    (h1 : IsOdd x.x1) (k : Coins w p) (hk : k.Good) :
    (lsb x k.r0 k.r1 k.β k.mask).All fun z =>
      Holds z (bit (decide ((x.x0.toNat + x.x1.toNat) % (2 ^ w - 1) % 2 = 1))) := by
  obtain ⟨r0, r1, β, mask⟩ := k
  obtain ⟨k0, k1, km⟩ := hk
  simp only at k0 k1 km ⊢
  unfold lsb
  simp only
  rw [all_bind]
  refine All.mono (fun rBits hrBits => ?_) (shareBits_all _)
  rw [all_bind]
  refine All.mono (fun rLsb hrLsb => ?_) (shareWord_all _)
  rw [all_bind]
  refine All.mono (fun g hg => ?_) (private_compare (by omega) hp _ _ β mask km rBits hrBits)
  have hγ := Holds.bitwiseXorPub (show Holds g (bit (_ ^^ β)) from hg) (bit β)
  rw [bit_xor] at hγ
  have hδ := Holds.bitwiseXorPub (show Holds rLsb (bit ((oddAdd r0 r1).getLsbD 0)) from hrLsb)
    (bit ((oddAdd (oddAdd x.x0 r0) (oddAdd x.x1 r1)).getLsbD 0))
  rw [bit_xor] at hδ
  refine All.mono (fun z hz => ?_) (bitwiseXor_all hγ hδ)
  refine Eq.trans hz ?_
  congr 1
  rw [Bool.xor_assoc _ β β, Bool.xor_self, Bool.xor_false, getLsbD_zero_toNat, getLsbD_zero_toNat]
  have h4 : 4 ≤ 2 ^ w := by
    calc 4 = 2 ^ 2 := by norm_num
      _ ≤ 2 ^ w := Nat.pow_le_pow_right (by omega) hw
  refine parity (2 ^ w - 1) _ _ _ ?_ (Nat.mod_lt _ (by omega)) ?_ ?_
  · have : 2 ^ w = 2 * 2 ^ (w - 1) := by rw [← pow_succ']; congr 1; omega
    omega
  · exact (isOdd_iff (by omega) _).1 (odd_arithmetic hw _ _ k0 k1).2.1
  · rw [oddAdd_toNat hw _ _ (odd_arithmetic hw _ _ h0 k0).2.1 (odd_arithmetic hw _ _ h1 k1).2.1,
      oddAdd_toNat hw _ _ h0 k0, oddAdd_toNat hw _ _ h1 k1, oddAdd_toNat hw _ _ k0 k1]
    simp only [Nat.add_mod_mod, Nat.mod_add_mod]
    congr 1
    ring

/-- What `msb` computes: whether the sum of the shares, taken modulo `2^w - 1`, is at least half. -/
def msbOf (x0 x1 : BitVec w) : Bool := decide (2 ^ (w - 1) ≤ (x0.toNat + x1.toNat) % (2 ^ w - 1))

theorem msb_all [Fact p.Prime] (hw : 2 ≤ w) (hp : w + 1 < p) (x : Priv (BitVec w)) (k : Coins w p)
    (hk : k.Good) : (msb x k).All fun z => Holds z (bit (msbOf x.x0 x.x1)) := by
  unfold msb
  simp only
  have l0 := odd_lift hw x.x0
  have l1 := odd_lift hw x.x1
  refine All.mono (fun z hz => Eq.trans hz ?_) (lsb_all hw hp _
    (odd_arithmetic hw (oddLift x.x0) (oddLift x.x0) l0.1 l0.1).2.1
    (odd_arithmetic hw (oddLift x.x1) (oddLift x.x1) l1.1 l1.1).2.1 k hk)
  congr 1
  unfold msbOf
  show decide (((oddAdd (oddLift x.x0) (oddLift x.x0)).toNat +
    (oddAdd (oddLift x.x1) (oddLift x.x1)).toNat) % (2 ^ w - 1) % 2 = 1) = _
  rw [oddAdd_toNat hw _ _ l0.1 l0.1, oddAdd_toNat hw _ _ l1.1 l1.1, l0.2, l1.2]
  simp only [Nat.add_mod_mod, Nat.mod_add_mod]
  have hW : 2 ^ w = 2 * 2 ^ (w - 1) := by rw [← pow_succ']; congr 1; omega
  have hh : 2 ≤ 2 ^ (w - 1) := by
    calc 2 = 2 ^ 1 := by norm_num
      _ ≤ 2 ^ (w - 1) := Nat.pow_le_pow_right (by omega) (by omega)
  generalize (2 : ℕ) ^ (w - 1) = H at *
  generalize x.x0.toNat = a
  generalize x.x1.toNat = b
  rw [hW]
  generalize hm : 2 * H - 1 = m
  have hlt : (a + b) % m < m := Nat.mod_lt _ (by omega)
  have e : ∀ a', a' % m = a % m → (a' + a + (b + b)) % m = (2 * ((a + b) % m)) % m := by
    intro a' h
    rw [Nat.mul_mod_mod, show a' + a + (b + b) = a' + (a + b + b) by ring, Nat.add_mod, h,
      ← Nat.add_mod]
    congr 1; ring
  rw [decide_eq_decide, e _ (by simp)]
  generalize (a + b) % m = Y at *
  by_cases h : 2 * Y < m
  · rw [Nat.mod_eq_of_lt h]; omega
  · have : 2 * Y % m = 2 * Y - m := by
      rw [Nat.mod_eq_sub_mod (by omega), Nat.mod_eq_of_lt (by omega)]
    rw [this]; omega

theorem toNat_add_split (x y : BitVec w) : x.toNat + y.toNat = (x + y).toNat ∨
    x.toNat + y.toNat = (x + y).toNat + 2 ^ w := by
  rw [BitVec.toNat_add]
  have h1 := x.isLt
  have h2 := y.isLt
  by_cases h : x.toNat + y.toNat < 2 ^ w
  · left; rw [Nat.mod_eq_of_lt h]
  · right; rw [Nat.mod_eq_sub_mod (by omega), Nat.mod_eq_of_lt (by omega)]; omega

theorem toInt_lt_zero_iff (hw : 0 < w) (x : BitVec w) : x.toInt < 0 ↔ 2 ^ (w - 1) ≤ x.toNat := by
  have hW : 2 ^ w = 2 * 2 ^ (w - 1) := by rw [← pow_succ']; congr 1; omega
  have := x.isLt
  rw [BitVec.toInt_eq_toNat_cond]
  split <;> omega

/-- Away from three values the sign is right, however the value is shared. -/
theorem msbOf_good (hw : 2 ≤ w) (x0 x1 : BitVec w) (h1 : (x0 + x1).toInt ≠ -1)
    (h2 : (x0 + x1).toInt ≠ -2) (h3 : (x0 + x1).toInt ≠ 2 ^ (w - 1) - 1) :
    msbOf x0 x1 = decide ((x0 + x1).toInt < 0) := by
  unfold msbOf
  rw [decide_eq_decide, toInt_lt_zero_iff (by omega)]
  have hs := toNat_add_split x0 x1
  generalize x0 + x1 = x at *
  have hW : 2 ^ w = 2 * 2 ^ (w - 1) := by rw [← pow_succ']; congr 1; omega
  have hh : 2 ≤ 2 ^ (w - 1) := by
    calc 2 = 2 ^ 1 := by norm_num
      _ ≤ 2 ^ (w - 1) := Nat.pow_le_pow_right (by omega) (by omega)
  have hx := x.isLt
  rw [BitVec.toInt_eq_toNat_cond] at h1 h2 h3
  have hH : ((2 ^ (w - 1) : ℕ) : ℤ) = 2 ^ (w - 1) := by push_cast; rfl
  rw [← hH] at h3
  generalize (2 : ℕ) ^ (w - 1) = H at *
  generalize (2 : ℕ) ^ w = W at *
  generalize x0.toNat + x1.toNat = S at *
  generalize x.toNat = X at *
  have hX1 : X ≠ W - 1 := by intro h; split at h1 <;> omega
  have hX2 : X ≠ W - 2 := by intro h; split at h2 <;> omega
  have hX3 : X ≠ H - 1 := by intro h; split at h3 <;> omega
  rcases hs with h | h
  · rw [h, Nat.mod_eq_of_lt (by omega)]
  · rw [h, show X + W = X + 1 + (W - 1) by omega, Nat.add_mod_right, Nat.mod_eq_of_lt (by omega)]
    omega

/-- Minus one is never found negative. -/
theorem msbOf_minus_one (hw : 2 ≤ w) (x0 x1 : BitVec w) (h : (x0 + x1).toInt = -1) :
    msbOf x0 x1 = false := by
  unfold msbOf
  rw [decide_eq_false_iff_not]
  have hs := toNat_add_split x0 x1
  generalize x0 + x1 = x at *
  have hW : 2 ^ w = 2 * 2 ^ (w - 1) := by rw [← pow_succ']; congr 1; omega
  have hh : 2 ≤ 2 ^ (w - 1) := by
    calc 2 = 2 ^ 1 := by norm_num
      _ ≤ 2 ^ (w - 1) := Nat.pow_le_pow_right (by omega) (by omega)
  have hx := x.isLt
  rw [BitVec.toInt_eq_toNat_cond] at h
  generalize (2 : ℕ) ^ (w - 1) = H at *
  generalize (2 : ℕ) ^ w = W at *
  generalize x0.toNat + x1.toNat = S at *
  generalize x.toNat = X at *
  have hX1 : X = W - 1 := by split at h <;> omega
  rcases hs with h | h
  · rw [h, hX1, Nat.mod_self]; omega
  · rw [h, show X + W = 1 + (W - 1) + (W - 1) by omega, Nat.add_mod_right, Nat.add_mod_right,
      Nat.mod_eq_of_lt (by omega)]
    omega

end Verif.SecureNN
