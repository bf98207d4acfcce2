import Mathlib.Data.BitVec
import Mathlib.Tactic.Ring
import Mathlib.Tactic.Linarith
import Mathlib.SetTheory.Cardinal.Finite
import Mathlib.Order.Interval.Finset.Basic
import Mathlib.Data.Int.Interval
import Verif.Core.Arith

/-!
# Words as signed integers
-/

namespace Verif.Bits

variable {w : ℕ}

theorem ofInt_eq_iff (a b : ℤ) : BitVec.ofInt w a = BitVec.ofInt w b ↔ (2 ^ w : ℤ) ∣ a - b := by
  have hp : (0 : ℤ) < 2 ^ w := by positivity
  rw [← BitVec.toNat_inj, BitVec.toNat_ofInt, BitVec.toNat_ofInt]
  have h1 : 0 ≤ a % ((2 ^ w : ℕ) : ℤ) := Int.emod_nonneg _ (by push_cast; exact hp.ne')
  have h2 : 0 ≤ b % ((2 ^ w : ℕ) : ℤ) := Int.emod_nonneg _ (by push_cast; exact hp.ne')
  constructor
  · intro h
    have : a % ((2 ^ w : ℕ) : ℤ) = b % ((2 ^ w : ℕ) : ℤ) := by omega
    push_cast at this
    exact Int.ModEq.dvd (Int.ModEq.symm this)
  · intro h
    have : a % ((2 ^ w : ℕ) : ℤ) = b % ((2 ^ w : ℕ) : ℤ) := by
      push_cast
      exact Int.emod_eq_emod_iff_emod_sub_eq_zero.2 (Int.emod_eq_zero_of_dvd h)
    rw [this]

theorem ofInt_add (a b : ℤ) : BitVec.ofInt w (a + b) = BitVec.ofInt w a + BitVec.ofInt w b :=
  BitVec.ofInt_add a b

theorem ofInt_neg (a : ℤ) : BitVec.ofInt w (-a) = -BitVec.ofInt w a := by
  have h : BitVec.ofInt w (-a) + BitVec.ofInt w a = 0 := by
    rw [← ofInt_add]; simp
  exact eq_neg_of_add_eq_zero_left h

theorem ofInt_sub (a b : ℤ) : BitVec.ofInt w (a - b) = BitVec.ofInt w a - BitVec.ofInt w b := by
  rw [sub_eq_add_neg, ofInt_add, ofInt_neg, sub_eq_add_neg]

theorem ofInt_mul (a b : ℤ) : BitVec.ofInt w (a * b) = BitVec.ofInt w a * BitVec.ofInt w b := by
  apply BitVec.eq_of_toInt_eq
  rw [BitVec.toInt_mul, BitVec.toInt_ofInt, BitVec.toInt_ofInt, BitVec.toInt_ofInt]
  simp

theorem ofInt_natCast (a : ℕ) : BitVec.ofInt w (a : ℤ) = BitVec.ofNat w a := BitVec.ofInt_natCast w a

theorem pow_split (hw : 0 < w) : (2 : ℤ) ^ w = 2 * 2 ^ (w - 1) := by
  rw [← pow_succ']; congr 1; omega

theorem toInt_range (x : BitVec w) :
    -2 ^ (w - 1) ≤ x.toInt ∧ x.toInt < (2 : ℤ) ^ (w - 1) :=
  ⟨BitVec.le_toInt x, BitVec.toInt_lt⟩

theorem toInt_ofInt (hw : 0 < w) {i : ℤ} (h0 : -2 ^ (w - 1) ≤ i) (h1 : i < 2 ^ (w - 1)) :
    (BitVec.ofInt w i).toInt = i := by
  rw [BitVec.toInt_ofInt]
  have hp := pow_split hw
  have : ((2 ^ w : ℕ) : ℤ) = 2 * 2 ^ (w - 1) := by push_cast; exact hp
  apply Int.bmod_eq_of_le <;> rw [this] <;> omega

theorem toInt_add_of (hw : 0 < w) {x y : BitVec w} (h0 : -2 ^ (w - 1) ≤ x.toInt + y.toInt)
    (h1 : x.toInt + y.toInt < 2 ^ (w - 1)) : (x + y).toInt = x.toInt + y.toInt := by
  rw [← toInt_ofInt hw h0 h1, ofInt_add, BitVec.ofInt_toInt, BitVec.ofInt_toInt]

theorem toInt_sub_of (hw : 0 < w) {x y : BitVec w} (h0 : -2 ^ (w - 1) ≤ x.toInt - y.toInt)
    (h1 : x.toInt - y.toInt < 2 ^ (w - 1)) : (x - y).toInt = x.toInt - y.toInt := by
  rw [← toInt_ofInt hw h0 h1, ofInt_sub, BitVec.ofInt_toInt, BitVec.ofInt_toInt]

/-- The arithmetic right shift is the floor of the division by a power of two. -/
theorem sar_eq (x : BitVec w) (a : ℕ) : x.sshiftRight a = BitVec.ofInt w (x.toInt / 2 ^ a) := by
  rw [← BitVec.ofInt_toInt (x := x.sshiftRight a), BitVec.toInt_sshiftRight,
    Int.shiftRight_eq_div_pow]
  push_cast; rfl

theorem shr_eq (x : BitVec w) (a : ℕ) : x >>> a = BitVec.ofNat w (x.toNat / 2 ^ a) := by
  apply BitVec.eq_of_toNat_eq
  rw [BitVec.toNat_ushiftRight, Nat.shiftRight_eq_div_pow, BitVec.toNat_ofNat]
  exact (Nat.mod_eq_of_lt (lt_of_le_of_lt (Nat.div_le_self _ _) x.isLt)).symm

/-- Counting words by their signed values. -/
theorem card_toInt (hw : 0 < w) (P : ℤ → Prop) [DecidablePred P] :
    Nat.card {x : BitVec w // P x.toInt}
      = ((Finset.Ico (-(2 : ℤ) ^ (w - 1)) (2 ^ (w - 1))).filter P).card := by
  rw [← Fintype.card_coe, ← Nat.card_eq_fintype_card]
  refine Nat.card_congr ⟨fun x => ⟨x.1.toInt, Finset.mem_filter.2 ⟨?_, x.2⟩⟩,
    fun v => ⟨BitVec.ofInt w v.1, ?_⟩, ?_, ?_⟩
  · exact Finset.mem_Ico.2 (toInt_range x.1)
  · have h := Finset.mem_filter.1 v.2
    have := Finset.mem_Ico.1 h.1
    rw [toInt_ofInt hw this.1 this.2]; exact h.2
  · intro x; exact Subtype.ext BitVec.ofInt_toInt
  · intro v
    have := Finset.mem_Ico.1 (Finset.mem_filter.1 v.2).1
    exact Subtype.ext (toInt_ofInt hw this.1 this.2)

/-- The integer is the signed value of some word. -/
def Fits (w : ℕ) (v : ℤ) : Prop := -2 ^ (w - 1) ≤ v ∧ v < (2 : ℤ) ^ (w - 1)

instance (v : ℤ) : Decidable (Fits w v) := inferInstanceAs (Decidable (_ ∧ _))

/-- Exactly `|u + 1|` words `r` make the signed difference `u - r` overflow. -/
theorem card_overflow (hw : 0 < w) (u : BitVec w) :
    Nat.card {r : BitVec w // ¬ Fits w (u.toInt - r.toInt)} = (u.toInt + 1).natAbs := by
  have hu := toInt_range u
  rw [card_toInt hw (fun v => ¬ Fits w (u.toInt - v))]
  obtain ⟨k, hk⟩ : ∃ k, k = (2 : ℤ) ^ (w - 1) := ⟨_, rfl⟩
  rw [← hk] at hu ⊢
  rcases lt_or_ge u.toInt 0 with h0 | h0
  · have : (Finset.Ico (-k) k).filter (fun v => ¬ Fits w (u.toInt - v))
        = Finset.Ico (u.toInt + k + 1) k := by
      ext v; simp only [Finset.mem_filter, Finset.mem_Ico, Fits, ← hk]; constructor <;> intro h <;> omega
    rw [this, Int.card_Ico]; omega
  · have : (Finset.Ico (-k) k).filter (fun v => ¬ Fits w (u.toInt - v))
        = Finset.Ico (-k) (u.toInt - k + 1) := by
      ext v; simp only [Finset.mem_filter, Finset.mem_Ico, Fits, ← hk]; constructor <;> intro h <;> omega
    rw [this, Int.card_Ico]; omega

end Verif.Bits
