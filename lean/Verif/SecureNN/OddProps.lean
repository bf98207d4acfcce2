import Verif.SecureNN.Model
import Verif.Bits.Int
import Mathlib.Tactic.Linarith
import Mathlib.Tactic.Ring

/-! # Odd rings (C34)

The ring of integers modulo `2^w - 1`; its elements are the `w`-bit words other than `-1`, a word
standing for its unsigned value. -/

namespace Verif.SecureNN

variable {w : ℕ}

/-- The word is an element of the odd ring. -/
def IsOdd (x : BitVec w) : Prop := x ≠ -1#w

theorem toNat_neg_one (hw : 0 < w) : (-1#w).toNat = 2 ^ w - 1 := by
  rw [BitVec.neg_one_eq_allOnes, BitVec.toNat_allOnes]

theorem isOdd_iff (hw : 0 < w) (x : BitVec w) : IsOdd x ↔ x.toNat < 2 ^ w - 1 := by
  unfold IsOdd
  rw [ne_eq, ← BitVec.toNat_inj, toNat_neg_one hw]
  have := x.isLt
  omega

theorem and_sshift (hw : 0 < w) (x : BitVec w) :
    x.sshiftRight (w - 1) &&& 1#w = if x.msb then 1#w else 0#w := by
  ext i hi
  rw [BitVec.getElem_and, BitVec.getElem_sshiftRight]
  have h1 : (1#w)[i] = decide (i = 0) := by
    rw [BitVec.getElem_one]
  rw [h1]
  by_cases h0 : i = 0
  · subst h0
    simp only [add_zero, Bool.and_eq_true, decide_true, Bool.and_true]
    have hm : x.msb = x[w - 1]'(by omega) := by
      rw [BitVec.msb_eq_getLsbD_last, BitVec.getLsbD_eq_getElem (by omega)]
    rw [dif_pos (by omega), ← hm]
    cases x.msb <;> simp [BitVec.getElem_one]
  · simp only [h0, decide_false, Bool.and_false]
    cases x.msb <;> simp [h0, BitVec.getElem_one]

/-- The unsigned comparison is right. -/
theorem ltu_eq (hw : 0 < w) (x y : BitVec w) :
    ltu x y = if x.toNat < y.toNat then 1#w else 0#w := by
  unfold ltu
  simp only
  rw [and_sshift hw]
  have key : ((~~~x &&& y) ||| ((~~~x ||| y) &&& (x - y))).msb = decide (x.toNat < y.toNat) := by
    rw [BitVec.msb_or, BitVec.msb_and, BitVec.msb_and, BitVec.msb_or, BitVec.msb_not]
    have hx := x.isLt
    have hy := y.isLt
    have hp : 2 ^ w = 2 * 2 ^ (w - 1) := by rw [← pow_succ']; congr 1; omega
    have e1 := BitVec.msb_eq_decide x
    have e2 := BitVec.msb_eq_decide y
    have e3 := BitVec.msb_eq_decide (x - y)
    rw [e1, e2, e3]
    have hs : (x - y).toNat = if x.toNat < y.toNat then 2 ^ w + x.toNat - y.toNat
        else x.toNat - y.toNat := by
      rw [BitVec.toNat_sub]
      split
      · rw [Nat.mod_eq_of_lt (by omega)]; omega
      · rw [show 2 ^ w - y.toNat + x.toNat = x.toNat - y.toNat + 2 ^ w by omega, Nat.add_mod_right,
          Nat.mod_eq_of_lt (by omega)]
    rw [hs]
    have hd : decide (0 < w) = true := by simpa using hw
    simp only [hd, Bool.true_and]
    by_cases h1 : 2 ^ (w - 1) ≤ x.toNat <;> by_cases h2 : 2 ^ (w - 1) ≤ y.toNat <;>
      by_cases h3 : x.toNat < y.toNat <;> simp [h1, h2, h3] <;> omega
  rw [key]
  by_cases h : x.toNat < y.toNat <;> simp [h]

/-- Addition in the odd ring. -/
theorem oddAdd_toNat (hw : 2 ≤ w) (x y : BitVec w) (hx : IsOdd x) (hy : IsOdd y) :
    (oddAdd x y).toNat = (x.toNat + y.toNat) % (2 ^ w - 1) := by
  rw [isOdd_iff (by omega)] at hx hy
  unfold oddAdd
  simp only
  rw [ltu_eq (by omega)]
  have h4 : 4 ≤ 2 ^ w := by
    calc 4 = 2 ^ 2 := by norm_num
      _ ≤ 2 ^ w := Nat.pow_le_pow_right (by norm_num) hw
  have h2 : (2#w).toNat = 2 := by
    rw [BitVec.toNat_ofNat, Nat.mod_eq_of_lt (by omega)]
  have h1 : (1#w).toNat = 1 := by
    rw [BitVec.toNat_ofNat, Nat.mod_eq_of_lt (by omega)]
  have hn : (-2#w).toNat = 2 ^ w - 2 := by
    rw [BitVec.toNat_neg, h2, Nat.mod_eq_of_lt (by omega)]
  have hb : (-2#w - y).toNat = 2 ^ w - 2 - y.toNat := by
    rw [BitVec.toNat_sub_of_le (by rw [BitVec.le_def, hn]; omega), hn]
  rw [hb, BitVec.toNat_add, BitVec.toNat_add]
  by_cases hc : 2 ^ w - 2 - y.toNat < x.toNat
  · rw [if_pos hc, h1]
    have e : (x.toNat + y.toNat) % (2 ^ w - 1) = x.toNat + y.toNat - (2 ^ w - 1) := by
      rw [Nat.mod_eq_sub_mod (by omega), Nat.mod_eq_of_lt (by omega)]
    rw [e, Nat.mod_add_mod, show x.toNat + y.toNat + 1
      = x.toNat + y.toNat - (2 ^ w - 1) + 2 ^ w by omega, Nat.add_mod_right, Nat.mod_eq_of_lt (by omega)]
  · rw [if_neg hc, BitVec.toNat_zero, add_zero, Nat.mod_mod, Nat.mod_eq_of_lt (by omega),
      Nat.mod_eq_of_lt (by omega)]

/-- Subtraction in the odd ring. -/
theorem oddSub_toNat (hw : 2 ≤ w) (x y : BitVec w) (hx : IsOdd x) (hy : IsOdd y) :
    ((oddSub x y).toNat : ℤ) = ((x.toNat : ℤ) - y.toNat) % (2 ^ w - 1) := by
  rw [isOdd_iff (by omega)] at hx hy
  unfold oddSub
  simp only
  rw [ltu_eq (by omega)]
  have h4 : 4 ≤ 2 ^ w := by
    calc 4 = 2 ^ 2 := by norm_num
      _ ≤ 2 ^ w := Nat.pow_le_pow_right (by norm_num) hw
  have h4' : (4 : ℤ) ≤ 2 ^ w := by exact_mod_cast h4
  have h1 : (1#w).toNat = 1 := by
    rw [BitVec.toNat_ofNat, Nat.mod_eq_of_lt (by omega)]
  by_cases hc : x.toNat < y.toNat
  · rw [if_pos hc]
    have hs : (x - y).toNat = 2 ^ w + x.toNat - y.toNat := by
      rw [BitVec.toNat_sub, Nat.mod_eq_of_lt (by omega)]; omega
    rw [BitVec.toNat_sub_of_le (by rw [BitVec.le_def, hs, h1]; omega), hs, h1]
    have e : ((x.toNat : ℤ) - y.toNat) % (2 ^ w - 1) = (x.toNat : ℤ) - y.toNat + (2 ^ w - 1) := by
      have hy' : (y.toNat : ℤ) < 2 ^ w - 1 := by zify [show 1 ≤ 2 ^ w by omega] at hy; exact hy
      have hc' : (x.toNat : ℤ) < y.toNat := by exact_mod_cast hc
      rw [← Int.add_emod_right, Int.emod_eq_of_lt] <;> omega
    rw [e]
    zify [show 1 ≤ 2 ^ w + x.toNat - y.toNat by omega, show y.toNat ≤ 2 ^ w + x.toNat by omega]
    ring
  · rw [if_neg hc, BitVec.sub_zero, BitVec.toNat_sub_of_le (by rw [BitVec.le_def]; omega),
      Int.emod_eq_of_lt (by omega) (by zify [show 1 ≤ 2 ^ w by omega] at hx; omega)]
    omega

/-- **C34.** Sums and differences in the odd ring are the sums and differences modulo `2^w - 1`, for
every pair of elements and every width, and the excluded word never appears. -/
theorem odd_arithmetic (hw : 2 ≤ w) (x y : BitVec w) (hx : IsOdd x) (hy : IsOdd y) :
    (oddAdd x y).toNat = (x.toNat + y.toNat) % (2 ^ w - 1) ∧ IsOdd (oddAdd x y) ∧
    ((oddSub x y).toNat : ℤ) = ((x.toNat : ℤ) - y.toNat) % (2 ^ w - 1) ∧ IsOdd (oddSub x y) := by
  have h4 : 4 ≤ 2 ^ w := by
    calc 4 = 2 ^ 2 := by norm_num
      _ ≤ 2 ^ w := Nat.pow_le_pow_right (by norm_num) hw
  have h4' : (4 : ℤ) ≤ 2 ^ w := by exact_mod_cast h4
  refine ⟨oddAdd_toNat hw x y hx hy, ?_, oddSub_toNat hw x y hx hy, ?_⟩
  · rw [isOdd_iff (by omega), oddAdd_toNat hw x y hx hy]
    exact Nat.mod_lt _ (by omega)
  · rw [isOdd_iff (by omega)]
    have h := oddSub_toNat hw x y hx hy
    have := Int.emod_lt_of_pos ((x.toNat : ℤ) - y.toNat) (show (0 : ℤ) < 2 ^ w - 1 by omega)
    zify [show 1 ≤ 2 ^ w by omega]
    omega

/-- **C34, lifting.** Any word is lifted to an element of the ring with the same value modulo
`2^w - 1`. -/
theorem odd_lift (hw : 2 ≤ w) (x : BitVec w) :
    IsOdd (oddLift x) ∧ (oddLift x).toNat = x.toNat % (2 ^ w - 1) := by
  have h4 : 4 ≤ 2 ^ w := by
    calc 4 = 2 ^ 2 := by norm_num
      _ ≤ 2 ^ w := Nat.pow_le_pow_right (by norm_num) hw
  unfold oddLift
  split
  · rename_i h
    rw [isOdd_iff (by omega), h, toNat_neg_one (by omega), Nat.mod_self, BitVec.toNat_zero]
    omega
  · rename_i h
    have h' := (isOdd_iff (by omega) x).1 h
    exact ⟨h, (Nat.mod_eq_of_lt h').symm⟩

/-- Outside the ring addition is wrong: adding the excluded word, which the sampler does return
(`Sampling.odd_sample_false`), is not adding zero. -/
theorem odd_add_minus_one_false (hw : 2 ≤ w) (x : BitVec w) : oddAdd x (-1#w) = x - 1#w := by
  unfold oddAdd
  simp only
  rw [ltu_eq (by omega)]
  have e : -2#w - -1#w = -1#w := by
    have : (2#w) = 1#w + 1#w := by
      apply BitVec.eq_of_toNat_eq; simp
    rw [this]; ring
  rw [e, toNat_neg_one (by omega), if_neg (by have := x.isLt; omega), BitVec.add_zero]
  ring

/-- Bytes: 200 + 100 = 45 and 3 - 5 = 253 modulo 255. -/
example : (oddAdd 200#8 100#8) = 45#8 ∧ oddSub 3#8 5#8 = 253#8 ∧ IsOdd 200#8 := by
  refine ⟨by decide, by decide, by unfold IsOdd; decide⟩

end Verif.SecureNN
