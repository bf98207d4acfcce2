import Verif.Sampling.Model
import Verif.Bits.Int
import Mathlib.Data.Fintype.EquivFin
import Mathlib.SetTheory.Cardinal.Finite
import Mathlib.Data.BitVec

/-! # Lemmas on samplers -/

namespace Verif.Sampling

variable {w : ℕ}

/-- There are finitely many words. -/
scoped instance fintypeWord (w : ℕ) : Fintype (BitVec w) :=
  Fintype.ofEquiv (Fin (2 ^ w)) BitVec.equivFin.symm.toEquiv

/-- The size of `[minval, maxval)`. -/
def span (lo hi : BitVec w) : ℕ := (hi.toInt - lo.toInt).toNat

theorem range_toNat {lo hi : BitVec w} (h : lo.toInt < hi.toInt) :
    (hi - 1#w - lo + 1#w).toNat = span lo hi ∧ 0 < span lo hi ∧ span lo hi < 2 ^ w := by
  have e : hi - 1#w - lo + 1#w = hi - lo := by ring
  rw [e]
  have h1 := Bits.toInt_range hi
  have h2 := Bits.toInt_range lo
  have hw : 0 < w := by
    rcases Nat.eq_zero_or_pos w with rfl | hw
    · have e1 : lo = 0#0 := Subsingleton.elim _ _
      have e2 : hi = 0#0 := Subsingleton.elim _ _
      rw [e1, e2] at h; omega
    · exact hw
  have hp := Bits.pow_split hw
  unfold span
  refine ⟨?_, by omega, by zify; omega⟩
  have h3 : (hi - lo).toInt = (hi.toInt - lo.toInt).bmod (2 ^ w) := BitVec.toInt_sub ..
  have h4 : ((hi - lo).toNat : ℤ) = (hi.toInt - lo.toInt) % (2 ^ w : ℕ) := by
    have h5 : ((hi - lo).toNat : ℤ) ≡ hi.toInt - lo.toInt [ZMOD (2 ^ w : ℕ)] := by
      have h6 : (hi - lo).toInt ≡ hi.toInt - lo.toInt [ZMOD (2 ^ w : ℕ)] := by
        rw [h3]; exact Int.bmod_emod
      have h7 : (hi - lo).toInt ≡ (hi - lo).toNat [ZMOD (2 ^ w : ℕ)] := by
        rw [BitVec.toInt_eq_toNat_bmod]; exact Int.bmod_emod
      exact h7.symm.trans h6
    rw [← h5]
    exact (Int.emod_eq_of_lt (by positivity) (by exact_mod_cast (hi - lo).isLt)).symm
  have h8 : (hi.toInt - lo.toInt) % (2 ^ w : ℕ) = hi.toInt - lo.toInt :=
    Int.emod_eq_of_lt (by omega) (by push_cast; omega)
  omega

/-- `uniform`, with integers: the words below the largest multiple of the span are accepted. -/
theorem uniform_eq {lo hi : BitVec w} (h : lo.toInt < hi.toInt) (raw : BitVec w) :
    uniform lo hi raw = if raw.toNat < span lo hi * (2 ^ w / span lo hi) then
      some (BitVec.ofInt w (lo.toInt + (raw.toNat % span lo hi : ℕ))) else none := by
  obtain ⟨hr, hpos, hlt⟩ := range_toNat h
  unfold uniform
  simp only
  generalize hR : span lo hi = R at *
  generalize hi - 1#w - lo + 1#w = range at *
  have hones : (BitVec.allOnes w).toNat = 2 ^ w - 1 := BitVec.toNat_allOnes
  have h1 : (BitVec.allOnes w - range + 1#w).toNat = 2 ^ w - R := by
    have e : BitVec.allOnes w - range + 1#w = -range := by
      have : BitVec.allOnes w = -1#w := (BitVec.neg_one_eq_allOnes).symm
      rw [this]; ring
    rw [e, BitVec.toNat_neg, hr, Nat.mod_eq_of_lt (by omega)]
  have h2 : ((BitVec.allOnes w - range + 1#w) % range).toNat = 2 ^ w % R := by
    rw [BitVec.toNat_umod, h1, hr]
    conv_rhs => rw [show 2 ^ w = 2 ^ w - R + R by omega, Nat.add_mod_right]
  have h3 : (BitVec.allOnes w - (BitVec.allOnes w - range + 1#w) % range).toNat
      = 2 ^ w - 1 - 2 ^ w % R := by
    have hm : 2 ^ w % R < R := Nat.mod_lt _ hpos
    rw [BitVec.toNat_sub_of_le, hones, h2]
    rw [BitVec.le_def, hones, h2]; omega
  have hdm := Nat.div_add_mod (2 ^ w) R
  have hm : 2 ^ w % R < R := Nat.mod_lt _ hpos
  by_cases hc : raw.toNat < R * (2 ^ w / R)
  · rw [if_neg (by rw [BitVec.lt_def, h3]; omega), if_pos hc]
    congr 1
    apply BitVec.eq_of_toNat_eq
    have : BitVec.ofInt w (lo.toInt + (raw.toNat % R : ℕ)) = lo + BitVec.ofNat w (raw.toNat % R) := by
      rw [BitVec.ofInt_add, BitVec.ofInt_toInt, BitVec.ofInt_natCast]
    rw [this]
    congr 2
    apply BitVec.eq_of_toNat_eq
    rw [BitVec.toNat_umod, hr, BitVec.toNat_ofNat, Nat.mod_eq_of_lt (a := raw.toNat % R)]
    exact (Nat.mod_lt _ hpos).trans hlt
  · rw [if_pos (by rw [BitVec.lt_def, h3]; omega), if_neg hc]

/-- The number of words below `R * Q` with a given remainder. -/
theorem card_residue {R Q r : ℕ} (hr : r < R) (hle : R * Q ≤ 2 ^ w) :
    Nat.card {raw : BitVec w // raw.toNat < R * Q ∧ raw.toNat % R = r} = Q := by
  have hb : ∀ q : Fin Q, R * q.val + r < 2 ^ w := fun q => by
    have h1 : R * q.val + R ≤ R * Q := by
      rw [← Nat.mul_succ]; exact Nat.mul_le_mul_left _ q.isLt
    omega
  have e : {raw : BitVec w // raw.toNat < R * Q ∧ raw.toNat % R = r} ≃ Fin Q :=
    { toFun := fun x => ⟨x.1.toNat / R, by
        rw [Nat.div_lt_iff_lt_mul (by omega)]; exact x.2.1.trans_eq (mul_comm _ _)⟩
      invFun := fun q => ⟨BitVec.ofNat w (R * q.val + r), by
        rw [BitVec.toNat_ofNat, Nat.mod_eq_of_lt (hb q)]
        have h1 : R * q.val + R ≤ R * Q := by
          rw [← Nat.mul_succ]; exact Nat.mul_le_mul_left _ q.isLt
        refine ⟨by omega, ?_⟩
        rw [Nat.mul_add_mod, Nat.mod_eq_of_lt hr]⟩
      left_inv := fun x => by
        apply Subtype.ext
        apply BitVec.eq_of_toNat_eq
        have h1 := Nat.div_add_mod x.1.toNat R
        rw [x.2.2] at h1
        simp only [BitVec.toNat_ofNat]
        rw [h1, Nat.mod_eq_of_lt x.1.isLt]
      right_inv := fun q => by
        apply Fin.ext
        simp only [BitVec.toNat_ofNat]
        rw [Nat.mod_eq_of_lt (hb q), Nat.mul_add_div (by omega), Nat.div_eq_of_lt hr, add_zero] }
  rw [Nat.card_congr e, Nat.card_eq_fintype_card, Fintype.card_fin]

end Verif.Sampling
