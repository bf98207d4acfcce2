import Verif.Fixed.Model

namespace Verif.Fixed

namespace Factory
variable (F : Factory)

theorem rep_mem (h : 0 < F.modulus) (x : ZMod F.modulus) :
    F.lo ≤ F.rep x ∧ F.rep x < F.lo + F.modulus := by
  have hm : (0 : ℤ) < F.modulus := by exact_mod_cast h
  have h1 := Int.emod_nonneg ((x.cast : ℤ) - F.lo) hm.ne'
  have h2 := Int.emod_lt_of_pos ((x.cast : ℤ) - F.lo) hm
  unfold rep
  constructor <;> linarith

theorem cast_rep (x : ZMod F.modulus) : ((F.rep x : ℤ) : ZMod F.modulus) = x := by
  unfold rep
  have : ((((x.cast : ℤ) - F.lo) % F.modulus : ℤ) : ZMod F.modulus)
      = (((x.cast : ℤ) - F.lo : ℤ) : ZMod F.modulus) := by
    rw [ZMod.intCast_eq_intCast_iff]
    exact Int.mod_modEq _ _
  rw [Int.cast_add, this, Int.cast_sub, ZMod.intCast_zmod_cast]
  ring

/-- The representative of (the residue of) an integer in the window is the integer itself. -/
theorem rep_cast (v : ℤ) (h0 : F.lo ≤ v) (h1 : v < F.lo + F.modulus) :
    F.rep (v : ZMod F.modulus) = v := by
  have hp : 0 < F.modulus := by
    rcases Nat.eq_zero_or_pos F.modulus with h | h
    · rw [h] at h1; simp at h1; omega
    · exact h
  have hm : (0 : ℤ) < F.modulus := by exact_mod_cast hp
  have hc := F.cast_rep (v : ZMod F.modulus)
  rw [ZMod.intCast_eq_intCast_iff] at hc
  have hb := F.rep_mem hp (v : ZMod F.modulus)
  have hd := Int.eq_zero_of_abs_lt_dvd hc.dvd (by rw [abs_lt]; constructor <;> linarith)
  linarith

/-- For any integer the representative differs by a multiple of the modulus. -/
theorem rep_cast_eq (v : ℤ) : ∃ k : ℤ, F.rep (v : ZMod F.modulus) = v + k * F.modulus := by
  have hc := F.cast_rep (v : ZMod F.modulus)
  rw [ZMod.intCast_eq_intCast_iff] at hc
  obtain ⟨k, hk⟩ := hc.symm.dvd
  exact ⟨k, by linarith⟩

end Factory

theorem toInt_of_nonneg {q : ℚ} (h : 0 ≤ q) : toInt q = ⌊q⌋ := if_pos h
theorem toInt_of_neg {q : ℚ} (h : q < 0) : toInt q = ⌈q⌉ := if_neg (not_le.mpr h)

theorem toInt_intCast (n : ℤ) : toInt (n : ℚ) = n := by
  unfold toInt; split <;> simp

/-- Conversion towards zero: within one, and never larger in magnitude. -/
theorem toInt_spec (q : ℚ) : |(toInt q : ℚ)| ≤ |q| ∧ |(toInt q : ℚ) - q| < 1 ∧
    0 ≤ (toInt q : ℚ) * q := by
  rcases le_or_gt 0 q with h | h
  · rw [toInt_of_nonneg h]
    have h0 : (0 : ℚ) ≤ ⌊q⌋ := by exact_mod_cast Int.floor_nonneg.mpr h
    have h1 := Int.floor_le q
    have h2 := Int.lt_floor_add_one q
    refine ⟨by rw [abs_of_nonneg h0, abs_of_nonneg h]; exact h1, ?_, mul_nonneg h0 h⟩
    rw [abs_lt]; constructor <;> linarith
  · rw [toInt_of_neg h]
    have h0 : (⌈q⌉ : ℚ) ≤ 0 := by exact_mod_cast Int.ceil_le.mpr (by simpa using h.le)
    have h1 := Int.le_ceil q
    have h2 := Int.ceil_lt_add_one q
    refine ⟨by rw [abs_of_nonpos h0, abs_of_neg h]; linarith, ?_, mul_nonneg_of_nonpos_of_nonpos h0 h.le⟩
    rw [abs_lt]; constructor <;> linarith

end Verif.Fixed
