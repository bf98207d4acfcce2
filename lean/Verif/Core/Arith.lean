import Mathlib.Tactic.Linarith
import Mathlib.Tactic.Ring
import Mathlib.Data.Int.ModEq
import Mathlib.Algebra.Order.Group.Unbundled.Int

/-!
# Integer division helpers
-/

namespace Verif

theorem ediv_eq {a s q : ℤ} (hs : 0 < s) (h0 : s * q ≤ a) (h1 : a < s * q + s) : a / s = q :=
  ((Int.ediv_emod_unique hs (r := a - s * q)).mpr ⟨by ring, by linarith, by linarith⟩).1

/-- Arithmetic core: floor of one part plus ceiling of the other. -/
theorem floor_sub_floor (u v s : ℤ) (hs : 0 < s) :
    ∃ e : ℤ, (e = 0 ∨ e = 1) ∧ u / s - v / s = (u - v) / s + e := by
  have hu := Int.mul_ediv_add_emod u s
  have hv := Int.mul_ediv_add_emod v s
  have hu0 := Int.emod_nonneg u hs.ne'
  have hu1 := Int.emod_lt_of_pos u hs
  have hv0 := Int.emod_nonneg v hs.ne'
  have hv1 := Int.emod_lt_of_pos v hs
  by_cases h : v % s ≤ u % s
  · refine ⟨0, Or.inl rfl, ?_⟩
    rw [ediv_eq (a := u - v) hs (q := u / s - v / s) (by linarith) (by linarith)]; ring
  · refine ⟨1, Or.inr rfl, ?_⟩
    rw [ediv_eq (a := u - v) hs (q := u / s - v / s - 1) (by linarith) (by linarith)]; ring

/-- Arithmetic core: floor of both parts. -/
theorem floor_add_floor (u v s : ℤ) (hs : 0 < s) :
    ∃ e : ℤ, (e = -1 ∨ e = 0) ∧ u / s + v / s = (u + v) / s + e := by
  have hu := Int.mul_ediv_add_emod u s
  have hv := Int.mul_ediv_add_emod v s
  have hu0 := Int.emod_nonneg u hs.ne'
  have hu1 := Int.emod_lt_of_pos u hs
  have hv0 := Int.emod_nonneg v hs.ne'
  have hv1 := Int.emod_lt_of_pos v hs
  by_cases h : s ≤ v % s + u % s
  · refine ⟨-1, Or.inl rfl, ?_⟩
    rw [ediv_eq (a := u + v) hs (q := u / s + v / s + 1) (by linarith) (by linarith)]; ring
  · refine ⟨0, Or.inr rfl, ?_⟩
    rw [ediv_eq (a := u + v) hs (q := u / s + v / s) (by linarith) (by linarith)]; ring

end Verif
