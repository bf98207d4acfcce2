import Verif.Pond.Trunc
import Verif.Fixed.Lemmas
import Verif.Helpers.Props

namespace Verif.Pond

open Verif.Fixed RandM

theorem drawBits_lt {S : Type} {T : S → Type} (k : ℕ) :
    (drawBits (T := T) k).All fun r => r < 2 ^ k := by
  induction k with
  | zero => simp [drawBits]
  | succ k ih =>
    intro b
    rw [all_bind]
    refine All.mono (fun r hr => ?_) ih
    simp only [all_pure]
    have : b.toNat ≤ 1 := Bool.toNat_le b
    rw [pow_succ]; omega

theorem drawMasks_lt {S : Type} {T : S → Type} (k n : ℕ) :
    (drawMasks (T := T) k n).All fun r => ∀ i, r i < 2 ^ k := by
  induction n with
  | zero => simp [drawMasks]
  | succ n ih =>
    unfold drawMasks
    rw [all_bind]
    refine All.mono (fun r hr => ?_) (drawBits_lt k)
    rw [all_bind]
    refine All.mono (fun rs hrs => ?_) ih
    simp only [all_pure]
    intro i
    refine Fin.cases ?_ ?_ i
    · simpa using hr
    · intro j; simpa using hrs j

theorem inverse_spec {F : Factory} {s : ℕ} (hm : 0 < F.modulus) {inv : ℤ}
    (h : Helpers.inverse s F.modulus = some inv) : (s : ZMod F.modulus) * (inv : ZMod F.modulus) = 1 := by
  have := ((Helpers.inverse_correct_partial s F.modulus (by positivity) (by exact_mod_cast hm)).1 inv).mp h
  have h4 := this.2.2.2
  rw [← ZMod.intCast_eq_intCast_iff] at h4
  push_cast at h4
  exact h4

theorem divTrunc_eq {F : Factory} {s : ℕ} {inv : ℤ} (h : (s : ZMod F.modulus) * (inv : ZMod _) = 1)
    (x : ZMod F.modulus) : divTrunc F s inv x = ((F.rep x / s : ℤ) : ZMod F.modulus) := by
  unfold divTrunc
  have e : x = ((s * (F.rep x / s) + F.rep x % s : ℤ) : ZMod F.modulus) := by
    rw [Int.mul_ediv_add_emod, F.cast_rep]
  have e2 : x - ((F.rep x % s : ℤ) : ZMod F.modulus) = (s : ZMod F.modulus) * ((F.rep x / s : ℤ) : ZMod F.modulus) := by
    conv_lhs => lhs; rw [e]
    push_cast; ring
  rw [e2, mul_comm (s : ZMod F.modulus), mul_assoc, h, mul_one]

/-- Truncation of a tensor element is floor division of the integer it stands for. -/
theorem tensorTruncate_eq {F : Factory} {b : Backend} {base amount : ℕ} (hm : 0 < F.modulus)
    {tr : ZMod F.modulus → ZMod F.modulus} (h : tensorTruncate F b base amount = some tr)
    (x : ZMod F.modulus) : tr x = ((F.rep x / (base ^ amount : ℕ) : ℤ) : ZMod F.modulus) := by
  unfold tensorTruncate at h
  split at h
  next hc =>
    cases h
    simp [shiftTrunc, hc.2]
  next hc =>
    cases hi : Helpers.inverse (base ^ amount : ℕ) F.modulus with
    | none => rw [hi] at h; simp at h
    | some inv =>
      rw [hi] at h
      simp only [Option.map_some, Option.some.injEq] at h
      rw [← h]
      exact divTrunc_eq (inverse_spec hm hi) x

theorem scale_dvd_rotation (c : Config) (hb : 0 < c.base) (sc : Bool) : c.scale ∣ rotation c sc := by
  have h : c.boundDouble = c.scale * c.scale * c.base ^ c.pInt := by
    unfold Config.boundDouble Config.scale
    rw [pow_add, two_mul, pow_add]; ring
  have hs : 0 < c.scale := Nat.pow_pos hb
  unfold rotation
  split
  · rw [h]; exact ⟨c.scale * c.base ^ c.pInt, by ring⟩
  · rw [h, mul_assoc, Nat.mul_div_cancel_left _ hs]; exact ⟨_, rfl⟩

/-- Arithmetic core of the interactive truncation. -/
theorem lower_part (x k s r : ℤ) (hs : 0 < s) (hk : s ∣ k) :
    ∃ e : ℤ, (e = 0 ∨ e = 1) ∧ (e = 1 ↔ s ≤ x % s + r % s) ∧
      x - ((x + k + r) % s - r % s) = s * (x / s + e) := by
  obtain ⟨q, rfl⟩ := hk
  have h1 : (x + s * q + r) % s = (x + r) % s := by
    rw [show x + s * q + r = x + r + s * q by ring, Int.add_mul_emod_self_left]
  have hx0 := Int.emod_nonneg x hs.ne'
  have hx1 := Int.emod_lt_of_pos x hs
  have hr0 := Int.emod_nonneg r hs.ne'
  have hr1 := Int.emod_lt_of_pos r hs
  have hxd := Int.mul_ediv_add_emod x s
  rw [h1, Int.add_emod]
  by_cases h : s ≤ x % s + r % s
  · refine ⟨1, Or.inr rfl, by simp [h], ?_⟩
    have : (x % s + r % s) % s = x % s + r % s - s := by
      rw [← Int.sub_emod_right, Int.emod_eq_of_lt] <;> linarith
    rw [this]; linarith
  · refine ⟨0, Or.inl rfl, by simp [h], ?_⟩
    have : (x % s + r % s) % s = x % s + r % s := Int.emod_eq_of_lt (by linarith) (by linarith)
    rw [this]; linarith

end Verif.Pond
