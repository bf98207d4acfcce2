import Verif.Aby3.AverageProps
import Verif.Aby3.PolyProps

/-! # Products with a number: both runs, and the error -/

namespace Verif.Aby3

open Verif

variable {w n : ℕ} {σ : Fin 3}

attribute [local irreducible] M.All M.Sim

/-- The two runs of an operation: values in both runs that are related to the inputs by `R`. -/
def Both (σ : Fin 3) {s : Srt} (R R' : T s → Prop) (o o' : Shares (T s)) : Prop :=
  ∃ z z', R z ∧ R' z' ∧ Alike σ z z' o o'

theorem numRun_sim {frac : ℕ} {c : ℚ} {plan : DivPlan w}
    (hp : numPlan w frac c = .ok plan) {x x' : T (.arith w n)} {X X' : Shares (T (.arith w n))}
    (hx : Alike σ x x' X X') :
    M.Sim σ (Both σ (s := .arith w n) (fun z => ∀ i, DivVal frac plan (x i) (z i))
      (fun z => ∀ i, DivVal frac plan (x' i) (z i))) (divRun frac plan X) (divRun frac plan X') := by
  unfold numPlan at hp
  split at hp
  · cases hp
    exact .pure ⟨x, x', fun _ => rfl, fun _ => rfl, hx⟩
  · cases hp
    exact .pure ⟨_, _, fun _ => rfl, fun _ => rfl, hx.map (f := alift (· <<< _)) fun a b => by
      funext i
      exact BitVec.shiftLeft_add_distrib⟩
  · split at hp
    · cases hp
    · rename_i p hpl
      cases hp
      refine (heurRun_round (heurPlan_bound hpl) hpl hx).mono ?_
      rintro o o' ⟨z, z', hz, hz', -, ho⟩
      exact ⟨z, z', hz, hz', ho⟩
  · split at hp
    · cases hp
    · rename_i pl hpl
      cases hp
      have key := hx.bilinPub (u := .arith w n) (t := .arith w n) (f := fun u v => emul id id u v)
        (fun a b c => by rw [map_add]; rfl) (c := fun _ => constWord w frac c)
        (y := fun _ _ => constWord w frac c) (y' := fun _ _ => constWord w frac c) (fun _ => rfl) (fun _ => rfl)
      refine (mulRound_sim hpl key).mono ?_
      rintro o o' ⟨z, z', hz, hz', -, ho⟩
      unfold mulPlan at hpl
      simp only [Bool.and_self, if_true] at hpl
      split at hpl
      · cases hpl
      · simp only [Except.ok.injEq] at hpl
        subst hpl
        exact ⟨z, z', hz, hz', ho⟩

/-- A product with a number, in words. -/
theorem num_close {frac : ℕ} (hw : 2 ≤ w) {c : ℚ} {plan : DivPlan w} (hp : numPlan w frac c = .ok plan)
    {x z : BitVec w} (hz : DivVal frac plan x z) {q ε : ℚ} (hx : Close frac x q ε)
    (hc : |c| * 2 ^ frac < 2 ^ (w - 1))
    (hr : (|q| + ε) * (|c| + 1 / 2 ^ frac) * (2 ^ frac * 2 ^ frac) < 2 ^ (w - 2)) :
    Close frac z (c * q) (|c| * ε + (|q| + ε + 1) / 2 ^ frac) := by
  have hN : (0 : ℚ) < 2 ^ frac := by positivity
  have hε := hx.nonneg
  have hqa := abs_nonneg q
  have hsl : (0 : ℚ) ≤ (|q| + ε + 1) / 2 ^ frac := by positivity
  unfold numPlan at hp
  split at hp
  · rename_i hl
    cases hp
    obtain rfl : z = x := hz
    have := log2?_eq hl
    have h1 : c = 1 := by rw [this]; simp
    rw [h1, one_mul, abs_one, one_mul]
    exact hx.mono (by linarith)
  · rename_i a' hl
    cases hp
    obtain rfl : z = x <<< (a' + 1) := hz
    have hc' : c = 2 ^ (a' + 1) := by
      rw [log2?_eq hl]
      exact zpow_natCast _ _
    obtain ⟨V, e, h⟩ := hx
    refine Close.mono (ε := |c| * ε) ⟨V * 2 ^ (a' + 1), ?_, ?_⟩ (by linarith)
    · rw [e, Bits.ofInt_mul, BitVec.shiftLeft_eq_mul_twoPow]
      congr 1
      apply BitVec.eq_of_toNat_eq
      rw [BitVec.toNat_twoPow, show ((2 : ℤ) ^ (a' + 1)) = ((2 ^ (a' + 1) : ℕ) : ℤ) by push_cast; rfl,
        Bits.ofInt_natCast, BitVec.toNat_ofNat]
    · rw [hc']
      push_cast
      rw [show (V : ℚ) * 2 ^ (a' + 1) / 2 ^ frac - 2 ^ (a' + 1) * q = 2 ^ (a' + 1) * ((V : ℚ) / 2 ^ frac - q) by ring,
        abs_mul]
      exact mul_le_mul_of_nonneg_left h (abs_nonneg _)
  · rename_i a' hl
    split at hp
    · cases hp
    · cases hp
      have hc' : c = 1 / 2 ^ (a' + 1) := by
        rw [log2?_eq hl, zpow_negSucc, one_div]
      have hcp : 0 ≤ c := by rw [hc']; positivity
      have := hx.shift hw (a := a' + 1) ?_ hz
      · rw [← hc'] at this
        rw [abs_of_nonneg hcp]
        refine this.mono (by
          have : (1 : ℚ) / 2 ^ frac ≤ (|q| + ε + 1) / 2 ^ frac :=
            div_le_div_of_nonneg_right (by linarith) hN.le
          linarith)
      · refine lt_of_le_of_lt ?_ hr
        have e1 : (|q| + ε) * (|c| + 1 / 2 ^ frac) * (2 ^ frac * 2 ^ frac) =
            (|q| + ε) * 2 ^ frac + (|q| + ε) * |c| * (2 ^ frac * 2 ^ frac) := by field_simp; ring
        rw [e1]
        have : 0 ≤ (|q| + ε) * |c| * (2 ^ frac * 2 ^ frac) := by positivity
        linarith
  · split at hp
    · cases hp
    · rename_i pl hpl
      cases hp
      have hv : Close frac (constWord w frac c) c (1 / 2 ^ frac) :=
        ⟨_, BitVec.ofInt_toInt.symm, (const_toward (by omega) hc).2⟩
      unfold mulPlan at hpl
      simp only [Bool.and_self, if_true] at hpl
      split at hpl
      · cases hpl
      · simp only [Except.ok.injEq] at hpl
        subst hpl
        have := Close.mul_round hw hx hv hr hz
        rw [mul_comm q c] at this
        refine this.mono (le_of_eq ?_)
        ring

end Verif.Aby3
