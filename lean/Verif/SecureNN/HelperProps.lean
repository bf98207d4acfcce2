import Verif.SecureNN.Props

/-!
# What the helper server sees (C56), and the sampler of the odd ring

In `_lsb_private` server 2 draws `r0`, `r1`, and in `_private_compare` it receives the masked vector
`d`. The code does not permute `d`.
-/

namespace Verif.SecureNN

open Pond (Priv)
open RandM

variable {w p : ℕ}

/-- What server 2 receives during `_lsb_private` (securenn.py:594-664, 671-751), besides its own
samples `r0`, `r1`: the vector `d`. -/
def helperView (x : Priv (BitVec w)) (k : Coins w p) : RandM (T w p) (Fin w → ZMod p) :=
  let rRaw := oddAdd k.r0 k.r1
  (shareBits (bitsOf rRaw)).bind fun rBits =>
    let c := oddAdd (oddAdd x.x0 k.r0) (oddAdd x.x1 k.r1)
    compareMasked rBits c k.β k.mask

/-- The vector received, as a function of the secret value, the samples, the bit and the mask. -/
theorem helperView_eq (x : Priv (BitVec w)) (k : Coins w p) :
    (helperView x k).All fun d => d = clearVector (oddAdd k.r0 k.r1)
      (oddAdd (oddAdd x.x0 k.r0) (oddAdd x.x1 k.r1)) k.β * k.mask := by
  unfold helperView
  simp only
  rw [all_bind]
  exact All.mono (fun rBits hr => compareMasked_eq hr _ _ _) (shareBits_all _)

/-- **C56** is false: the helper learns about the operand. When its own samples are 0, which it knows,
position 1 of the vector is non-zero for every run on the value 0 and zero for every run on the value
1 with blinding bit 1. Any 2-bit or wider ring, any sharing, any masks. -/
theorem helper_learns_false [Fact p.Prime] (hw : 2 ≤ w) (hp : w + 1 < p) (mask : Fin w → ZMod p)
    (hm : ∀ i, mask i ≠ 0) (x x' : Priv (BitVec w)) (h0 : IsOdd x.x0) (h1 : IsOdd x.x1)
    (h0' : IsOdd x'.x0) (h1' : IsOdd x'.x1)
    (hx : (x.x0.toNat + x.x1.toNat) % (2 ^ w - 1) = 0)
    (hx' : (x'.x0.toNat + x'.x1.toNat) % (2 ^ w - 1) = 1) :
    (∀ β, (helperView x ⟨0, 0, β, mask⟩).All fun d => d ⟨1, by omega⟩ ≠ 0) ∧
    (helperView x' ⟨0, 0, true, mask⟩).All fun d => d ⟨1, by omega⟩ = 0 := by
  obtain ⟨W1, W2⟩ := half_facts hw
  have z : IsOdd (0 : BitVec w) := by
    rw [isOdd_iff (by omega)]
    show (0#w).toNat < _
    rw [BitVec.toNat_zero]; omega
  have z0 : (0 : BitVec w).toNat = 0 := BitVec.toNat_zero
  have r0 : oddAdd (0 : BitVec w) 0 = 0 := by
    apply BitVec.eq_of_toNat_eq
    rw [oddAdd_toNat hw _ _ z z, z0]; rfl
  have hc : ∀ x : Priv (BitVec w), IsOdd x.x0 → IsOdd x.x1 →
      (oddAdd (oddAdd x.x0 0) (oddAdd x.x1 0)).toNat = (x.x0.toNat + x.x1.toNat) % (2 ^ w - 1) := by
    intro x h0 h1
    rw [oddAdd_toNat hw _ _ (odd_arithmetic hw _ _ h0 z).2.1 (odd_arithmetic hw _ _ h1 z).2.1,
      oddAdd_toNat hw _ _ h0 z, oddAdd_toNat hw _ _ h1 z, z0]
    simp
  have cx : oddAdd (oddAdd x.x0 0) (oddAdd x.x1 0) = 0 := by
    apply BitVec.eq_of_toNat_eq
    rw [hc x h0 h1, hx, z0]
  have h1w : (1#w).toNat = 1 := by
    rw [BitVec.toNat_ofNat, Nat.mod_eq_of_lt (by omega)]
  have cx' : oddAdd (oddAdd x'.x0 0) (oddAdd x'.x1 0) = 1#w := by
    apply BitVec.eq_of_toNat_eq
    rw [hc x' h0' h1', hx', h1w]
  have tb : ∀ (n i : ℕ), n < 2 ^ w → (BitVec.ofNat w n).getLsbD i = n.testBit i := by
    intro n i hn
    rw [← BitVec.testBit_toNat, BitVec.toNat_ofNat, Nat.mod_eq_of_lt hn]
  constructor
  · intro β
    refine All.mono (fun d hd => ?_) (helperView_eq x ⟨0, 0, β, mask⟩)
    simp only [r0, cx] at hd
    rw [hd, Pi.mul_apply]
    refine mul_ne_zero ?_ (hm _)
    unfold clearVector
    cases β
    · rw [if_neg (by decide)]
      rw [Ne, score_cast_zero hp]
      rintro ⟨h, -⟩
      rw [show (0 : BitVec w) = 0#w from rfl, BitVec.getLsbD_zero] at h
      cases h
    · rw [if_pos rfl, if_neg]
      · rw [Ne, score_cast_zero hp]
        rintro ⟨h, -⟩
        rw [show (0 : BitVec w) + 1#w = BitVec.ofNat w 1 by
          rw [show (0 : BitVec w) = 0#w from rfl]; simp, tb 1 1 (by omega)] at h
        revert h; decide
      · intro h
        have := congrArg BitVec.toNat h
        rw [show (0 : BitVec w) + 1#w = 1#w by rw [show (0 : BitVec w) = 0#w from rfl]; simp, h1w,
          BitVec.toNat_zero] at this
        omega
  · refine All.mono (fun d hd => ?_) (helperView_eq x' ⟨0, 0, true, mask⟩)
    simp only [r0, cx'] at hd
    rw [hd, Pi.mul_apply]
    have h2 : (1#w + 1#w) = BitVec.ofNat w 2 := by
      apply BitVec.eq_of_toNat_eq
      rw [BitVec.toNat_add, h1w, BitVec.toNat_ofNat]
    have : (clearVector 0 (1#w) true ⟨1, by omega⟩ : ZMod p) = 0 := by
      unfold clearVector
      rw [if_pos rfl, h2, if_neg]
      · rw [score_cast_zero hp]
        refine ⟨?_, ?_, fun j hj => ?_⟩
        · rw [tb 2 1 (by omega)]; decide
        · rw [show (0 : BitVec w) = 0#w from rfl, BitVec.getLsbD_zero]
        · rw [tb 2 j.val (by omega), show (0 : BitVec w) = 0#w from rfl, BitVec.getLsbD_zero]
          have hj : 1 < j.val := hj
          exact Nat.testBit_eq_false_of_lt (by
            calc 2 = 2 ^ 1 := by norm_num
              _ < 2 ^ j.val := Nat.pow_lt_pow_right (by omega) hj)
      · intro h
        have := congrArg BitVec.toNat h
        rw [BitVec.toNat_ofNat, BitVec.toNat_zero] at this
        have h4 : 2 < 2 ^ w := by omega
        rw [Nat.mod_eq_of_lt h4] at this
        omega
    rw [this, zero_mul]

/-- **C56**, what does hold: the vector shows nothing but where it is zero. If the vectors of two runs
have their zeros at the same places, the masks can be matched one to one such that server 2 receives
the same. -/
theorem helper_view_partial [Fact p.Prime] (c c' : Fin w → ZMod p) (h : ∀ i, c i = 0 ↔ c' i = 0) :
    ∃ e : {m : Fin w → ZMod p // ∀ i, m i ≠ 0} ≃ {m : Fin w → ZMod p // ∀ i, m i ≠ 0},
      ∀ m, c' * (e m).1 = c * m.1 := by
  let f : (Fin w → ZMod p) → (Fin w → ZMod p) → Fin w → ZMod p :=
    fun a b i => if a i = 0 then 1 else a i / b i
  have ne : ∀ a b : Fin w → ZMod p, (∀ i, a i = 0 ↔ b i = 0) → ∀ i, f a b i ≠ 0 := by
    intro a b hab i
    simp only [f]
    split
    · exact one_ne_zero
    · rename_i ha
      exact div_ne_zero ha (mt (hab i).2 ha)
  have inv : ∀ a b : Fin w → ZMod p, (∀ i, a i = 0 ↔ b i = 0) → ∀ i, f a b i * f b a i = 1 := by
    intro a b hab i
    simp only [f]
    by_cases ha : a i = 0
    · rw [if_pos ha, if_pos ((hab i).1 ha), one_mul]
    · have hb := mt (hab i).2 ha
      rw [if_neg ha, if_neg hb, div_mul_div_comm, mul_comm (b i), div_self (mul_ne_zero ha hb)]
  refine ⟨⟨fun m => ⟨f c c' * m.1, fun i => mul_ne_zero (ne c c' h i) (m.2 i)⟩,
    fun m => ⟨f c' c * m.1, fun i => mul_ne_zero (ne c' c (fun i => (h i).symm) i) (m.2 i)⟩,
    fun m => ?_, fun m => ?_⟩, fun m => ?_⟩
  · apply Subtype.ext
    funext i
    show f c' c i * (f c c' i * m.1 i) = m.1 i
    rw [← mul_assoc, inv c' c (fun i => (h i).symm), one_mul]
  · apply Subtype.ext
    funext i
    show f c c' i * (f c' c i * m.1 i) = m.1 i
    rw [← mul_assoc, inv c c' h, one_mul]
  · funext i
    show c' i * (f c c' i * m.1 i) = c i * m.1 i
    simp only [f]
    by_cases ha : c i = 0
    · rw [ha, (h i).1 ha, zero_mul, zero_mul]
    · rw [if_neg ha, ← mul_assoc, mul_div_cancel₀ _ (mt (h i).2 ha)]

/-- The sampler of the odd ring can return -1 (`Sampling.odd_sample_false`), which is not an element.
With `r0 = 0`, `r1 = -1` the least significant bit of 1 comes out as 0. -/
theorem lsb_sampler_false [Fact p.Prime] (hw : 2 ≤ w) (hp : w + 1 < p) (β : Bool)
    (mask : Fin w → ZMod p) (hm : ∀ i, mask i ≠ 0) :
    (lsb ⟨1#w, 0⟩ 0 (-1#w) β mask).All fun z => z.x0 + z.x1 = 0 := by
  obtain ⟨W1, W2⟩ := half_facts hw
  have hr : oddAdd (0 : BitVec w) (-1#w) = -1#w := by
    rw [odd_add_minus_one_false hw, show (0 : BitVec w) = 0#w from rfl, BitVec.zero_sub]
  have hn := toNat_neg_one (w := w) (by omega)
  have z0 : (0 : BitVec w).toNat = 0 := BitVec.toNat_zero
  have h1w : (1#w).toNat = 1 := by
    rw [BitVec.toNat_ofNat, Nat.mod_eq_of_lt (by omega)]
  have z : IsOdd (0 : BitVec w) := by rw [isOdd_iff (by omega), z0]; omega
  have o : IsOdd (1#w) := by rw [isOdd_iff (by omega), h1w]; omega
  have r0 : oddAdd (1#w) 0 = 1#w := by
    apply BitVec.eq_of_toNat_eq
    rw [oddAdd_toNat hw _ _ o z, z0, h1w, Nat.mod_eq_of_lt (by omega)]
  have rc : oddAdd (1#w) (-1#w) = 0 := by
    rw [odd_add_minus_one_false hw]; exact sub_self _
  unfold lsb
  simp only
  rw [hr, r0, rc]
  rw [all_bind]
  refine All.mono (fun rBits hrBits => ?_) (shareBits_all _)
  rw [all_bind]
  refine All.mono (fun rLsb hrLsb => ?_) (shareWord_all _)
  rw [all_bind]
  refine All.mono (fun g hg => ?_) (private_compare (by omega) hp _ _ β mask hm rBits hrBits)
  have hγ := Holds.bitwiseXorPub (show Holds g (bit (_ ^^ β)) from hg) (bit β)
  rw [bit_xor] at hγ
  have hδ := Holds.bitwiseXorPub (show Holds rLsb (bit ((-1#w).getLsbD 0)) from hrLsb)
    (bit ((0 : BitVec w).getLsbD 0))
  rw [bit_xor] at hδ
  refine All.mono (fun z hz => ?_) (bitwiseXor_all hγ hδ)
  refine Eq.trans hz ?_
  rw [getLsbD_zero_toNat, getLsbD_zero_toNat, hn, z0, decide_eq_true (p := 0 < 2 ^ w - 1) (by omega),
    decide_eq_true (p := (2 ^ w - 1) % 2 = 1) (by omega)]
  cases β <;> rfl

end Verif.SecureNN
