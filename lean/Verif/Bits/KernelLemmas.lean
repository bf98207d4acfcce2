import Verif.Bits.Kernels
import Mathlib.Tactic.IntervalCases
import Mathlib.Data.Nat.Bitwise

namespace Verif.Bits

/-! ## Reversal -/

theorem swapStep_bit (s : ℕ) (m v : BitVec 32) (i : ℕ) (hi : i < 32) :
    (swapStep s m v).getLsbD i =
      ((v.getLsbD (i + s) && m.getLsbD i) || (decide (s ≤ i) && (v.getLsbD (i - s) && m.getLsbD (i - s)))) := by
  unfold swapStep
  simp only [BitVec.getLsbD_or, BitVec.getLsbD_and, BitVec.getLsbD_ushiftRight,
    BitVec.getLsbD_shiftLeft]
  rw [Nat.add_comm s i]
  simp only [hi, decide_true, Bool.true_and]
  by_cases h : i < s
  · have : ¬ s ≤ i := by omega
    simp [h, this]
  · have : s ≤ i := by omega
    simp [h, this]

/-- A mask that selects the positions whose bit `s = 2^e` is clear. -/
def IsMask (s : ℕ) (m : BitVec 32) : Prop :=
  ∀ i < 32, (m.getLsbD i = true ↔ i ^^^ s = i + s) ∧ (m.getLsbD i = false → s ≤ i ∧ i ^^^ s = i - s ∧
    m.getLsbD (i - s) = true) ∧ (m.getLsbD i = true → s ≤ i → m.getLsbD (i - s) = false) ∧
    i ^^^ s < 32

instance (s : ℕ) (m : BitVec 32) : Decidable (IsMask s m) := by
  unfold IsMask; infer_instance

theorem swapStep_xor {s : ℕ} {m : BitVec 32} (hm : IsMask s m) (v : BitVec 32) (i : ℕ) (hi : i < 32) :
    (swapStep s m v).getLsbD i = v.getLsbD (i ^^^ s) := by
  rw [swapStep_bit s m v i hi]
  obtain ⟨h1, h2, h3, _⟩ := hm i hi
  cases hb : m.getLsbD i
  · obtain ⟨a, b, c⟩ := h2 hb
    simp [a, b, c]
  · rw [h1.1 hb]
    by_cases hs : s ≤ i
    · simp [hs, h3 hb hs]
    · simp [hs]

theorem u32Reverse_bit (v : BitVec 32) (i : ℕ) (hi : i < 32) :
    (u32Reverse v).getLsbD i = v.getLsbD (31 - i) := by
  have m1 : IsMask 1 0x55555555#32 := by decide
  have m2 : IsMask 2 0x33333333#32 := by decide
  have m4 : IsMask 4 0x0F0F0F0F#32 := by decide
  have m8 : IsMask 8 0x00FF00FF#32 := by decide
  have last : ∀ v : BitVec 32, ((v >>> 16) ||| (v <<< 16)).getLsbD i = v.getLsbD (i ^^^ 16) := by
    intro v
    simp only [BitVec.getLsbD_or, BitVec.getLsbD_ushiftRight, BitVec.getLsbD_shiftLeft, hi,
      decide_true, Bool.true_and]
    by_cases h : i < 16
    · have e : i ^^^ 16 = 16 + i := by clear v; revert i; decide
      simp [h, e]
    · have e : i ^^^ 16 = i - 16 := by clear v; revert i; decide
      rw [e, BitVec.getLsbD_of_ge v (16 + i) (by omega)]
      simp [h]
  unfold u32Reverse
  have b1 : i ^^^ 16 < 32 := by clear last v; revert i; decide
  have b2 := (m8 _ b1).2.2.2
  have b3 := (m4 _ b2).2.2.2
  have b4 := (m2 _ b3).2.2.2
  simp only
  rw [last, swapStep_xor m8 _ _ b1, swapStep_xor m4 _ _ b2, swapStep_xor m2 _ _ b3,
    swapStep_xor m1 _ _ b4]
  congr 1
  clear last b1 b2 b3 b4 v
  revert i
  decide

theorem word_bit {w : ℕ} (v : BitVec w) (i j : ℕ) (hj : j < 32) :
    (word v i).getLsbD j = v.getLsbD (32 * i + j) := by
  unfold word
  rw [BitVec.getLsbD_extractLsb']
  simp [hj]

theorem reverse64_bit (v : BitVec 64) (i : ℕ) (hi : i < 64) :
    (reverse64 v).getLsbD i = v.getLsbD (63 - i) := by
  unfold reverse64
  simp only
  rw [BitVec.getLsbD_append]
  by_cases h : i < 32
  · rw [if_pos h]
    rw [u32Reverse_bit _ _ h, word_bit _ _ _ (by omega)]
    congr 1; omega
  · rw [if_neg h]
    rw [u32Reverse_bit _ _ (by omega), word_bit _ _ _ (by omega)]
    congr 1; omega

theorem reverse128_bit (v : BitVec 128) (i : ℕ) (hi : i < 128) :
    (reverse128 v).getLsbD i = v.getLsbD (127 - i) := by
  unfold reverse128
  simp only
  rw [BitVec.getLsbD_append]
  by_cases h : i < 64
  · rw [if_pos (show i < 32 + 32 from h)]
    rw [BitVec.getLsbD_append]
    by_cases h' : i < 32
    · rw [if_pos h']
      rw [u32Reverse_bit _ _ h', word_bit _ _ _ (by omega)]
      congr 1; omega
    · rw [if_neg h']
      rw [u32Reverse_bit _ _ (by omega), word_bit _ _ _ (by omega)]
      congr 1; omega
  · rw [if_neg (show ¬ i < 32 + 32 from h)]
    rw [BitVec.getLsbD_append]
    by_cases h' : i - (32 + 32) < 32
    · rw [if_pos h']
      rw [u32Reverse_bit _ _ h', word_bit _ _ _ (by omega)]
      congr 1; omega
    · rw [if_neg h']
      rw [u32Reverse_bit _ _ (by omega), word_bit _ _ _ (by omega)]
      congr 1; omega

/-! ## Positions of set bits -/

/-- The xor of the set positions `d, …, d+n-1` (shifted down by `d`). -/
def xorSpan {w : ℕ} (v : BitVec w) : ℕ → ℕ → BitVec 64
  | _, 0 => 0
  | d, n + 1 => (if v.getLsbD d then BitVec.ofNat 64 d else 0) ^^^ xorSpan v (d + 1) n

theorem xorSpan_zero {w : ℕ} (v : BitVec w) : ∀ (n d : ℕ), (∀ i, d ≤ i → v.getLsbD i = false) →
    xorSpan v d n = 0
  | 0, _, _ => rfl
  | n + 1, d, h => by
      rw [xorSpan, h d le_rfl, xorSpan_zero v n (d + 1) fun i hi => h i (by omega)]
      simp

theorem xorLoop_eq {w : ℕ} (v : BitVec w) : ∀ (n d : ℕ) (u : BitVec w) (ans : BitVec 64),
    (∀ i, u.getLsbD i = v.getLsbD (d + i)) → xorLoop u d ans n = ans ^^^ xorSpan v d n
  | 0, _, _, ans, _ => by simp [xorLoop, xorSpan]
  | n + 1, d, u, ans, h => by
      unfold xorLoop
      split
      · rename_i hu
        subst hu
        rw [xorSpan_zero v _ d]
        · simp
        · intro i hi
          have := h (i - d)
          rw [show d + (i - d) = i by omega] at this
          rw [← this]; simp
      · rw [xorLoop_eq v n (d + 1) (u >>> 1) _ fun i => by
          rw [BitVec.getLsbD_ushiftRight, h]; congr 1; omega]
        have h0 := h 0
        rw [Nat.add_zero] at h0
        rw [h0, xorSpan]
        split
        · rw [BitVec.xor_assoc]
        · simp

theorem xorSpan_xor {w : ℕ} (a b : BitVec w) : ∀ (n d : ℕ),
    xorSpan (a ^^^ b) d n = xorSpan a d n ^^^ xorSpan b d n
  | 0, _ => by simp [xorSpan]
  | n + 1, d => by
      simp only [xorSpan]
      rw [xorSpan_xor a b n (d + 1), BitVec.getLsbD_xor]
      generalize xorSpan a (d + 1) n = p
      generalize xorSpan b (d + 1) n = q
      cases a.getLsbD d <;> cases b.getLsbD d <;> simp
      · rw [← BitVec.xor_assoc, ← BitVec.xor_assoc, BitVec.xor_comm _ p]
      · rw [BitVec.xor_assoc]
      · apply BitVec.eq_of_getLsbD_eq
        intro i hi
        simp only [BitVec.getLsbD_xor]
        cases p.getLsbD i <;> cases q.getLsbD i <;> cases (BitVec.ofNat 64 d).getLsbD i <;> rfl

theorem xorIndices_eq {w : ℕ} (v : BitVec w) : xorIndices v = (xorSpan v 0 w).setWidth w := by
  unfold xorIndices
  rw [xorLoop_eq v w 0 v 0 fun i => by simp]
  simp

/-! ## Gathering -/

theorem gather128Loop_eq (start stride : ℕ) (hs : 1 ≤ stride) (v : BitVec 128) :
    ∀ (n i : ℕ) (u ans : BitVec 128), (∀ j, u.getLsbD j = v.getLsbD (start + i * stride + j)) →
      ans = gatherLoop start stride v i → i + n = 128 →
      gather128Loop stride u (start + i * stride) i ans n = gatherLoop start stride v 128
  | 0, i, u, ans, _, ha, hn => by
      rw [ha, show i = 128 by omega]; rfl
  | n + 1, i, u, ans, hu, ha, hn => by
      unfold gather128Loop
      have h0 := hu 0
      rw [Nat.add_zero] at h0
      split
      · rename_i hc
        rw [show start + i * stride + stride = start + (i + 1) * stride by ring]
        apply gather128Loop_eq start stride hs v n (i + 1)
        · intro j
          rw [BitVec.getLsbD_ushiftRight, hu]; congr 1; ring
        · rw [gatherLoop, h0, ← ha]
          simp [hc.2]
        · omega
      · rename_i hc
        -- nothing further is set
        have hz : ∀ j, i ≤ j → v.getLsbD (start + j * stride) = false := by
          intro j hj
          by_cases hd : start + i * stride < 128
          · have hu0 : u = 0 := by
              by_contra hne
              exact hc ⟨hne, hd⟩
            have := hu ((j - i) * stride)
            rw [hu0] at this
            rw [show start + i * stride + (j - i) * stride = start + j * stride by
              obtain ⟨k, rfl⟩ := Nat.exists_eq_add_of_le hj
              rw [Nat.add_sub_cancel_left]; ring] at this
            rw [← this]; simp
          · apply BitVec.getLsbD_of_ge
            have : i * stride ≤ j * stride := Nat.mul_le_mul_right _ hj
            omega
        rw [ha]
        apply BitVec.eq_of_getLsbD_eq
        intro j hj
        rw [gatherLoop_bit _ _ _ _ _ hj, gatherLoop_bit _ _ _ _ _ hj]
        by_cases hji : j < i
        · have : j < 128 := hj
          simp [hji, this]
        · simp [hz j (by omega)]

/-! ## Running ors -/

theorem sshiftRight_bit {w : ℕ} (b : BitVec w) (e i : ℕ) (hi : i < w) :
    (b.sshiftRight e).getLsbD i = b.getLsbD (min (i + e) (w - 1)) := by
  rw [BitVec.getLsbD_sshiftRight]
  have : ¬ w ≤ i := by omega
  simp only [this, decide_false, Bool.not_false, Bool.true_and]
  by_cases h : e + i < w
  · simp only [h, if_true]
    rw [Nat.min_eq_left (by omega), Nat.add_comm]
  · simp only [h, if_false]
    rw [Nat.min_eq_right (by omega), BitVec.msb_eq_getLsbD_last]

theorem orLoop_bit {w : ℕ} : ∀ (n e : ℕ) (b : BitVec w) (i : ℕ), i < w → 1 ≤ e →
    ((orLoop n e b).getLsbD i = true ↔
      ∃ m < 2 ^ n, b.getLsbD (min (i + m * e) (w - 1)) = true)
  | 0, e, b, i, hi, _ => by
      simp only [orLoop, pow_zero]
      constructor
      · intro h
        exact ⟨0, by omega, by rw [Nat.min_eq_left (by omega)]; simpa using h⟩
      · rintro ⟨m, hm, h⟩
        rw [show m = 0 by omega, Nat.min_eq_left (by omega)] at h
        simpa using h
  | n + 1, e, b, i, hi, he => by
      rw [orLoop, orLoop_bit n (2 * e) _ i hi (by omega)]
      constructor
      · rintro ⟨m, hm, h⟩
        rw [BitVec.getLsbD_or, sshiftRight_bit _ _ _ (by omega)] at h
        simp only [Bool.or_eq_true] at h
        rcases h with h | h
        · exact ⟨2 * m, by rw [pow_succ]; omega, by rwa [show 2 * m * e = m * (2 * e) by ring]⟩
        · refine ⟨2 * m + 1, by rw [pow_succ]; omega, ?_⟩
          rw [show (2 * m + 1) * e = m * (2 * e) + e by ring]
          rw [show min (min (i + m * (2 * e)) (w - 1) + e) (w - 1) =
            min (i + (m * (2 * e) + e)) (w - 1) by omega] at h
          exact h
      · rintro ⟨m, hm, h⟩
        refine ⟨m / 2, by rw [pow_succ] at hm; omega, ?_⟩
        rw [BitVec.getLsbD_or, sshiftRight_bit _ _ _ (by omega)]
        simp only [Bool.or_eq_true]
        rcases Nat.mod_two_eq_zero_or_one m with h0 | h1
        · left
          rwa [show m / 2 * (2 * e) = (2 * (m / 2)) * e by ring, show 2 * (m / 2) = m by omega]
        · right
          rw [show min (min (i + m / 2 * (2 * e)) (w - 1) + e) (w - 1) =
            min (i + (m / 2 * (2 * e) + e)) (w - 1) by omega,
            show m / 2 * (2 * e) + e = (2 * (m / 2) + 1) * e by ring,
            show 2 * (m / 2) + 1 = m by omega]
          exact h

end Verif.Bits
