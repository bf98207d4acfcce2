import Verif.Sampling.Lemmas
import Mathlib.Data.Fintype.BigOperators
import Mathlib.Algebra.BigOperators.Ring.Finset
import Mathlib.Logic.Equiv.Fin.Basic

/-! # The rejection sampler is exactly uniform (C18) -/

namespace Verif.Sampling

variable {w : ℕ}

/-- The values a caller asks for. -/
def InRange (lo hi v : BitVec w) : Prop := lo.toInt ≤ v.toInt ∧ v.toInt < hi.toInt

instance (lo hi v : BitVec w) : Decidable (InRange lo hi v) := inferInstanceAs (Decidable (_ ∧ _))

theorem toInt_accepted {lo hi : BitVec w} (h : lo.toInt < hi.toInt) (r : ℕ) (hr : r < span lo hi) :
    (BitVec.ofInt w (lo.toInt + r)).toInt = lo.toInt + r := by
  have h1 := Bits.toInt_range hi
  have h2 := Bits.toInt_range lo
  have hw : 0 < w := by
    rcases Nat.eq_zero_or_pos w with rfl | hw
    · have e1 : lo = 0#0 := Subsingleton.elim _ _
      have e2 : hi = 0#0 := Subsingleton.elim _ _
      rw [e1, e2] at h; omega
    · exact hw
  unfold span at hr
  exact Bits.toInt_ofInt hw (by omega) (by omega)

/-- **C18, one word.** Every value of `[minval, maxval)` comes from exactly the same number of machine
words, and no word gives a value outside the range. -/
theorem uniform_count {lo hi : BitVec w} (h : lo.toInt < hi.toInt) (v : BitVec w) :
    Nat.card {raw // uniform lo hi raw = some v} =
      if InRange lo hi v then 2 ^ w / span lo hi else 0 := by
  obtain ⟨-, hpos, hlt⟩ := range_toNat h
  split
  · rename_i hv
    have hr : (v.toInt - lo.toInt).toNat < span lo hi := by
      unfold span; unfold InRange at hv; omega
    rw [← card_residue (w := w) hr (Nat.mul_div_le _ _)]
    refine Nat.card_congr (Equiv.subtypeEquivRight fun raw => ?_)
    rw [uniform_eq h]
    have hmod := Nat.mod_lt raw.toNat hpos
    split
    · rename_i hc
      simp only [Option.some.injEq, hc, true_and]
      rw [← BitVec.toInt_inj, toInt_accepted h _ hmod]
      unfold InRange at hv
      omega
    · rename_i hc
      simp [hc]
  · rename_i hv
    rw [Nat.card_eq_zero]
    left
    refine ⟨fun ⟨raw, hraw⟩ => hv ?_⟩
    rw [uniform_eq h] at hraw
    split at hraw
    · have hmod := Nat.mod_lt raw.toNat hpos
      have e := Option.some.inj hraw
      have := toInt_accepted h _ hmod
      rw [e] at this
      have hs : (span lo hi : ℤ) = hi.toInt - lo.toInt := by unfold span; omega
      unfold InRange; omega
    · cases hraw

/-- More than half of all words are accepted, so that the loop ends with probability one. -/
theorem uniform_accepts {lo hi : BitVec w} (h : lo.toInt < hi.toInt) :
    2 ^ w < 2 * Nat.card {raw // (uniform lo hi raw).isSome} := by
  obtain ⟨-, hpos, hlt⟩ := range_toNat h
  have hdm := Nat.div_add_mod (2 ^ w) (span lo hi)
  have hm := Nat.mod_lt (2 ^ w) hpos
  have hq : 0 < 2 ^ w / span lo hi := Nat.div_pos hlt.le hpos
  have hge : span lo hi ≤ span lo hi * (2 ^ w / span lo hi) := Nat.le_mul_of_pos_right _ hq
  have : Nat.card {raw // (uniform lo hi raw).isSome}
      = span lo hi * (2 ^ w / span lo hi) := by
    have h1 : Nat.card {raw : BitVec w // raw.toNat < (span lo hi * (2 ^ w / span lo hi)) * 1 ∧
        raw.toNat % 1 = 0} = span lo hi * (2 ^ w / span lo hi) := by
      have := card_residue (w := w) (R := 1) (Q := span lo hi * (2 ^ w / span lo hi)) (r := 0)
        (by omega) (by rw [one_mul]; exact Nat.mul_div_le _ _)
      rw [one_mul] at this
      rw [mul_one]; exact this
    rw [← h1]
    refine Nat.card_congr (Equiv.subtypeEquivRight fun raw => ?_)
    rw [uniform_eq h]
    split <;> rename_i hc <;> simp [Nat.mod_one, hc]
  omega

/-- Nothing outside the range is ever returned, however many words are rejected. -/
theorem draw_range {lo hi : BitVec w} (h : lo.toInt < hi.toInt) (raws : List (BitVec w))
    (v : BitVec w) (hv : draw lo hi raws = some v) : InRange lo hi v := by
  induction raws with
  | nil => cases hv
  | cons raw rest ih =>
    unfold draw at hv
    split at hv
    · rename_i u hu
      have e := Option.some.inj hv
      subst e
      by_contra hn
      have hc := uniform_count h u
      rw [if_neg hn, Nat.card_eq_zero] at hc
      rcases hc with hc | hc
      · exact hc.false ⟨raw, hu⟩
      · exact hc.false
    · exact ih hv

/-- **C18, the loop.** Among all sequences of `n` raw words, every value of the range is returned by
the same number of sequences. -/
theorem draw_count {lo hi : BitVec w} (h : lo.toInt < hi.toInt) (n : ℕ) (u v : BitVec w)
    (hu : InRange lo hi u) (hv : InRange lo hi v) :
    Nat.card {raws : Fin n → BitVec w // draw lo hi (List.ofFn raws) = some u} =
      Nat.card {raws : Fin n → BitVec w // draw lo hi (List.ofFn raws) = some v} := by
  classical
  induction n with
  | zero => simp [draw]
  | succ n ih =>
    have key : ∀ x, Nat.card {raws : Fin (n + 1) → BitVec w // draw lo hi (List.ofFn raws) = some x} =
        Nat.card {raw // uniform lo hi raw = some x} * Fintype.card (Fin n → BitVec w) +
        Nat.card {raw // uniform lo hi raw = none} *
          Nat.card {raws : Fin n → BitVec w // draw lo hi (List.ofFn raws) = some x} := by
      intro x
      let e : {raws : Fin (n + 1) → BitVec w // draw lo hi (List.ofFn raws) = some x} ≃
          {p : BitVec w × (Fin n → BitVec w) // draw lo hi (p.1 :: List.ofFn p.2) = some x} :=
        (Fin.consEquiv fun _ => BitVec w).symm.subtypeEquiv fun raws => by
          simp only [List.ofFn_succ]; exact Iff.rfl
      rw [Nat.card_congr e]
      simp only [Nat.card_eq_fintype_card, Fintype.card_subtype, Finset.card_filter,
        Fintype.sum_prod_type, Finset.sum_mul]
      rw [← Finset.sum_add_distrib]
      refine Finset.sum_congr rfl fun raw _ => ?_
      rcases hraw : uniform lo hi raw with _ | y
      · simp [draw, hraw]
      · by_cases hy : y = x
        · simp [draw, hraw, hy]
        · simp [draw, hraw, hy]
    rw [key, key, ih, uniform_count h, uniform_count h, if_pos hu, if_pos hv]

/-- Bytes in `[-3, 7)`: 25 words each. -/
example : Nat.card {raw : BitVec 8 // uniform (-3#8) 7#8 raw = some 6#8} = 25 := by
  rw [uniform_count (by decide)]; decide

end Verif.Sampling
