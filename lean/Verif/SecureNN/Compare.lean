import Verif.SecureNN.Lemmas
import Mathlib.Tactic.NormNum.Prime

/-! # Private comparison (C35) -/

namespace Verif.SecureNN

open Pond (Priv)
open RandM

variable {w p : ℕ}

/-- `a` exceeds `b` with `i` as the highest position where they differ. -/
def TopAt (a b : BitVec w) (i : Fin w) : Prop :=
  a.getLsbD i = true ∧ b.getLsbD i = false ∧ ∀ j : Fin w, i < j → a.getLsbD j = b.getLsbD j

theorem topAt_lt {a b : BitVec w} {i : Fin w} (h : TopAt a b i) : b.toNat < a.toNat := by
  refine Nat.lt_of_testBit i.val ?_ ?_ fun j hj => ?_
  · rw [BitVec.testBit_toNat]; exact h.2.1
  · rw [BitVec.testBit_toNat]; exact h.1
  · rw [BitVec.testBit_toNat, BitVec.testBit_toNat]
    by_cases hw : j < w
    · exact (h.2.2 ⟨j, hw⟩ hj).symm
    · rw [BitVec.getLsbD_of_ge _ _ (by omega), BitVec.getLsbD_of_ge _ _ (by omega)]

theorem topAt_unique {a b : BitVec w} {i j : Fin w} (hi : TopAt a b i) (hj : TopAt a b j) : i = j := by
  rcases lt_trichotomy i j with h | h | h
  · have := hi.2.2 j h; rw [hj.1, hj.2.1] at this; cases this
  · exact h
  · have := hj.2.2 i h; rw [hi.1, hi.2.1] at this; cases this

theorem exists_topAt {a b : BitVec w} (h : b.toNat < a.toNat) : ∃ i, TopAt a b i := by
  have hne : a.toNat ^^^ b.toNat ≠ 0 := by
    rw [ne_eq, Nat.xor_eq_zero_iff]; omega
  obtain ⟨i, hi, hj⟩ := Nat.exists_most_significant_bit hne
  have bits : ∀ j, (a.toNat ^^^ b.toNat).testBit j = (a.getLsbD j ^^ b.getLsbD j) := fun j => by
    rw [Nat.testBit_xor, BitVec.testBit_toNat, BitVec.testBit_toNat]
  have hiw : i < w := by
    by_contra hc
    rw [bits, BitVec.getLsbD_of_ge _ _ (by omega), BitVec.getLsbD_of_ge _ _ (by omega)] at hi
    cases hi
  have hagree : ∀ j : Fin w, i < j.val → a.getLsbD j = b.getLsbD j := fun j h => by
    have := hj j h
    rw [bits] at this
    simpa using this
  rw [bits] at hi
  rcases hb : b.getLsbD i with _ | _
  · rw [hb] at hi
    exact ⟨⟨i, hiw⟩, by simpa using hi, hb, hagree⟩
  · rw [hb] at hi
    have ha : a.getLsbD i = false := by simpa using hi
    have := topAt_lt (a := b) (b := a) (i := ⟨i, hiw⟩) ⟨hb, ha, fun j h => (hagree j h).symm⟩
    omega

/-- The vector of the protocol as natural numbers: zero exactly at the deciding position. -/
def score (a b : BitVec w) (i : Fin w) : ℕ :=
  (if b.getLsbD i then 1 else 0) + (1 - if a.getLsbD i then 1 else 0) +
    ∑ j ∈ Finset.univ.filter (i < ·), if a.getLsbD j = b.getLsbD j then 0 else 1

theorem score_eq_zero (a b : BitVec w) (i : Fin w) : score a b i = 0 ↔ TopAt a b i := by
  unfold score TopAt
  rw [Nat.add_eq_zero_iff, Nat.add_eq_zero_iff, Finset.sum_eq_zero_iff]
  constructor
  · rintro ⟨⟨h1, h2⟩, h3⟩
    refine ⟨?_, ?_, fun j hj => ?_⟩
    · by_contra h; rw [if_neg h] at h2; omega
    · by_contra h; rw [if_pos (by revert h; cases b.getLsbD i.val <;> decide)] at h1; omega
    · have := h3 j (by simpa using hj)
      by_contra h; rw [if_neg h] at this; omega
  · rintro ⟨h1, h2, h3⟩
    refine ⟨⟨by rw [h2]; rfl, by rw [h1]; rfl⟩, fun j hj => ?_⟩
    rw [if_pos (h3 j (by simpa using hj))]

theorem score_lt (a b : BitVec w) (i : Fin w) : score a b i ≤ w + 1 := by
  unfold score
  have h1 : ∑ j ∈ Finset.univ.filter (i < ·), (if a.getLsbD j = b.getLsbD j then 0 else 1)
      ≤ (Finset.univ.filter (i < ·)).card := by
    rw [Finset.card_eq_sum_ones]
    exact Finset.sum_le_sum fun j _ => by split <;> omega
  have h2 : (Finset.univ.filter (i < ·)).card < Fintype.card (Fin w) :=
    Finset.card_lt_univ_of_notMem (x := i) (by simp)
  rw [Fintype.card_fin] at h2
  have h3 : (if b.getLsbD i then 1 else 0) ≤ 1 := by split <;> omega
  omega

/-- The score in the field is the expression the protocol computes. -/
theorem score_cast (a b : BitVec w) (i : Fin w) :
    ((score a b i : ℕ) : ZMod p) = bitsOf b i - bitsOf a i + 1 +
      cumsum (fun j => bitsOf a j + bitsOf b j - bitsOf a j * bitsOf b j * 2) i := by
  unfold score cumsum bitsOf
  push_cast
  congr 1
  · cases a.getLsbD i <;> cases b.getLsbD i <;> simp
  · refine Finset.sum_congr rfl fun j _ => ?_
    cases a.getLsbD j <;> cases b.getLsbD j <;> simp
    ring

theorem score_cast_zero (hp : w + 1 < p) (a b : BitVec w) (i : Fin w) :
    ((score a b i : ℕ) : ZMod p) = 0 ↔ TopAt a b i := by
  rw [← score_eq_zero, ZMod.natCast_eq_zero_iff]
  have := score_lt a b i
  constructor
  · intro h
    exact Nat.eq_zero_of_dvd_of_lt h (by omega)
  · intro h; rw [h]; exact dvd_zero p

/-- Which vector server 2 sees, before the multiplicative mask. -/
def clearVector (x r : BitVec w) (β : Bool) : Fin w → ZMod p := fun i =>
  if β then
    if r + 1#w = 0#w then (if i.val = 0 then 0 else 1) else ((score (r + 1#w) x i : ℕ) : ZMod p)
  else ((score x r i : ℕ) : ZMod p)

theorem cumsum_add (a b : Fin w → ZMod p) : cumsum (a + b) = cumsum a + cumsum b := by
  funext i
  exact Finset.sum_add_distrib

theorem compareMasked_eq {xb : Priv (Fin w → ZMod p)} {x : BitVec w} (hx : Holds xb (bitsOf x))
    (r : BitVec w) (β : Bool) (mask : Fin w → ZMod p) :
    (compareMasked xb r β mask).All fun d => d = clearVector x r β * mask := by
  unfold compareMasked
  simp only
  rw [all_bind]
  refine All.mono (fun cEdge hEdge => ?_) (shareBits_all _)
  rw [all_pure]
  have hs : selectPubPub (if β then (1 : BitVec w) else 0) r (r + 1#w)
      = if β then r + 1#w else r := by
    unfold selectPubPub
    cases β
    · simp
    · simp only [if_true]; ring
  rw [hs]
  generalize hS : (if β then r + 1#w else r) = s
  have hw : Holds (bitwiseXorPub xb (bitsOf s))
      (bitsOf x + bitsOf s - bitsOf x * bitsOf s * 2) := hx.bitwiseXorPub _
  have hsum : Holds (both cumsum (bitwiseXorPub xb (bitsOf s)))
      (cumsum (bitsOf x + bitsOf s - bitsOf x * bitsOf s * 2 : Fin w → ZMod p)) := by
    rw [← show (bitwiseXorPub xb (bitsOf s)).x0 + (bitwiseXorPub xb (bitsOf s)).x1 = _ from hw]
    exact (cumsum_add _ _).symm
  have hc := (((hx.pubSub (bitsOf s)).mulPub
    (selectPubPub (fun _ => if β then (1 : ZMod p) else 0) 1 (-1))).addPub 1).add hsum
  have hfin := (hc.selectPub hEdge ((fun _ => if β then (1 : ZMod p) else 0) *
    fun _ => if s = 0#w then (1 : ZMod p) else 0)).mulPub mask
  refine Eq.trans hfin ?_
  congr 1
  funext i
  unfold clearVector selectPubPub
  have e : ∀ a b : BitVec w, (cumsum (bitsOf a + bitsOf b - bitsOf a * bitsOf b * 2 : Fin w → ZMod p)) i
      = cumsum (fun j => (bitsOf a j : ZMod p) + bitsOf b j - bitsOf a j * bitsOf b j * 2) i := fun _ _ => rfl
  have comm : cumsum (fun j => (bitsOf x j : ZMod p) + bitsOf s j - bitsOf x j * bitsOf s j * 2) i
      = cumsum (fun j => (bitsOf s j : ZMod p) + bitsOf x j - bitsOf s j * bitsOf x j * 2) i := by
    congr 1; funext j; ring
  cases β
  · simp only [Bool.false_eq_true, if_false] at hS ⊢
    subst hS
    rw [score_cast]
    simp only [Pi.add_apply, Pi.sub_apply, Pi.mul_apply, Pi.one_apply, Pi.neg_apply, e]
    ring
  · simp only [if_true] at hS ⊢
    subst hS
    simp only [Pi.add_apply, Pi.sub_apply, Pi.mul_apply, Pi.one_apply, Pi.neg_apply, e, comm]
    by_cases hz : r + 1#w = 0#w
    · rw [if_pos hz, if_pos hz]; ring
    · rw [if_neg hz, if_neg hz, score_cast]; ring

/-- What the comparison decides. -/
def exceedsXor (x r : BitVec w) (β : Bool) : Bool := decide (r.toNat < x.toNat) ^^ β

theorem add_one_eq_zero (hw : 0 < w) (r : BitVec w) : r + 1#w = 0#w ↔ r.toNat = 2 ^ w - 1 := by
  rw [← BitVec.toNat_inj, BitVec.toNat_add, BitVec.toNat_zero]
  have h1 : (1#w).toNat = 1 := by
    rw [BitVec.toNat_ofNat, Nat.mod_eq_of_lt (Nat.one_lt_two_pow (by omega))]
  rw [h1]
  have := r.isLt
  constructor
  · intro h
    by_contra hc
    rw [Nat.mod_eq_of_lt (by omega)] at h
    omega
  · intro h
    rw [h, Nat.sub_add_cancel Nat.one_le_two_pow, Nat.mod_self]

theorem clearVector_zero [hp : Fact p.Prime] (hw : 0 < w) (hpw : w + 1 < p) (x r : BitVec w) (β : Bool) :
    (exceedsXor x r β = true → ∃ i, (clearVector x r β i : ZMod p) = 0 ∧
      ∀ j, (clearVector x r β j : ZMod p) = 0 → j = i) ∧
    (exceedsXor x r β = false → ∀ i, (clearVector x r β i : ZMod p) ≠ 0) := by
  have one : (1 : ZMod p) ≠ 0 := one_ne_zero
  have main : ∀ a b : BitVec w, (b.toNat < a.toNat → ∃ i, ((score a b i : ℕ) : ZMod p) = 0 ∧
      ∀ j, ((score a b j : ℕ) : ZMod p) = 0 → j = i) ∧
      (¬ b.toNat < a.toNat → ∀ i, ((score a b i : ℕ) : ZMod p) ≠ 0) := by
    intro a b
    constructor
    · intro h
      obtain ⟨i, hi⟩ := exists_topAt h
      exact ⟨i, (score_cast_zero hpw a b i).2 hi,
        fun j hj => topAt_unique ((score_cast_zero hpw a b j).1 hj) hi⟩
    · intro h i hi
      exact h (topAt_lt ((score_cast_zero hpw a b i).1 hi))
  unfold exceedsXor clearVector
  cases β
  · simp only [Bool.xor_false, decide_eq_true_eq, decide_eq_false_iff_not, Bool.false_eq_true,
      if_false]
    exact main x r
  · simp only [Bool.xor_true, Bool.not_eq_true', decide_eq_false_iff_not, Bool.not_eq_false',
      decide_eq_true_eq, if_true]
    have hx := x.isLt
    by_cases hz : r + 1#w = 0#w
    · have hr := (add_one_eq_zero hw r).1 hz
      simp only [hz, if_true]
      refine ⟨fun _ => ⟨⟨0, hw⟩, by simp, fun j hj => ?_⟩, fun h => by omega⟩
      by_contra hne
      have : j.val ≠ 0 := fun h => hne (Fin.ext h)
      rw [if_neg this] at hj
      exact one hj
    · have hr := mt (add_one_eq_zero hw r).2 hz
      have hlt := r.isLt
      have h1 : (1#w).toNat = 1 := by
        rw [BitVec.toNat_ofNat, Nat.mod_eq_of_lt (Nat.one_lt_two_pow (by omega))]
      have hs : (r + 1#w).toNat = r.toNat + 1 := by
        rw [BitVec.toNat_add, h1, Nat.mod_eq_of_lt (by omega)]
      simp only [hz, if_false]
      have := main (r + 1#w) x
      rw [hs] at this
      exact ⟨fun h => this.1 (by omega), fun h => this.2 (by omega)⟩

/-- **C35.** For every shared integer `x` (given by its bits, in any sharing), every public bound `r`,
every blinding bit and every non-zero mask: the private comparison returns a sharing of the bit
`(x > r) xor β`, whatever is drawn for the sharings. The prime must exceed the width by two. -/
theorem private_compare [Fact p.Prime] (hw : 0 < w) (hpw : w + 1 < p) (x r : BitVec w) (β : Bool)
    (mask : Fin w → ZMod p) (hmask : ∀ i, mask i ≠ 0) (xBits : Priv (Fin w → ZMod p))
    (hx : xBits.x0 + xBits.x1 = bitsOf x) :
    (privateCompare xBits r β mask).All fun z =>
      z.x0 + z.x1 = if (decide (r.toNat < x.toNat) ^^ β) = true then 1 else 0 := by
  unfold privateCompare
  rw [all_bind]
  refine All.mono (fun d hd => ?_) (compareMasked_eq (x := x) hx r β mask)
  refine All.mono (fun z hz => ?_) (shareWord_all _)
  rw [show z.x0 + z.x1 = _ from hz]
  obtain ⟨h1, h2⟩ := clearVector_zero (p := p) hw hpw x r β
  have hd0 : ∀ i, d i = 0 ↔ (clearVector x r β i : ZMod p) = 0 := fun i => by
    rw [hd, Pi.mul_apply, mul_eq_zero, or_iff_left (hmask i)]
  simp only [hd0]
  unfold exceedsXor at h1 h2
  split
  · rename_i h
    obtain ⟨i, hi, hu⟩ := h1 h
    rw [Finset.sum_eq_single i]
    · rw [if_pos hi]
    · intro j _ hj
      rw [if_neg fun hc => hj (hu j hc)]
    · intro h; exact absurd (Finset.mem_univ i) h
  · rename_i h
    exact Finset.sum_eq_zero fun i _ => by
      rw [if_neg (h2 (by simpa using h) i)]

/-- The field the code uses, for 64-bit words. -/
example (x r : BitVec 64) (xBits : Priv (Fin 64 → ZMod 107)) (hx : xBits.x0 + xBits.x1 = bitsOf x) :
    (privateCompare xBits r true fun _ => 1).All fun z =>
      z.x0 + z.x1 = if (decide (r.toNat < x.toNat) ^^ true) = true then 1 else 0 :=
  have : Fact (Nat.Prime 107) := ⟨by norm_num⟩
  have : (1 : ZMod 107) ≠ 0 := one_ne_zero
  private_compare (by omega) (by omega) x r true _ (fun _ => this) xBits hx

/-- A prime that only exceeds the width by one is not enough: with `p = 3` and two bits, comparing
`2 > 1` returns 2 instead of 1. The constructor checks neither for a given `prime_factory`. -/
theorem private_compare_small_prime_false :
    ∃ (x r : BitVec 2) (xBits : Priv (Fin 2 → ZMod 3)), xBits.x0 + xBits.x1 = bitsOf x ∧
      (privateCompare xBits r false fun _ => 1).All fun z => z.x0 + z.x1 = 2 := by
  refine ⟨2, 1, ⟨bitsOf 2, 0⟩, by decide, ?_⟩
  unfold privateCompare
  rw [all_bind]
  refine All.mono (fun d hd => ?_) (compareMasked_eq (x := 2) (by unfold Holds; decide) 1 false _)
  refine All.mono (fun z hz => ?_) (shareWord_all _)
  rw [show z.x0 + z.x1 = _ from hz, hd]
  decide

end Verif.SecureNN
