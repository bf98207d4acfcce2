import Verif.SecureNN.MsbLemmas
import Mathlib.Data.List.Forall2
import Mathlib.Data.Nat.Log
import Mathlib.Data.List.GetD

/-! # SecureNN sign, comparison, relu and maximum (C36) -/

namespace Verif.SecureNN

open Pond (Priv)
open RandM

variable {w p : ℕ} [Fact p.Prime]

/-- **C36** (`lsb`): for a value shared in the odd ring, any shares, the least significant bit of the
value. -/
theorem lsb_correct (hw : 2 ≤ w) (hp : w + 1 < p) (x : Priv (BitVec w)) (h0 : IsOdd x.x0)
    (h1 : IsOdd x.x1) (k : Coins w p) (hk : k.Good) :
    (lsb x k.r0 k.r1 k.β k.mask).All fun z =>
      z.x0 + z.x1 = bit (decide ((x.x0.toNat + x.x1.toNat) % (2 ^ w - 1) % 2 = 1)) :=
  lsb_all hw hp x h0 h1 k hk

/-- **C36** (`msb`, `is_negative`, `non_negative`): for every value except -1, -2 and the largest one,
and every way of sharing it. The full claim fails on these three, see below. -/
theorem is_negative_partial (hw : 2 ≤ w) (hp : w + 1 < p) (x : Priv (BitVec w)) (k : Coins w p)
    (hk : k.Good) (h1 : (x.x0 + x.x1).toInt ≠ -1) (h2 : (x.x0 + x.x1).toInt ≠ -2)
    (h3 : (x.x0 + x.x1).toInt ≠ 2 ^ (w - 1) - 1) :
    ((isNegative x k).All fun z => z.x0 + z.x1 = bit (decide ((x.x0 + x.x1).toInt < 0))) ∧
    ((nonNegative x k).All fun z => z.x0 + z.x1 = bit (decide (0 ≤ (x.x0 + x.x1).toInt))) := by
  have h := msb_all hw hp x k hk
  rw [msbOf_good hw _ _ h1 h2 h3] at h
  refine ⟨h, ?_⟩
  unfold nonNegative
  rw [all_bind]
  refine All.mono (fun z hz => ?_) h
  rw [all_pure]
  refine Eq.trans (Holds.bitwiseNot hz) ?_
  by_cases hn : (x.x0 + x.x1).toInt < 0
  · rw [decide_eq_true hn, decide_eq_false (by omega)]; exact sub_self _
  · rw [decide_eq_false hn, decide_eq_true (by omega)]; exact sub_zero _

/-- The exact outcome for every value and every sharing: the sign of the sum of the shares taken modulo
`2^w - 1` instead of `2^w`. -/
theorem is_negative_exact (hw : 2 ≤ w) (hp : w + 1 < p) (x : Priv (BitVec w)) (k : Coins w p)
    (hk : k.Good) : (isNegative x k).All fun z => z.x0 + z.x1 =
      bit (decide (2 ^ (w - 1) ≤ (x.x0.toNat + x.x1.toNat) % (2 ^ w - 1))) :=
  msb_all hw hp x k hk

/-- However -1 is shared, it is found non-negative. -/
theorem is_negative_minus_one_false (hw : 2 ≤ w) (hp : w + 1 < p) (x : Priv (BitVec w))
    (k : Coins w p) (hk : k.Good) (hx : (x.x0 + x.x1).toInt = -1) :
    (isNegative x k).All fun z => z.x0 + z.x1 = 0 := by
  have h := msb_all hw hp x k hk
  rw [msbOf_minus_one hw _ _ hx] at h
  exact h

omit [Fact p.Prime] in
theorem half_facts (hw : 2 ≤ w) : 2 ^ w = 2 * 2 ^ (w - 1) ∧ 2 ≤ 2 ^ (w - 1) := by
  constructor
  · rw [← pow_succ']; congr 1; omega
  · calc 2 = 2 ^ 1 := by norm_num
      _ ≤ 2 ^ (w - 1) := Nat.pow_le_pow_right (by omega) (by omega)

omit [Fact p.Prime] in
theorem toNat_half (hw : 2 ≤ w) : (BitVec.ofNat w (2 ^ (w - 1))).toNat = 2 ^ (w - 1) := by
  obtain ⟨h1, h2⟩ := half_facts hw
  rw [BitVec.toNat_ofNat, Nat.mod_eq_of_lt (by omega)]

/-- The largest value can be found negative: with shares -1 and `-2^(w-1)`. -/
theorem is_negative_max_false (hw : 2 ≤ w) (hp : w + 1 < p) (k : Coins w p) (hk : k.Good) :
    ∃ x : Priv (BitVec w), (x.x0 + x.x1).toInt = 2 ^ (w - 1) - 1 ∧
      (isNegative x k).All fun z => z.x0 + z.x1 = 1 := by
  obtain ⟨h1, h2⟩ := half_facts hw
  have hH : ((2 ^ (w - 1) : ℕ) : ℤ) = 2 ^ (w - 1) := by push_cast; rfl
  have hn := toNat_neg_one (w := w) (by omega)
  have hh := toNat_half hw
  refine ⟨⟨-1#w, BitVec.ofNat w (2 ^ (w - 1))⟩, ?_, ?_⟩
  · simp only
    rw [BitVec.toInt_eq_toNat_cond, BitVec.toNat_add, hn, hh, ← hH]
    generalize (2 : ℕ) ^ (w - 1) = H at *
    generalize (2 : ℕ) ^ w = W at *
    rw [show W - 1 + H = (H - 1) + W by omega, Nat.add_mod_right, Nat.mod_eq_of_lt (by omega),
      if_pos (by omega)]
    omega
  · have h := msb_all (p := p) hw hp ⟨-1#w, BitVec.ofNat w (2 ^ (w - 1))⟩ k hk
    have e : msbOf (-1#w) (BitVec.ofNat w (2 ^ (w - 1))) = true := by
      unfold msbOf
      rw [decide_eq_true_eq, hn, hh]
      generalize (2 : ℕ) ^ (w - 1) = H at *
      generalize (2 : ℕ) ^ w = W at *
      rw [Nat.add_mod_left, Nat.mod_eq_of_lt (by omega)]
    simp only at h
    rw [e] at h
    exact h

/-- -2 is found non-negative when both shares are -1. -/
theorem is_negative_minus_two_false (hw : 2 ≤ w) (hp : w + 1 < p) (k : Coins w p) (hk : k.Good) :
    ∃ x : Priv (BitVec w), (x.x0 + x.x1).toInt = -2 ∧
      (isNegative x k).All fun z => z.x0 + z.x1 = 0 := by
  obtain ⟨h1, h2⟩ := half_facts hw
  have hn := toNat_neg_one (w := w) (by omega)
  refine ⟨⟨-1#w, -1#w⟩, ?_, ?_⟩
  · simp only
    rw [BitVec.toInt_eq_toNat_cond, BitVec.toNat_add, hn]
    generalize (2 : ℕ) ^ (w - 1) = H at *
    generalize (2 : ℕ) ^ w = W at *
    rw [show W - 1 + (W - 1) = (W - 2) + W by omega, Nat.add_mod_right, Nat.mod_eq_of_lt (by omega),
      if_neg (by omega)]
    omega
  · have h := msb_all (p := p) hw hp ⟨-1#w, -1#w⟩ k hk
    have e : msbOf (-1#w) (-1#w) = false := by
      unfold msbOf
      rw [decide_eq_false_iff_not, hn]
      generalize (2 : ℕ) ^ (w - 1) = H at *
      generalize (2 : ℕ) ^ w = W at *
      rw [Nat.add_mod_left, Nat.mod_self]
      omega
    simp only at h
    rw [e] at h
    exact h

/-! ## Comparisons -/

/-- The difference of two values fits, with one value to spare. -/
def Fits (x y : BitVec w) : Prop :=
  -2 ^ (w - 1) ≤ x.toInt - y.toInt ∧ x.toInt - y.toInt < 2 ^ (w - 1) - 1

/-- The difference is not one of the two small negative values that are misjudged. -/
def Apart (x y : BitVec w) : Prop := x.toInt - y.toInt ≠ -1 ∧ x.toInt - y.toInt ≠ -2

omit [Fact p.Prime] in
theorem toInt_sub_of (hw : 2 ≤ w) {x y : BitVec w} (h : Fits x y) :
    (x - y).toInt = x.toInt - y.toInt := by
  have e : x - y = BitVec.ofInt w (x.toInt - y.toInt) := by
    rw [Bits.ofInt_sub, BitVec.ofInt_toInt, BitVec.ofInt_toInt]
  rw [e, Bits.toInt_ofInt (by omega) h.1 (by have := h.2; omega)]

theorem less_all (hw : 2 ≤ w) (hp : w + 1 < p) {x y : Priv (BitVec w)} {a b : BitVec w}
    (hx : Holds x a) (hy : Holds y b) (k : Coins w p) (hk : k.Good) (hf : Fits a b)
    (ha : Apart a b) : (less x y k).All fun z => Holds z (bit (decide (a.toInt < b.toInt))) := by
  have hs := hx.sub hy
  have e := toInt_sub_of hw hf
  have hs' : (sub x y).x0 + (sub x y).x1 = a - b := hs
  have h := (is_negative_partial hw hp (sub x y) k hk (by rw [hs', e]; exact ha.1)
    (by rw [hs', e]; exact ha.2) (by rw [hs', e]; have := hf.2; omega)).1
  rw [hs', e] at h
  have e2 : decide (a.toInt - b.toInt < 0) = decide (a.toInt < b.toInt) := by
    rw [decide_eq_decide]; omega
  rw [e2] at h
  exact h

/-- **C36** (`less`, `greater`, `less_equal`, `greater_equal`): for all values whose difference is
neither -1 nor -2 (in the direction that is tested) and fits with one value to spare, in every
sharing. -/
theorem comparisons_partial (hw : 2 ≤ w) (hp : w + 1 < p) (x y : Priv (BitVec w)) (a b : BitVec w)
    (hx : x.x0 + x.x1 = a) (hy : y.x0 + y.x1 = b) (k : Coins w p) (hk : k.Good) :
    (Fits a b → Apart a b →
      ((less x y k).All fun z => z.x0 + z.x1 = bit (decide (a.toInt < b.toInt))) ∧
      ((greaterEqual x y k).All fun z => z.x0 + z.x1 = bit (decide (b.toInt ≤ a.toInt)))) ∧
    (Fits b a → Apart b a →
      ((greater x y k).All fun z => z.x0 + z.x1 = bit (decide (b.toInt < a.toInt))) ∧
      ((lessEqual x y k).All fun z => z.x0 + z.x1 = bit (decide (a.toInt ≤ b.toInt)))) := by
  have key : ∀ {x y : Priv (BitVec w)} {a b : BitVec w}, Holds x a → Holds y b → Fits a b →
      Apart a b → ((less x y k).All fun z => Holds z (bit (decide (a.toInt < b.toInt)))) ∧
      (((less x y k).bind fun c => .pure (bitwiseNot c)).All
        fun z => Holds z (bit (decide (b.toInt ≤ a.toInt)))) := by
    intro x y a b hx hy hf ha
    have h := less_all hw hp hx hy k hk hf ha
    refine ⟨h, ?_⟩
    rw [all_bind]
    refine All.mono (fun z hz => ?_) h
    rw [all_pure]
    refine Eq.trans (Holds.bitwiseNot hz) ?_
    by_cases hn : a.toInt < b.toInt
    · rw [decide_eq_true hn, decide_eq_false (by omega)]; exact sub_self _
    · rw [decide_eq_false hn, decide_eq_true (by omega)]; exact sub_zero _
  exact ⟨fun hf ha => key hx hy hf ha, fun hf ha => key hy hx hf ha⟩

/-- Neighbouring values compare wrongly, in every sharing: `x < x + 1` returns 0 (and then
`x >= x + 1` returns 1). -/
theorem less_adjacent_false (hw : 2 ≤ w) (hp : w + 1 < p) (x y : Priv (BitVec w)) (k : Coins w p)
    (hk : k.Good) (h : (y.x0 + y.x1) = (x.x0 + x.x1) + 1#w) :
    ((less x y k).All fun z => z.x0 + z.x1 = 0) ∧
    ((greaterEqual x y k).All fun z => z.x0 + z.x1 = 1) := by
  have hs : (sub x y).x0 + (sub x y).x1 = -1#w := by
    have hs := Holds.sub (show Holds x (x.x0 + x.x1) from rfl) (show Holds y (y.x0 + y.x1) from rfl)
    rw [h] at hs
    refine Eq.trans hs ?_
    rw [show x.x0 + x.x1 - (x.x0 + x.x1 + 1#w) = -1#w by ring]
  have hi : ((sub x y).x0 + (sub x y).x1).toInt = -1 := by
    rw [hs, show (-1#w) = BitVec.ofInt w (-1) by
      rw [Bits.ofInt_neg]; rfl]
    obtain ⟨h1, h2⟩ := half_facts hw
    have hH : ((2 ^ (w - 1) : ℕ) : ℤ) = 2 ^ (w - 1) := by push_cast; rfl
    rw [Bits.toInt_ofInt (by omega) (by rw [← hH]; omega) (by rw [← hH]; omega)]
  have hl : (less x y k).All fun z => Holds z 0 := is_negative_minus_one_false hw hp _ k hk hi
  refine ⟨hl, ?_⟩
  unfold greaterEqual
  rw [all_bind]
  refine All.mono (fun z hz => ?_) hl
  rw [all_pure]
  exact (Holds.bitwiseNot hz).trans (sub_zero _)

/-! ## relu -/

theorem nonNegative_all (hw : 2 ≤ w) (hp : w + 1 < p) (x : Priv (BitVec w)) (k : Coins w p)
    (hk : k.Good) :
    (nonNegative x k).All fun z => Holds z (bit (!msbOf x.x0 x.x1)) := by
  unfold nonNegative
  rw [all_bind]
  refine All.mono (fun z hz => ?_) (msb_all hw hp x k hk)
  rw [all_pure]
  refine Eq.trans (Holds.bitwiseNot hz) ?_
  cases msbOf x.x0 x.x1
  · exact sub_zero _
  · exact sub_self _

theorem reluWithCmp_all (hw : 2 ≤ w) (hp : w + 1 < p) (x : Priv (BitVec w)) (k : Coins w p)
    (hk : k.Good) : (reluWithCmp x k).All fun r =>
      Holds r.1 (if msbOf x.x0 x.x1 then 0 else x.x0 + x.x1) ∧
      Holds r.2 (bit (!msbOf x.x0 x.x1)) := by
  unfold reluWithCmp
  rw [all_bind]
  refine All.mono (fun d hd => ?_) (nonNegative_all hw hp x k hk)
  rw [all_bind]
  refine All.mono (fun y hy => ?_) (mul_all hd (show Holds x (x.x0 + x.x1) from rfl))
  rw [all_pure]
  refine ⟨hy.trans ?_, hd⟩
  cases msbOf x.x0 x.x1
  · show 1 * _ = _
    rw [one_mul]; rfl
  · show 0 * _ = _
    rw [zero_mul]; rfl

/-- **C36** (`relu` on tensors that are not split): the positive part, except that -1 is returned
unchanged, -2 may be, and the largest value may become 0. -/
theorem relu_partial (hw : 2 ≤ w) (hp : w + 1 < p) (x : Priv (BitVec w)) (k : Coins w p)
    (hk : k.Good) (h3 : (x.x0 + x.x1).toInt ≠ 2 ^ (w - 1) - 1) :
    (relu false x k).All fun z =>
      if (x.x0 + x.x1).toInt = -1 then z.x0 + z.x1 = -1#w
      else if (x.x0 + x.x1).toInt = -2 then (z.x0 + z.x1).toInt = 0 ∨ (z.x0 + z.x1).toInt = -2
      else (z.x0 + z.x1).toInt = max 0 (x.x0 + x.x1).toInt := by
  unfold relu reluWithCmpTensor
  simp only [Bool.false_eq_true, if_false]
  rw [all_bind]
  refine All.mono (fun r hr => ?_) (reluWithCmp_all hw hp x k hk)
  rw [all_pure]
  have h1 : r.1.x0 + r.1.x1 = _ := hr.1
  rw [h1]
  by_cases e1 : (x.x0 + x.x1).toInt = -1
  · rw [if_pos e1, msbOf_minus_one hw _ _ e1]
    simp only [Bool.false_eq_true, if_false]
    have : x.x0 + x.x1 = BitVec.ofInt w (-1) := by rw [← e1, BitVec.ofInt_toInt]
    rw [this, Bits.ofInt_neg]
    rfl
  · rw [if_neg e1]
    by_cases e2 : (x.x0 + x.x1).toInt = -2
    · rw [if_pos e2]
      cases msbOf x.x0 x.x1
      · right; exact e2
      · left; exact BitVec.toInt_zero
    · rw [if_neg e2, msbOf_good hw _ _ e1 e2 h3]
      by_cases hn : (x.x0 + x.x1).toInt < 0
      · rw [decide_eq_true hn, if_pos rfl, max_eq_left (by omega)]; exact BitVec.toInt_zero
      · rw [decide_eq_false hn, max_eq_right (by omega)]; rfl

/-- When the tensor is large enough to be split, `relu` returns the comparison bit instead of the
positive part, because the two results are unpacked in the wrong order. -/
theorem relu_split_false (hw : 2 ≤ w) (hp : w + 1 < p) (x : Priv (BitVec w)) (k : Coins w p)
    (hk : k.Good) : (relu true x k).All fun z => z.x0 + z.x1 = 0 ∨ z.x0 + z.x1 = 1 := by
  unfold relu reluWithCmpTensor
  simp only [if_true]
  rw [all_bind, all_bind]
  refine All.mono (fun r hr => ?_) (reluWithCmp_all hw hp x k hk)
  rw [all_pure, all_pure]
  have h2 : r.2.x0 + r.2.x1 = _ := hr.2
  show r.2.x0 + r.2.x1 = 0 ∨ r.2.x0 + r.2.x1 = 1
  rw [h2]
  cases msbOf x.x0 x.x1
  · right; rfl
  · left; rfl

/-! ## maximum -/

theorem select_all {c x y : Priv (BitVec w)} {b : Bool} {u v : BitVec w} (hc : Holds c (bit b))
    (hx : Holds x u) (hy : Holds y v) :
    (select (p := p) c x y).All fun z => Holds z (if b then v else u) := by
  unfold select
  rw [all_bind]
  refine All.mono (fun z hz => ?_) (mul_all (hy.sub hx) hc)
  rw [all_pure]
  refine Eq.trans (hz.add hx) ?_
  cases b
  · show (v - u) * 0 + u = u
    ring
  · show (v - u) * 1 + u = v
    ring

/-- The largest of a list up to `e`. -/
def NearMax (l : List (BitVec w)) (e : ℕ) (m : BitVec w) : Prop :=
  m ∈ l ∧ ∀ v ∈ l, v.toInt ≤ m.toInt + e

/-- What one comparison may answer about whether `a` exceeds `b`. -/
def Verdict (s : ℕ) (a b : BitVec w) (g : Bool) : Prop :=
  if g then b.toInt < a.toInt else a.toInt ≤ b.toInt + s

theorem greater_verdict (hw : 2 ≤ w) (hp : w + 1 < p) {x y : Priv (BitVec w)} {a b : BitVec w}
    (hx : Holds x a) (hy : Holds y b) (k : Coins w p) (hk : k.Good) (s : ℕ) (hf : Fits b a)
    (hs : Apart b a ∨ 2 ≤ s) :
    (greater x y k).All fun z => ∃ g, Holds z (bit g) ∧ Verdict s a b g := by
  have hd : (sub y x).x0 + (sub y x).x1 = b - a := hy.sub hx
  have e := toInt_sub_of hw hf
  refine All.mono (fun z hz => ⟨_, hz, ?_⟩) (msb_all hw hp (sub y x) k hk)
  unfold Verdict
  by_cases h1 : b.toInt - a.toInt = -1
  · rw [msbOf_minus_one hw _ _ (by rw [hd, e]; exact h1)]
    rcases hs with hs | hs
    · exact absurd h1 hs.1
    · simp only [Bool.false_eq_true, if_false]; omega
  by_cases h2 : b.toInt - a.toInt = -2
  · rcases hs with hs | hs
    · exact absurd h2 hs.2
    · split <;> omega
  · rw [msbOf_good hw _ _ (by rw [hd, e]; exact h1) (by rw [hd, e]; exact h2)
      (by rw [hd, e]; have := hf.2; omega), hd, e]
    split
    · rename_i h; have := of_decide_eq_true h; omega
    · rename_i h
      have : ¬ b.toInt - a.toInt < 0 := fun hc => h (decide_eq_true hc)
      omega

/-- Pairs of the list may be compared; `s` is 0 if no two of them are misjudged. -/
def Fine (s : ℕ) (l : List (BitVec w)) : Prop :=
  ∀ a ∈ l, ∀ b ∈ l, Fits a b ∧ (Apart a b ∨ 2 ≤ s)

/-- **C36** (`maximum`): one of the two operands, and smaller than the other by at most 2; exactly the
maximum if the operands do not differ by 1 or 2. -/
theorem maximum_partial (hw : 2 ≤ w) (hp : w + 1 < p) (x y : Priv (BitVec w)) (a b : BitVec w)
    (hx : x.x0 + x.x1 = a) (hy : y.x0 + y.x1 = b) (k : Coins w p) (hk : k.Good) (s : ℕ)
    (hf : Fits b a) (hs : Apart b a ∨ 2 ≤ s) :
    (maximum x y k).All fun z => NearMax [a, b] s (z.x0 + z.x1) := by
  unfold maximum
  rw [all_bind]
  refine All.mono (fun g hg => ?_) (greater_verdict hw hp hx hy k hk s hf hs)
  obtain ⟨g', hg, hv⟩ := hg
  refine All.mono (fun z hz => ?_) (select_all hg hy hx)
  rw [show z.x0 + z.x1 = _ from hz]
  unfold Verdict at hv
  cases g'
  · simp only [Bool.false_eq_true, if_false] at hv ⊢
    exact ⟨by simp, by simp; omega⟩
  · simp only [if_true] at hv ⊢
    exact ⟨by simp, by simp; omega⟩

/-- `maximum(x, x - 1)` returns `x - 1`, in every sharing. -/
theorem maximum_adjacent_false (hw : 2 ≤ w) (hp : w + 1 < p) (x y : Priv (BitVec w)) (k : Coins w p)
    (hk : k.Good) (h : (x.x0 + x.x1) = (y.x0 + y.x1) + 1#w) :
    (maximum x y k).All fun z => z.x0 + z.x1 = y.x0 + y.x1 := by
  unfold maximum
  rw [all_bind]
  refine All.mono (fun g hg => ?_) (less_adjacent_false hw hp y x k hk h).1
  exact select_all (b := false) hg (show Holds y _ from rfl) (show Holds x _ from rfl)

/-! ## Reductions -/

/-- Result of an argmax: the value at some index, smaller than the largest by at most `s` per level of
the tree; with `s = 0` the last index of the largest value. -/
def IsArgmax (l : List (BitVec w)) (s : ℕ) (i : ℕ) (m : BitVec w) : Prop :=
  l[i]? = some m ∧ (∀ v ∈ l, v.toInt ≤ m.toInt + (s * Nat.clog 2 l.length : ℕ)) ∧
    (s = 0 → ∀ (j : ℕ) (v : BitVec w), i < j → l[j]? = some v → v.toInt < m.toInt)

omit [Fact p.Prime] in
theorem clog_split {n : ℕ} (h : ¬ n ≤ 1) :
    Nat.clog 2 (n / 2) + 1 ≤ Nat.clog 2 n ∧ Nat.clog 2 (n - n / 2) + 1 ≤ Nat.clog 2 n := by
  have e : Nat.clog 2 n = Nat.clog 2 ((n + 1) / 2) + 1 := by
    rw [Nat.clog_of_two_le (by omega) (by omega), show n + 2 - 1 = n + 1 by omega]
  rw [e]
  exact ⟨Nat.succ_le_succ (Nat.clog_mono_right 2 (by omega)),
    Nat.succ_le_succ (Nat.clog_mono_right 2 (by omega))⟩

/-- The tree argument, for any node function that keeps the better of two candidates. `Q lo l a` says
what is known of a candidate for the part `l` of the list that starts at `lo`. -/
theorem tree_all {α β : Type} {f : Coins w p → α → α → RandM (T w p) α} {coins : ℕ → ℕ → Coins w p}
    {R : β → α → Prop} {Q : ℕ → List β → α → Prop}
    (leaf : ∀ lo b a, R b a → Q lo [b] a)
    (node : ∀ lo (l₁ l₂ : List β) a₁ a₂, l₁ ≠ [] → l₂ ≠ [] →
      l₁.length = (l₁ ++ l₂).length / 2 → Q lo l₁ a₁ →
      Q (lo + l₁.length) l₂ a₂ →
      (f (coins lo (l₁ ++ l₂).length) a₁ a₂).All (Q lo (l₁ ++ l₂))) :
    ∀ (n lo : ℕ) (bs : List β) (as : List α) (_ : as.length = n) (h : as ≠ [])
      (_ : List.Forall₂ R bs as), (tree f coins lo as h).All (Q lo bs) := by
  intro n
  induction n using Nat.strong_induction_on with
  | _ n ih =>
    intro lo bs as hn h hR
    have hlen := hR.length_eq
    rw [tree]
    by_cases h1 : as.length ≤ 1
    · rw [dif_pos h1, all_pure]
      obtain ⟨a, rfl⟩ : ∃ a, as = [a] := by
        rw [← List.length_eq_one_iff]
        have := List.length_pos_iff.2 h
        omega
      cases hR with
      | cons hab hnil =>
        cases hnil
        exact leaf lo _ _ hab
    · rw [dif_neg h1, all_bind]
      have hb1 : ¬ bs.length ≤ 1 := by omega
      refine All.mono (fun a₁ ha₁ => ?_) (ih _ (by simp only [List.length_take]; omega) lo
        (bs.take (as.length / 2)) _ rfl (take_half_ne h1) (List.forall₂_take _ hR))
      rw [all_bind]
      refine All.mono (fun a₂ ha₂ => ?_) (ih _ (by simp only [List.length_drop]; omega)
        (lo + as.length / 2) (bs.drop (as.length / 2)) _ rfl (drop_half_ne h1)
        (List.forall₂_drop _ hR))
      have e1 : (bs.take (as.length / 2)).length = as.length / 2 := by
        rw [List.length_take]; omega
      have := node lo (bs.take (as.length / 2)) (bs.drop (as.length / 2)) a₁ a₂
        (by rw [← hlen]; exact take_half_ne hb1) (by rw [← hlen]; exact drop_half_ne hb1)
        (by rw [List.take_append_drop, e1, hlen]) ha₁ (by rw [e1]; exact ha₂)
      rw [List.take_append_drop, hlen] at this
      exact this

/-- **C36** (`reduce_max`): for any number of values in any sharing, one of the values, and smaller
than the largest by at most `s` per level of the tree; with `s = 0` (no two values differ by 1 or 2)
exactly the maximum. -/
theorem reduce_max_partial (hw : 2 ≤ w) (hp : w + 1 < p) (coins : ℕ → ℕ → Coins w p)
    (hk : ∀ i j, (coins i j).Good) (vs : List (BitVec w)) (xs : List (Priv (BitVec w)))
    (hx : List.Forall₂ (fun v (x : Priv (BitVec w)) => x.x0 + x.x1 = v) vs xs) (h : xs ≠ []) (s : ℕ)
    (hf : Fine s vs) :
    (reduceMax coins xs h).All fun z => NearMax vs (s * Nat.clog 2 vs.length) (z.x0 + z.x1) := by
  have := tree_all (w := w) (p := p) (f := fun k x y => maximum x y k) (coins := coins)
    (R := fun v (x : Priv (BitVec w)) => x.x0 + x.x1 = v)
    (Q := fun _ l z => Fine s l → NearMax l (s * Nat.clog 2 l.length) (z.x0 + z.x1))
    (fun lo b a hab _ => by
      rw [hab]; exact ⟨by simp, by simp⟩)
    (fun lo l₁ l₂ a₁ a₂ n₁ n₂ hl h₁ h₂ => by
      by_cases hf : Fine s (l₁ ++ l₂)
      · have h₁ := h₁ fun a ha b hb => hf a (List.mem_append_left _ ha) b (List.mem_append_left _ hb)
        have h₂ := h₂ fun a ha b hb => hf a (List.mem_append_right _ ha) b (List.mem_append_right _ hb)
        have hc := hf _ (List.mem_append_right _ h₂.1) _ (List.mem_append_left _ h₁.1)
        refine All.mono (fun z hz _ => ?_) (maximum_partial hw hp a₁ a₂ _ _ rfl rfl
          (coins lo (l₁ ++ l₂).length) (hk _ _) s hc.1 hc.2)
        obtain ⟨hm, hle⟩ := hz
        have p1 := List.length_pos_iff.2 n₁
        have p2 := List.length_pos_iff.2 n₂
        have hlog := clog_split (n := (l₁ ++ l₂).length) (by rw [List.length_append]; omega)
        have q1 : s * Nat.clog 2 l₁.length + s ≤ s * Nat.clog 2 (l₁ ++ l₂).length := by
          rw [hl, ← Nat.mul_succ]; exact Nat.mul_le_mul_left _ hlog.1
        have q2 : s * Nat.clog 2 l₂.length + s ≤ s * Nat.clog 2 (l₁ ++ l₂).length := by
          have : l₂.length = (l₁ ++ l₂).length - (l₁ ++ l₂).length / 2 := by
            rw [← hl, List.length_append]; omega
          rw [this, ← Nat.mul_succ]; exact Nat.mul_le_mul_left _ hlog.2
        have b1 := hle (a₁.x0 + a₁.x1) (by simp)
        have b2 := hle (a₂.x0 + a₂.x1) (by simp)
        refine ⟨?_, fun v hv => ?_⟩
        · simp only [List.mem_cons, List.not_mem_nil, or_false] at hm
          rcases hm with hm | hm
          · rw [hm]; exact List.mem_append_left _ h₁.1
          · rw [hm]; exact List.mem_append_right _ h₂.1
        · rcases List.mem_append.1 hv with hv | hv
          · have := h₁.2 v hv; omega
          · have := h₂.2 v hv; omega
      · exact All.trivial (fun _ hc => absurd hc hf) _)
    _ 0 vs xs rfl h hx
  exact All.mono (fun z hz => hz hf) this

/-- The body stands for a value. -/
def BodyHolds (v : BitVec w) : Body (BitVec w) → Prop
  | .pub u => u = v
  | .priv x => x.x0 + x.x1 = v

theorem selectBody_all {c : Priv (BitVec w)} {x y : Body (BitVec w)} {b : Bool} {u v : BitVec w}
    (hc : Holds c (bit b)) (hx : BodyHolds u x) (hy : BodyHolds v y) :
    (selectBody (p := p) c x y).All fun z => BodyHolds (if b then v else u) z := by
  have e : (v - u) * bit b + u = if b then v else u := by
    cases b
    · show (v - u) * 0 + u = u
      ring
    · show (v - u) * 1 + u = v
      ring
  have fin : ∀ z : Priv (BitVec w), Holds z ((v - u) * bit b) →
      BodyHolds (if b then v else u) (.priv (addBody z x)) := by
    intro z hz
    rw [← e]
    cases x with
    | pub x =>
      have hx : x = u := hx
      subst hx
      exact hz.addPub x
    | priv x => exact hz.add hx
  have hd : BodyHolds (v - u) (Body.sub y x) := by
    cases x with
    | pub x =>
      have hx : x = u := hx
      subst hx
      cases y with
      | pub y => exact congrArg (· - x) (show y = v from hy)
      | priv y =>
        have hy : y.x0 + y.x1 = v := hy
        show y.x0 - x + y.x1 = v - x
        rw [← hy]; ring
    | priv x =>
      cases y with
      | pub y =>
        have hy : y = v := hy
        subst hy
        exact Holds.pubSub hx y
      | priv y => exact Holds.sub hy hx
  unfold selectBody
  rw [all_bind]
  refine All.mono (fun z hz => fin z hz) ?_
  generalize Body.sub y x = d at hd
  cases d with
  | pub d =>
    have hd : d = v - u := hd
    subst hd
    have := hc.mulPub (v - u)
    rw [mul_comm] at this
    exact this
  | priv d => exact mul_all hd hc

/-- What the tree of `reduce_max_with_argmax` knows of a candidate for part of the list. -/
def Best (s frac : ℕ) (l : List (BitVec w × ℕ)) (a : Priv (BitVec w) × Body (BitVec w)) : Prop :=
  ∃ v i, (v, i) ∈ l ∧ a.1.x0 + a.1.x1 = v ∧ BodyHolds (BitVec.ofNat w (i * 2 ^ frac)) a.2 ∧
    (∀ t ∈ l, t.1.toInt ≤ v.toInt + (s * Nat.clog 2 l.length : ℕ)) ∧
    (s = 0 → ∀ t ∈ l, i < t.2 → t.1.toInt < v.toInt)

theorem argNode_all (hw : 2 ≤ w) (hp : w + 1 < p) {k : Coins w p} (hk : k.Good) {s frac : ℕ}
    {l₁ l₂ : List (BitVec w × ℕ)} {a₁ a₂ : Priv (BitVec w) × Body (BitVec w)} (n₁ : l₁ ≠ [])
    (n₂ : l₂ ≠ []) (hl : l₁.length = (l₁ ++ l₂).length / 2)
    (hf : Fine s ((l₁ ++ l₂).map (·.1))) (hi : (l₁ ++ l₂).Pairwise (·.2 < ·.2))
    (h₁ : Best s frac l₁ a₁) (h₂ : Best s frac l₂ a₂) :
    (argNode k a₁ a₂).All (Best s frac (l₁ ++ l₂)) := by
  obtain ⟨v₁, i₁, m₁, x₁, b₁, g₁, t₁⟩ := h₁
  obtain ⟨v₂, i₂, m₂, x₂, b₂, g₂, t₂⟩ := h₂
  have hc := hf v₂ (List.mem_map_of_mem (f := (·.1)) (List.mem_append_right l₁ m₂)) v₁
    (List.mem_map_of_mem (f := (·.1)) (List.mem_append_left l₂ m₁))
  have p1 := List.length_pos_iff.2 n₁
  have p2 := List.length_pos_iff.2 n₂
  have hlog := clog_split (n := (l₁ ++ l₂).length) (by rw [List.length_append]; omega)
  have q1 : s * Nat.clog 2 l₁.length + s ≤ s * Nat.clog 2 (l₁ ++ l₂).length := by
    rw [hl, ← Nat.mul_succ]; exact Nat.mul_le_mul_left _ hlog.1
  have q2 : s * Nat.clog 2 l₂.length + s ≤ s * Nat.clog 2 (l₁ ++ l₂).length := by
    have : l₂.length = (l₁ ++ l₂).length - (l₁ ++ l₂).length / 2 := by
      rw [← hl, List.length_append]; omega
    rw [this, ← Nat.mul_succ]; exact Nat.mul_le_mul_left _ hlog.2
  unfold argNode
  rw [all_bind]
  refine All.mono (fun g hg => ?_) (greater_verdict hw hp x₁ x₂ k hk s hc.1 hc.2)
  obtain ⟨g', hg, hv⟩ := hg
  rw [all_bind]
  refine All.mono (fun m hm => ?_) (select_all hg x₂ x₁)
  rw [all_bind]
  refine All.mono (fun i hi' => ?_) (selectBody_all hg b₂ b₁)
  rw [all_pure]
  unfold Verdict at hv
  have hcross : i₁ < i₂ := (List.pairwise_append.1 hi).2.2 _ m₁ _ m₂
  cases g'
  · simp only [Bool.false_eq_true, if_false] at hv hm hi'
    refine ⟨v₂, i₂, List.mem_append_right _ m₂, hm, hi', fun t ht => ?_, fun hs t ht hlt => ?_⟩
    · rcases List.mem_append.1 ht with ht | ht
      · have := g₁ t ht; omega
      · have := g₂ t ht; omega
    · rcases List.mem_append.1 ht with ht | ht
      · have := (List.pairwise_append.1 hi).2.2 _ ht _ m₂
        simp only at this
        omega
      · exact t₂ hs t ht hlt
  · simp only [if_true] at hv hm hi'
    refine ⟨v₁, i₁, List.mem_append_left _ m₁, hm, hi', fun t ht => ?_, fun hs t ht hlt => ?_⟩
    · rcases List.mem_append.1 ht with ht | ht
      · have := g₁ t ht; omega
      · have := g₂ t ht; omega
    · rcases List.mem_append.1 ht with ht | ht
      · exact t₁ hs t ht hlt
      · have := g₂ t ht
        rw [hs, Nat.zero_mul] at this
        simp only [Nat.cast_zero] at this
        omega

omit [Fact p.Prime] in
theorem zipIdx_increasing {α : Type} (l : List α) : l.zipIdx.Pairwise (·.2 < ·.2) := by
  rw [List.pairwise_iff_getElem]
  intro i j hi hj hij
  simpa using hij

/-- **C36** (`reduce_max_with_argmax`, `argmax`): the value and the (scaled) index of an element that
is near the largest; with `s = 0` (no two values differ by 1 or 2) the maximum and its last index. -/
theorem argmax_partial (hw : 2 ≤ w) (hp : w + 1 < p) (frac : ℕ) (coins : ℕ → ℕ → Coins w p)
    (hk : ∀ i j, (coins i j).Good) (vs : List (BitVec w)) (xs : List (Priv (BitVec w)))
    (hx : List.Forall₂ (fun v (x : Priv (BitVec w)) => x.x0 + x.x1 = v) vs xs) (h : xs ≠ []) (s : ℕ)
    (hf : Fine s vs) :
    (reduceMaxWithArgmax frac coins xs h).All fun z => ∃ i,
      IsArgmax vs s i (z.1.x0 + z.1.x1) ∧
      BodyHolds (BitVec.ofNat w (i * 2 ^ frac)) z.2 := by
  have hR : List.Forall₂ (fun (t : BitVec w × ℕ) (a : Priv (BitVec w) × Body (BitVec w)) =>
      a.1.x0 + a.1.x1 = t.1 ∧ BodyHolds (BitVec.ofNat w (t.2 * 2 ^ frac)) a.2) vs.zipIdx
      (xs.mapIdx fun i x => (x, .pub (BitVec.ofNat w (i * 2 ^ frac)))) := by
    rw [List.forall₂_iff_get] at hx ⊢
    refine ⟨by simpa using hx.1, fun i h1 h2 => ?_⟩
    have := hx.2 i (by simpa using h1) (by simpa using h2)
    simp only [List.get_eq_getElem] at this
    simp only [List.get_eq_getElem, List.getElem_zipIdx, List.getElem_mapIdx]
    exact ⟨this, by simp [BodyHolds]⟩
  have := tree_all (w := w) (p := p) (f := argNode) (coins := coins)
    (Q := fun _ l z => Fine s (l.map (·.1)) → l.Pairwise (·.2 < ·.2) → Best s frac l z)
    (fun lo b a hab _ _ => ⟨b.1, b.2, by simp, hab.1, hab.2, by simp, by simp⟩)
    (fun lo l₁ l₂ a₁ a₂ n₁ n₂ hl h₁ h₂ => by
      by_cases hf : Fine s ((l₁ ++ l₂).map (·.1)) ∧ (l₁ ++ l₂).Pairwise (·.2 < ·.2)
      · obtain ⟨hf, hi⟩ := hf
        have hi' := List.pairwise_append.1 hi
        rw [List.map_append] at hf
        have h₁ := h₁ (fun a ha b hb => hf a (List.mem_append_left _ ha) b
          (List.mem_append_left _ hb)) hi'.1
        have h₂ := h₂ (fun a ha b hb => hf a (List.mem_append_right _ ha) b
          (List.mem_append_right _ hb)) hi'.2.1
        rw [← List.map_append] at hf
        exact All.mono (fun z hz _ _ => hz) (argNode_all hw hp (hk _ _) n₁ n₂ hl hf hi h₁ h₂)
      · exact All.trivial (fun _ h1 h2 => absurd ⟨h1, h2⟩ hf) _)
    _ 0 _ _ rfl (by simpa using h) hR
  refine All.mono (fun z hz => ?_) this
  obtain ⟨v, i, hm, hv, hb, hle, hlast⟩ := hz (by simpa [List.zipIdx_map_fst] using hf)
    (zipIdx_increasing vs)
  refine ⟨i, ⟨?_, fun u hu => ?_, fun hs j u hij hu => ?_⟩, hb⟩
  · rw [hv]; exact List.mem_zipIdx_iff_getElem?.1 hm
  · obtain ⟨j, hj⟩ := List.mem_iff_getElem?.1 hu
    have := hle (u, j) (List.mem_zipIdx_iff_getElem?.2 hj)
    rw [List.length_zipIdx] at this
    rw [hv]; exact this
  · rw [hv]; exact hlast hs (u, j) (List.mem_zipIdx_iff_getElem?.2 hu) hij

/-! ## The coins -/

/-- Good coins exist: the odd ring has elements other than -1. -/
example : (⟨0, 5, true, fun _ => 3⟩ : Coins 8 107).Good :=
  ⟨by unfold IsOdd; decide, by unfold IsOdd; decide, fun _ => show (3 : ZMod 107) ≠ 0 by decide⟩

/-- Three values of 8 bits that are pairwise apart. -/
example : Fine 0 [(10 : BitVec 8), 20, -5] := by
  intro a ha b hb
  simp only [List.mem_cons, List.not_mem_nil, or_false] at ha hb
  rcases ha with rfl | rfl | rfl <;> rcases hb with rfl | rfl | rfl <;>
    exact ⟨by unfold Fits; decide, Or.inl (by unfold Apart; decide)⟩

/-- A sharing of -5 and its sign. -/
example : ((⟨100, 151⟩ : Priv (BitVec 8)).x0 + (⟨100, 151⟩ : Priv (BitVec 8)).x1).toInt = -5 := by
  decide

end Verif.SecureNN
