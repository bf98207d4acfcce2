import Mathlib.Data.Nat.Log
import Mathlib.Tactic.Ring
import Mathlib.Tactic.Linarith

/-!
# Carries of a span of bits

`span g p lo n` is the carry out of the `n` positions `lo, …, lo+n-1` with no carry coming in,
when position `j` generates a carry if `g j` and propagates one if `p j`; `prop p lo n` says that
the whole span propagates. These are the (G, P) pairs that the adder circuits combine.
-/

namespace Verif.Bits

/-- Carry out of a span. -/
def span (g p : ℕ → Bool) (lo : ℕ) : ℕ → Bool
  | 0 => false
  | n + 1 => g (lo + n) ^^ (p (lo + n) && span g p lo n)

/-- The whole span propagates. -/
def prop (p : ℕ → Bool) (lo : ℕ) : ℕ → Bool
  | 0 => true
  | n + 1 => p (lo + n) && prop p lo n

theorem span_append (g p : ℕ → Bool) (lo m n : ℕ) :
    span g p lo (m + n) = (span g p (lo + m) n ^^ (prop p (lo + m) n && span g p lo m)) := by
  induction n with
  | zero => simp [span, prop]
  | succ n ih =>
    rw [← Nat.add_assoc, span, ih, span, prop, Nat.add_assoc lo m n]
    cases g (lo + (m + n)) <;> cases p (lo + (m + n)) <;> simp

theorem prop_append (p : ℕ → Bool) (lo m n : ℕ) :
    prop p lo (m + n) = (prop p (lo + m) n && prop p lo m) := by
  induction n with
  | zero => simp [prop]
  | succ n ih =>
    rw [← Nat.add_assoc, prop, ih, prop, Nat.add_assoc lo m n, Bool.and_assoc]

theorem span_congr {g p g' p' : ℕ → Bool} {lo n : ℕ}
    (h : ∀ j, lo ≤ j → j < lo + n → g j = g' j ∧ p j = p' j) :
    span g p lo n = span g' p' lo n := by
  induction n with
  | zero => rfl
  | succ n ih =>
    obtain ⟨h1, h2⟩ := h (lo + n) (by omega) (by omega)
    rw [span, span, h1, h2, ih fun j a b => h j a (by omega)]

/-- The generate and propagate bits of two words. -/
def genBit {w : ℕ} (x y : BitVec w) (j : ℕ) : Bool := x.getLsbD j && y.getLsbD j
/-- See `genBit`. -/
def propBit {w : ℕ} (x y : BitVec w) (j : ℕ) : Bool := x.getLsbD j ^^ y.getLsbD j

/-- The carry into position `n` of the sum of two words. -/
theorem span_eq_carry {w : ℕ} (x y : BitVec w) (n : ℕ) :
    span (genBit x y) (propBit x y) 0 n = BitVec.carry n x y false := by
  induction n with
  | zero => simp [span]
  | succ n ih =>
    rw [span, ih, BitVec.carry_succ, Nat.zero_add]
    unfold genBit propBit Bool.atLeastTwo
    cases x.getLsbD n <;> cases y.getLsbD n <;> simp

/-! ## Kogge-Stone -/

/-- One word at a time: the loop of the Kogge-Stone adder. -/
def ksLoop {w : ℕ} (mask : ℕ → BitVec w) : List ℕ → BitVec w → BitVec w → BitVec w
  | [], g, _ => g
  | i :: is, g, p =>
    ksLoop mask is (g ^^^ (p &&& (g <<< 2 ^ i))) (p &&& ((p <<< 2 ^ i) ^^^ mask i))

/-- `g`, `p` describe the spans of the last `m` positions. -/
def KsInv {w : ℕ} (x y : BitVec w) (m : ℕ) (g p : BitVec w) : Prop :=
  ∀ j, j < w → g.getLsbD j = span (genBit x y) (propBit x y) (j + 1 - m) (j + 1 - (j + 1 - m)) ∧
    p.getLsbD j = prop (propBit x y) (j + 1 - m) (j + 1 - (j + 1 - m))

/-- The part of `KsInv` about `g`. -/
def KsInvG {w : ℕ} (x y : BitVec w) (m : ℕ) (g : BitVec w) : Prop :=
  ∀ j, j < w → g.getLsbD j = span (genBit x y) (propBit x y) (j + 1 - m) (j + 1 - (j + 1 - m))

theorem ks_stepG {w : ℕ} {x y g p : BitVec w} {m : ℕ} (h : KsInv x y m g p) :
    KsInvG x y (2 * m) (g ^^^ (p &&& (g <<< m))) := by
  intro j hj
  obtain ⟨hg, hp⟩ := h j hj
  rw [BitVec.getLsbD_xor, BitVec.getLsbD_and, BitVec.getLsbD_shiftLeft, hg, hp]
  by_cases hm : j < m
  · have e : j + 1 - 2 * m = j + 1 - m := by omega
    simp [hm, e]
  · obtain ⟨hg', -⟩ := h (j - m) (by omega)
    rw [hg']
    have e := span_append (genBit x y) (propBit x y) (j + 1 - 2 * m)
      (j + 1 - m - (j + 1 - 2 * m)) m
    have e1 : j + 1 - m - (j + 1 - 2 * m) + m = j + 1 - (j + 1 - 2 * m) := by omega
    have e2 : j + 1 - 2 * m + (j + 1 - m - (j + 1 - 2 * m)) = j + 1 - m := by omega
    have e3 : j + 1 - (j + 1 - m) = m := by omega
    have e4 : j - m + 1 - m = j + 1 - 2 * m := by omega
    have e5 : j - m + 1 - (j + 1 - 2 * m) = j + 1 - m - (j + 1 - 2 * m) := by omega
    rw [e1, e2] at e
    rw [e, e3, e4, e5]
    simp [hj, hm]

theorem ks_step {w : ℕ} {x y g p mask : BitVec w} {m : ℕ} (h : KsInv x y m g p)
    (hmask : ∀ j, j < w → mask.getLsbD j = decide (j < m)) :
    KsInv x y (2 * m) (g ^^^ (p &&& (g <<< m))) (p &&& ((p <<< m) ^^^ mask)) := by
  intro j hj
  refine ⟨ks_stepG h j hj, ?_⟩
  obtain ⟨-, hp⟩ := h j hj
  rw [BitVec.getLsbD_and, BitVec.getLsbD_xor, BitVec.getLsbD_shiftLeft, hmask j hj, hp]
  by_cases hm : j < m
  · have e : j + 1 - 2 * m = j + 1 - m := by omega
    simp [hm, e]
  · obtain ⟨-, hp'⟩ := h (j - m) (by omega)
    rw [hp']
    have e := prop_append (propBit x y) (j + 1 - 2 * m) (j + 1 - m - (j + 1 - 2 * m)) m
    have e1 : j + 1 - m - (j + 1 - 2 * m) + m = j + 1 - (j + 1 - 2 * m) := by omega
    have e2 : j + 1 - 2 * m + (j + 1 - m - (j + 1 - 2 * m)) = j + 1 - m := by omega
    have e3 : j + 1 - (j + 1 - m) = m := by omega
    have e4 : j - m + 1 - m = j + 1 - 2 * m := by omega
    have e5 : j - m + 1 - (j + 1 - 2 * m) = j + 1 - m - (j + 1 - 2 * m) := by omega
    rw [e1, e2] at e
    rw [e, e3, e4, e5]
    simp [hj, hm]

theorem ks_init {w : ℕ} (x y : BitVec w) : KsInv x y 1 (x &&& y) (x ^^^ y) := by
  intro j hj
  have e : j + 1 - 1 = j := by omega
  have e' : j + 1 - j = 1 := by omega
  rw [e, e']
  simp [span, prop, genBit, propBit]

/-- After `r` rounds started at round `i`; the mask of the last round is not used. -/
theorem ksLoop_inv {w : ℕ} (x y : BitVec w) (mask : ℕ → BitVec w) (r : ℕ) :
    ∀ (i : ℕ) (g p : BitVec w),
      (∀ l, i ≤ l → l + 1 < i + r → ∀ j, j < w → (mask l).getLsbD j = decide (j < 2 ^ l)) →
      KsInv x y (2 ^ i) g p → KsInvG x y (2 ^ (i + r)) (ksLoop mask (List.range' i r) g p) := by
  induction r with
  | zero => exact fun i g p _ h j hj => (h j hj).1
  | succ r ih =>
    intro i g p hmask h
    rw [List.range'_succ, ksLoop]
    cases r with
    | zero =>
      have e := ks_stepG h
      rw [← pow_succ'] at e
      exact e
    | succ r =>
      have := ih (i + 1) _ _ (fun l h1 h2 => hmask l (by omega) (by omega))
        (by rw [pow_succ']; exact ks_step h (hmask i le_rfl (by omega)))
      rw [show i + 1 + (r + 1) = i + (r + 1 + 1) from by omega] at this
      exact this

/-- The Kogge-Stone adder before its final mask: correct in the low `2^r` positions (and one
more). -/
theorem ks_sum {w : ℕ} (x y : BitVec w) (mask : ℕ → BitVec w) (r : ℕ)
    (hmask : ∀ l, l + 1 < r → ∀ j, j < w → (mask l).getLsbD j = decide (j < 2 ^ l)) (j : ℕ)
    (hj : j < w) (hr : j ≤ 2 ^ r) :
    (((ksLoop mask (List.range r) (x &&& y) (x ^^^ y)) <<< 1) ^^^ (x ^^^ y)).getLsbD j
      = (x + y).getLsbD j := by
  have inv := ksLoop_inv x y mask r 0 _ _ (fun l _ h => hmask l (by omega)) (ks_init x y)
  rw [← List.range_eq_range', Nat.zero_add] at inv
  rw [BitVec.getLsbD_xor, BitVec.getLsbD_shiftLeft, BitVec.getLsbD_xor, BitVec.getLsbD_add hj]
  rcases Nat.eq_zero_or_pos j with rfl | h0
  · simp [BitVec.carry_zero]
  · have hi := inv (j - 1) (by omega)
    have e1 : j - 1 + 1 - 2 ^ r = 0 := by omega
    have e2 : j - 1 + 1 - 0 = j := by omega
    rw [e1, e2, span_eq_carry] at hi
    rw [hi]
    have h1 : ¬ j < 1 := by omega
    simp only [hj, h1, decide_true, decide_false, Bool.not_false, Bool.and_true, Bool.true_and]
    cases x.getLsbD j <;> cases y.getLsbD j <;> cases BitVec.carry j x y false <;> rfl

/-! ## Sklansky -/

/-- Copy every bit to the next `2^i - 1` positions (the inner loop of the Sklansky adder). -/
def smear {w : ℕ} : ℕ → BitVec w → BitVec w
  | 0, g => g
  | j + 1, g => ((smear j g) <<< 2 ^ j) ^^^ smear j g

theorem smear_bit {w : ℕ} (g : BitVec w) (i : ℕ)
    (hg : ∀ j, g.getLsbD j = true → 2 ^ i ∣ j) :
    ∀ s, s ≤ i → ∀ t, t < w → (smear s g).getLsbD t = g.getLsbD (t - t % 2 ^ s) := by
  intro s
  induction s with
  | zero => intro _ t _; simp [smear, Nat.mod_one]
  | succ s ih =>
    intro hs t ht
    have hno : ∀ j, ¬ 2 ^ (s + 1) ∣ j → g.getLsbD j = false := by
      intro j hj
      by_contra h
      exact hj ((Nat.pow_dvd_pow 2 hs).trans (hg j (by simpa using h)))
    have h2 : 0 < 2 ^ s := Nat.two_pow_pos s
    rw [smear, BitVec.getLsbD_xor, BitVec.getLsbD_shiftLeft, ih (by omega) t ht]
    have hp : 2 ^ (s + 1) = 2 * 2 ^ s := pow_succ' 2 s
    -- write t = q * 2^(s+1) + r
    obtain ⟨q, r, hr, rfl⟩ : ∃ q r, r < 2 ^ (s + 1) ∧ t = q * 2 ^ (s + 1) + r :=
      ⟨t / 2 ^ (s + 1), t % 2 ^ (s + 1), Nat.mod_lt _ (by positivity), (Nat.div_add_mod' t _).symm⟩
    have em : (q * 2 ^ (s + 1) + r) % 2 ^ (s + 1) = r := by
      rw [Nat.mul_add_mod_self_right]; exact Nat.mod_eq_of_lt hr
    rw [em]
    by_cases hlt : r < 2 ^ s
    · have em' : (q * 2 ^ (s + 1) + r) % 2 ^ s = r := by
        rw [hp, show q * (2 * 2 ^ s) + r = (q * 2) * 2 ^ s + r by ring, Nat.mul_add_mod_self_right]
        exact Nat.mod_eq_of_lt hlt
      rw [em']
      by_cases hq : q * 2 ^ (s + 1) + r < 2 ^ s
      · simp [hq]
      · rw [ih (by omega) _ (by omega)]
        have hq1 : 0 < q := by
          rcases Nat.eq_zero_or_pos q with rfl | h
          · omega
          · exact h
        obtain ⟨q', rfl⟩ : ∃ q', q = q' + 1 := ⟨q - 1, by omega⟩
        have e1 : (q' + 1) * 2 ^ (s + 1) + r - 2 ^ s = (q' * 2 + 1) * 2 ^ s + r := by
          rw [hp]
          have : (q' + 1) * (2 * 2 ^ s) + r = (q' * 2 + 1) * 2 ^ s + r + 2 ^ s := by ring
          omega
        have e2 : ((q' * 2 + 1) * 2 ^ s + r) % 2 ^ s = r := by
          rw [Nat.mul_add_mod_self_right]; exact Nat.mod_eq_of_lt hlt
        rw [e1, e2, Nat.add_sub_cancel, hno]
        · simp
        · rintro ⟨c, hc⟩
          rw [hp, show 2 * 2 ^ s * c = (2 * c) * 2 ^ s by ring] at hc
          have := Nat.eq_of_mul_eq_mul_right h2 hc
          omega
    · have e3 : q * 2 ^ (s + 1) + r = (q * 2 + 1) * 2 ^ s + (r - 2 ^ s) := by
        rw [hp]
        have : (q * 2 + 1) * 2 ^ s = q * (2 * 2 ^ s) + 2 ^ s := by ring
        omega
      have hr' : r - 2 ^ s < 2 ^ s := by omega
      have em' : (q * 2 ^ (s + 1) + r) % 2 ^ s = r - 2 ^ s := by
        rw [e3, Nat.mul_add_mod_self_right]; exact Nat.mod_eq_of_lt hr'
      rw [em', show q * 2 ^ (s + 1) + r - (r - 2 ^ s) = (q * 2 + 1) * 2 ^ s by omega,
        hno ((q * 2 + 1) * 2 ^ s)]
      · rw [ih (by omega) _ (by omega)]
        have e4 : q * 2 ^ (s + 1) + r - 2 ^ s = (q * 2) * 2 ^ s + (r - 2 ^ s) := by
          have : (q * 2 + 1) * 2 ^ s = (q * 2) * 2 ^ s + 2 ^ s := by ring
          omega
        have e5 : (q * 2 * 2 ^ s + (r - 2 ^ s)) % 2 ^ s = r - 2 ^ s := by
          rw [Nat.mul_add_mod_self_right]; exact Nat.mod_eq_of_lt hr'
        rw [e4, e5, Nat.add_sub_cancel, Nat.add_sub_cancel, hp,
          show q * 2 * 2 ^ s = q * (2 * 2 ^ s) by ring]
        have h1 : ¬ q * (2 * 2 ^ s) + r < 2 ^ s := by omega
        have h3 : q * (2 * 2 ^ s) + r < w := by rw [← hp]; exact ht
        simp [h1, h3]
      · rintro ⟨c, hc⟩
        rw [hp, show 2 * 2 ^ s * c = (2 * c) * 2 ^ s by ring] at hc
        have := Nat.eq_of_mul_eq_mul_right h2 hc
        omega

/-- One word at a time: the loop of the Sklansky adder. -/
def skLoop {w : ℕ} (keep copy : ℕ → BitVec w) : List ℕ → BitVec w → BitVec w → BitVec w
  | [], g, _ => g
  | i :: is, g, p =>
    skLoop keep copy is (g ^^^ (p &&& smear i ((g &&& copy i) <<< 1)))
      (p &&& (smear i ((p &&& copy i) <<< 1) ^^^ keep i))

/-- `g`, `p` describe the spans from the start of the enclosing block of `m` to the position. -/
def SkInv {w : ℕ} (x y : BitVec w) (m : ℕ) (g p : BitVec w) : Prop :=
  ∀ j, j < w → g.getLsbD j = span (genBit x y) (propBit x y) (j - j % m) (j % m + 1) ∧
    p.getLsbD j = prop (propBit x y) (j - j % m) (j % m + 1)

theorem sk_init {w : ℕ} (x y : BitVec w) : SkInv x y 1 (x &&& y) (x ^^^ y) := by
  intro j _
  simp [Nat.mod_one, span, prop, genBit, propBit]

/-- The copied word: in the upper half of a block of `2 * 2^i`, the last bit of the lower half;
zero in the lower half. -/
theorem copied_bit {w : ℕ} (g copy : BitVec w) (i : ℕ)
    (hc : ∀ j, j < w → copy.getLsbD j = decide (j % (2 * 2 ^ i) = 2 ^ i - 1)) (t : ℕ) (ht : t < w) :
    (smear i ((g &&& copy) <<< 1)).getLsbD t =
      (decide (2 ^ i ≤ t % (2 * 2 ^ i)) && g.getLsbD (t - t % 2 ^ i - 1)) := by
  have h2 : 0 < 2 ^ i := Nat.two_pow_pos i
  have key : ∀ j, ((g &&& copy) <<< 1).getLsbD j =
      (decide (j < w) && decide (j % (2 * 2 ^ i) = 2 ^ i) && g.getLsbD (j - 1)) := by
    intro j
    rw [BitVec.getLsbD_shiftLeft, BitVec.getLsbD_and]
    by_cases hj : j < w
    · rcases Nat.eq_zero_or_pos j with rfl | h0
      · simp [h2.ne]
      · rw [hc (j - 1) (by omega)]
        have hiff : ((j - 1) % (2 * 2 ^ i) = 2 ^ i - 1) ↔ (j % (2 * 2 ^ i) = 2 ^ i) := by
          obtain ⟨q, rfl⟩ : ∃ q, j = q + 1 := ⟨j - 1, by omega⟩
          rw [Nat.add_sub_cancel, Nat.add_mod_eq_ite]
          have hlt := Nat.mod_lt q (show 0 < 2 * 2 ^ i by omega)
          have h1 : 1 % (2 * 2 ^ i) = 1 := Nat.mod_eq_of_lt (by omega)
          rw [h1]
          split <;> omega
        have h1 : ¬ j < 1 := by omega
        simp only [hj, h1, hiff, decide_true, decide_false, Bool.not_false, Bool.true_and]
        rw [Bool.and_comm]
    · simp [hj]
  have hsup : ∀ j, ((g &&& copy) <<< 1).getLsbD j = true → 2 ^ i ∣ j := by
    intro j hj
    rw [key] at hj
    simp only [Bool.and_eq_true, decide_eq_true_eq] at hj
    have h := Nat.div_add_mod j (2 * 2 ^ i)
    rw [hj.1.2] at h
    exact ⟨2 * (j / (2 * 2 ^ i)) + 1, by linarith [h]⟩
  rw [smear_bit _ i hsup i le_rfl t ht, key]
  have hle := Nat.mod_le t (2 ^ i)
  have hw : t - t % 2 ^ i < w := by omega
  have hiff : ((t - t % 2 ^ i) % (2 * 2 ^ i) = 2 ^ i) ↔ 2 ^ i ≤ t % (2 * 2 ^ i) := by
    have hlt := Nat.mod_lt t (show 0 < 2 * 2 ^ i by omega)
    obtain ⟨q, r, hr, rfl⟩ : ∃ q r, r < 2 * 2 ^ i ∧ t = q * (2 * 2 ^ i) + r :=
      ⟨t / (2 * 2 ^ i), t % (2 * 2 ^ i), hlt, (Nat.div_add_mod' t _).symm⟩
    have e1 : (q * (2 * 2 ^ i) + r) % (2 * 2 ^ i) = r := by
      rw [Nat.mul_add_mod_self_right]; exact Nat.mod_eq_of_lt hr
    have e2 : (q * (2 * 2 ^ i) + r) % 2 ^ i = r % 2 ^ i := by
      rw [show q * (2 * 2 ^ i) + r = (q * 2) * 2 ^ i + r by ring, Nat.mul_add_mod_self_right]
    rw [e1, e2]
    have hrle := Nat.mod_le r (2 ^ i)
    have e3 : q * (2 * 2 ^ i) + r - r % 2 ^ i = q * (2 * 2 ^ i) + (r - r % 2 ^ i) := by omega
    rw [e3, Nat.mul_add_mod_self_right, Nat.mod_eq_of_lt (show r - r % 2 ^ i < 2 * 2 ^ i by omega)]
    by_cases hge : 2 ^ i ≤ r
    · have : r % 2 ^ i = r - 2 ^ i := by
        rw [Nat.mod_eq_sub_mod hge]; exact Nat.mod_eq_of_lt (by omega)
      rw [this]
      exact ⟨fun _ => hge, fun _ => by omega⟩
    · have : r % 2 ^ i = r := Nat.mod_eq_of_lt (by omega)
      rw [this]
      exact ⟨fun h => by omega, fun h => absurd h hge⟩
  simp only [hw, hiff, decide_true, Bool.true_and]

theorem sk_step {w : ℕ} {x y g p keep copy : BitVec w} {i : ℕ} (h : SkInv x y (2 ^ i) g p)
    (hk : ∀ j, j < w → keep.getLsbD j = decide (j % (2 * 2 ^ i) < 2 ^ i))
    (hc : ∀ j, j < w → copy.getLsbD j = decide (j % (2 * 2 ^ i) = 2 ^ i - 1)) :
    SkInv x y (2 * 2 ^ i) (g ^^^ (p &&& smear i ((g &&& copy) <<< 1)))
      (p &&& (smear i ((p &&& copy) <<< 1) ^^^ keep)) := by
  intro j hj
  have h2 : 0 < 2 ^ i := Nat.two_pow_pos i
  obtain ⟨hg, hp⟩ := h j hj
  simp only [BitVec.getLsbD_xor, BitVec.getLsbD_and]
  rw [copied_bit g copy i hc j hj, copied_bit p copy i hc j hj, hk j hj, hg, hp]
  obtain ⟨q, r, hr, rfl⟩ : ∃ q r, r < 2 * 2 ^ i ∧ j = q * (2 * 2 ^ i) + r :=
    ⟨j / (2 * 2 ^ i), j % (2 * 2 ^ i), Nat.mod_lt _ (by omega), (Nat.div_add_mod' j _).symm⟩
  have e1 : (q * (2 * 2 ^ i) + r) % (2 * 2 ^ i) = r := by
    rw [Nat.mul_add_mod_self_right]; exact Nat.mod_eq_of_lt hr
  have e2 : (q * (2 * 2 ^ i) + r) % 2 ^ i = r % 2 ^ i := by
    rw [show q * (2 * 2 ^ i) + r = (q * 2) * 2 ^ i + r by ring, Nat.mul_add_mod_self_right]
  rw [e1, e2]
  by_cases hge : 2 ^ i ≤ r
  · have e3 : r % 2 ^ i = r - 2 ^ i := by
      rw [Nat.mod_eq_sub_mod hge]; exact Nat.mod_eq_of_lt (by omega)
    have hlt : ¬ r < 2 ^ i := by omega
    rw [e3]
    set b := q * (2 * 2 ^ i) with hb
    have e4 : b + r - (r - 2 ^ i) = b + 2 ^ i := by omega
    have e5 : b + r - r = b := by omega
    have e6 : r - 2 ^ i + 1 + 2 ^ i = r + 1 := by omega
    rw [e4, e5]
    obtain ⟨hg', hp'⟩ := h (b + 2 ^ i - 1) (by omega)
    have e7 : (b + 2 ^ i - 1) % 2 ^ i = 2 ^ i - 1 := by
      rw [show b + 2 ^ i - 1 = (q * 2) * 2 ^ i + (2 ^ i - 1) by
        have : b = (q * 2) * 2 ^ i := by rw [hb]; ring
        omega, Nat.mul_add_mod_self_right]
      exact Nat.mod_eq_of_lt (by omega)
    rw [e7, show b + 2 ^ i - 1 - (2 ^ i - 1) = b by omega,
      show 2 ^ i - 1 + 1 = 2 ^ i by omega] at hg' hp'
    rw [hg', hp']
    have a1 := span_append (genBit x y) (propBit x y) b (2 ^ i) (r - 2 ^ i + 1)
    have a2 := prop_append (propBit x y) b (2 ^ i) (r - 2 ^ i + 1)
    rw [show 2 ^ i + (r - 2 ^ i + 1) = r + 1 by omega] at a1 a2
    rw [a1, a2]
    simp [hge, hlt]
  · have e3 : r % 2 ^ i = r := Nat.mod_eq_of_lt (by omega)
    have hlt : r < 2 ^ i := by omega
    rw [e3]
    simp [hge, hlt]

theorem skLoop_inv {w : ℕ} (x y : BitVec w) (keep copy : ℕ → BitVec w) (r : ℕ) :
    ∀ (i : ℕ) (g p : BitVec w),
      (∀ l, l < i + r → ∀ j, j < w →
        (keep l).getLsbD j = decide (j % (2 * 2 ^ l) < 2 ^ l) ∧
        (copy l).getLsbD j = decide (j % (2 * 2 ^ l) = 2 ^ l - 1)) →
      SkInv x y (2 ^ i) g p →
      ∃ p', SkInv x y (2 ^ (i + r)) (skLoop keep copy (List.range' i r) g p) p' := by
  induction r with
  | zero => exact fun i g p _ h => ⟨p, h⟩
  | succ r ih =>
    intro i g p hmask h
    rw [List.range'_succ, skLoop]
    have := ih (i + 1) _ _ (fun l h1 => hmask l (by omega))
      (by rw [pow_succ']
          exact sk_step h (fun j hj => (hmask i (by omega) j hj).1)
            fun j hj => (hmask i (by omega) j hj).2)
    rw [show i + 1 + r = i + (r + 1) from by omega] at this
    exact this

/-- The Sklansky adder: correct in the low `2^r` positions. -/
theorem sk_sum {w : ℕ} (x y : BitVec w) (keep copy : ℕ → BitVec w) (r : ℕ)
    (hmask : ∀ l, l < r → ∀ j, j < w →
        (keep l).getLsbD j = decide (j % (2 * 2 ^ l) < 2 ^ l) ∧
        (copy l).getLsbD j = decide (j % (2 * 2 ^ l) = 2 ^ l - 1)) (j : ℕ)
    (hj : j < w) (hr : j ≤ 2 ^ r) :
    (((skLoop keep copy (List.range r) (x &&& y) (x ^^^ y)) <<< 1) ^^^ (x ^^^ y)).getLsbD j
      = (x + y).getLsbD j := by
  obtain ⟨p', inv⟩ := skLoop_inv x y keep copy r 0 _ _
    (fun l h => hmask l (by omega)) (sk_init x y)
  rw [← List.range_eq_range', Nat.zero_add] at inv
  rw [BitVec.getLsbD_xor, BitVec.getLsbD_shiftLeft, BitVec.getLsbD_xor, BitVec.getLsbD_add hj]
  rcases Nat.eq_zero_or_pos j with rfl | h0
  · simp [BitVec.carry_zero]
  · obtain ⟨hi, -⟩ := inv (j - 1) (by omega)
    have e1 : (j - 1) % 2 ^ r = j - 1 := Nat.mod_eq_of_lt (by omega)
    rw [e1, Nat.sub_self, show j - 1 + 1 = j by omega, span_eq_carry] at hi
    rw [hi]
    have h1 : ¬ j < 1 := by omega
    simp only [hj, h1, decide_true, decide_false, Bool.not_false, Bool.and_true, Bool.true_and]
    cases x.getLsbD j <;> cases y.getLsbD j <;> cases BitVec.carry j x y false <;> rfl

/-! ## Gathering every `stride`-th bit -/

/-- The kernel loop of `BitGather` (/repo/operations/aux/aux_kernels.cc:41-51) and of each output
of `BitSplitAndGather` (aux_kernels.cc:74-86):
`for (d = start, i = 0; d < nbits; d += stride, i++) if ((v >> d) & 1) ans |= (1 << i);`. -/
def gatherLoop {w : ℕ} (start stride : ℕ) (v : BitVec w) : ℕ → BitVec w
  | 0 => 0
  | i + 1 =>
    let ans := gatherLoop start stride v i
    if start + i * stride < w ∧ v.getLsbD (start + i * stride) then ans ||| (1#w <<< i) else ans

/-- `bit_gather(v, start, stride)`; at most `w` iterations run when `stride ≥ 1`. -/
def gather {w : ℕ} (start stride : ℕ) (v : BitVec w) : BitVec w := gatherLoop start stride v w

theorem gatherLoop_bit {w : ℕ} (start stride : ℕ) (v : BitVec w) (n j : ℕ) (hj : j < w) :
    (gatherLoop start stride v n).getLsbD j =
      (decide (j < n) && v.getLsbD (start + j * stride)) := by
  induction n with
  | zero => simp [gatherLoop]
  | succ n ih =>
    unfold gatherLoop
    dsimp only
    split
    · rename_i h
      rw [BitVec.getLsbD_or, ih, BitVec.getLsbD_shiftLeft, BitVec.getLsbD_one]
      by_cases hn : j = n
      · subst hn; simp [h.2, hj]; omega
      · by_cases hlt : j < n
        · have : j < n + 1 := by omega
          simp [hlt, this]
        · have h1 : ¬ j < n + 1 := by omega
          have h2 : ¬ j - n = 0 := by omega
          simp [hlt, h1, h2]
    · rename_i h
      rw [ih]
      by_cases hn : j = n
      · subst hn
        have : v.getLsbD (start + j * stride) = false := by
          by_contra hv
          refine h ⟨?_, by simpa using hv⟩
          by_contra hw
          exact hv (BitVec.getLsbD_of_ge _ _ (by omega))
        simp [this]
      · have : j < n + 1 ↔ j < n := by omega
        simp [this]

theorem gather_bit {w : ℕ} (start stride : ℕ) (v : BitVec w) (j : ℕ) :
    (gather start stride v).getLsbD j = (decide (j < w) && v.getLsbD (start + j * stride)) := by
  by_cases hj : j < w
  · exact gatherLoop_bit start stride v w j hj
  · rw [BitVec.getLsbD_of_ge _ _ (by omega)]; simp [hj]

/-- The result does not depend on bits the loop never reads (`d < nbits`). -/
theorem gather_xor {w : ℕ} (start stride : ℕ) (a b : BitVec w) :
    gather start stride (a ^^^ b) = gather start stride a ^^^ gather start stride b := by
  apply BitVec.eq_of_getLsbD_eq
  intro j hj
  rw [BitVec.getLsbD_xor, gather_bit, gather_bit, gather_bit, BitVec.getLsbD_xor]
  simp [hj]

end Verif.Bits
