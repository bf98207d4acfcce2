import Verif.I128.Lemmas

/-!
# C50: 128-bit words

For every pair of limbs, integer, shift amount, shape and index.
-/

namespace Verif.I128

open Verif.Tensor

/-! ## Encoding -/

/-- An encoded integer is stored as its 128-bit two's-complement word, whatever its size. -/
theorem encode_word (z : ℤ) : load (encode z) = BitVec.ofInt 128 z := by
  have h0 : 0 ≤ z % 2 ^ 128 := Int.emod_nonneg _ (by norm_num)
  have h1 : z % 2 ^ 128 < 2 ^ 128 := Int.emod_lt_of_pos _ (by norm_num)
  have hk : (z % 2 ^ 128).toNat < 2 ^ 128 := by omega
  apply BitVec.eq_of_toNat_eq
  unfold encode
  rw [load_toNat, fromBuffer_toBytes _ hk, BitVec.toNat_ofInt, BitVec.toNat_ofNat, BitVec.toNat_ofNat]
  push_cast
  omega

/-- Decoding reads the limbs as a two's-complement number. -/
theorem decode_word (scale : ℕ) (p : Limbs) : decode scale p = ((load p).toInt : ℚ) / scale := by
  unfold decode
  rw [load_toInt]

/-- **C50**: encoding and decoding is the identity on `[-2^127, 2^127)`. -/
theorem encode_decode (z : ℤ) (h0 : -2 ^ 127 ≤ z) (h1 : z < 2 ^ 127) : decode 1 (encode z) = z := by
  rw [decode_word, encode_word, Bits.toInt_ofInt (by norm_num) h0 h1]
  simp

/-- Outside the range the value wraps around modulo `2^128`. -/
theorem encode_wraps (z : ℤ) : decode 1 (encode z) = (z.bmod (2 ^ 128) : ℤ) := by
  rw [decode_word, encode_word, BitVec.toInt_ofInt]
  simp

/-- **C50**: every pair of limbs is the encoding of what it decodes to. -/
theorem decode_encode (p : Limbs) : ∃ z : ℤ, -2 ^ 127 ≤ z ∧ z < 2 ^ 127 ∧ decode 1 p = z ∧ encode z = p := by
  have h := Bits.toInt_range (load p)
  refine ⟨(load p).toInt, h.1, h.2, by rw [decode_word]; simp, load_inj ?_⟩
  rw [encode_word, BitVec.ofInt_toInt]

example : encode (-2 ^ 127) = (0, BitVec.intMin 64) ∧ encode (2 ^ 64 + 5) = (5, 1) ∧ encode (-1) = (-1, -1) := by
  refine ⟨?_, ?_, ?_⟩ <;> apply load_inj <;> rw [encode_word] <;> decide +kernel

/-- The bounds given to the sampler are the least and the greatest word. -/
theorem bounds_spec : (load minLimbs).toInt = -2 ^ 127 ∧ (load maxLimbs).toInt = 2 ^ 127 - 1 := by
  constructor <;> decide +kernel

/-! ## Values that pass through a double -/

/-- A conversion to a double is exact when the bits below the 53 significant ones are zero. -/
theorem toDouble_exact (z : ℤ) (h : ((2 ^ (Nat.log 2 z.natAbs - 52) : ℕ) : ℤ) ∣ z) : toDouble z = z := by
  unfold toDouble
  simp only
  rw [Int.emod_eq_zero_of_dvd h, if_pos (by positivity), Int.ediv_mul_cancel h]

/-- The error of a conversion to a double is at most half a unit in the 53rd place. -/
theorem toDouble_error (z : ℤ) :
    2 * |toDouble z - z| ≤ (2 ^ (Nat.log 2 z.natAbs - 52) : ℕ) := by
  unfold toDouble
  simp only
  set u : ℕ := 2 ^ (Nat.log 2 z.natAbs - 52) with hu
  have hpos : (0 : ℤ) < u := by rw [hu]; positivity
  have e := Int.mul_ediv_add_emod z u
  have h1 : 0 ≤ z % u := Int.emod_nonneg _ hpos.ne'
  have h2 : z % u < u := Int.emod_lt_of_pos _ hpos
  have a1 : z / u * u - z = -(z % u) := by linarith [mul_comm (u : ℤ) (z / u)]
  have a2 : (z / u + 1) * u - z = u - z % u := by
    rw [add_mul, one_mul]; linarith [mul_comm (u : ℤ) (z / u)]
  split
  · rw [a1, abs_neg, abs_of_nonneg h1]; omega
  · split
    · split
      · rw [a1, abs_neg, abs_of_nonneg h1]; omega
      · rw [a2, abs_of_nonneg (by omega)]; omega
    · rw [a2, abs_of_nonneg (by omega)]; omega

theorem toDouble_small (z : ℤ) (h : z.natAbs ≤ 2 ^ 53) : toDouble z = z := by
  apply toDouble_exact
  by_cases h1 : z.natAbs = 2 ^ 53
  · rw [h1, Nat.log_pow (by decide)]
    rcases Int.natAbs_eq z with h2 | h2 <;> rw [h2, h1]
    · exact ⟨2 ^ 52, by norm_num⟩
    · exact ⟨-2 ^ 52, by norm_num⟩
  · have : Nat.log 2 z.natAbs < 53 := by
      by_cases h0 : z.natAbs = 0
      · rw [h0]; simp
      · exact Nat.log_lt_of_lt_pow h0 (by omega)
    rw [show Nat.log 2 z.natAbs - 52 = 0 by omega]
    simp

/-- **C50** for a tensor that is already in TensorFlow: converting to 128-bit words and back is the
identity for magnitudes up to `2^53`. -/
theorem to_from_i128_partial (z : ℤ) (h : z.natAbs ≤ 2 ^ 53) : load (toI128 z) = BitVec.ofInt 128 z ∧
    fromI128 (toI128 z) = z := by
  have h1 : load (toI128 z) = BitVec.ofInt 128 z := by
    unfold toI128
    rw [load_store, toDouble_small z h]
  refine ⟨h1, ?_⟩
  unfold fromI128
  rw [h1, Bits.toInt_ofInt (by norm_num) (by norm_num; omega) (by norm_num; omega), toDouble_small z h]

/-- Larger values lose their low bits: the 64-bit integer `2^53 + 1` becomes the word `2^53`, and the
word `2^53 + 1` reads back as `2^53`. -/
theorem to_i128_false : load (toI128 (2 ^ 53 + 1)) = BitVec.ofInt 128 (2 ^ 53) ∧
    fromI128 (encode (2 ^ 53 + 1)) = 2 ^ 53 := by
  have hl : Nat.log 2 ((2 ^ 53 + 1 : ℤ)).natAbs = 53 := by
    rw [Nat.log_eq_iff (by norm_num)]
    norm_num
  have : toDouble (2 ^ 53 + 1) = 2 ^ 53 := by
    unfold toDouble
    rw [hl]
    norm_num
  constructor
  · unfold toI128
    rw [load_store, this]
  · unfold fromI128
    rw [encode_word, Bits.toInt_ofInt (by norm_num) (by norm_num) (by norm_num), this]

/-! ## Arithmetic on one word -/

/-- **C50**: arithmetic agrees with integer arithmetic modulo `2^128`, read as a signed number. -/
theorem arith_spec (a b : ℤ) :
    add (encode a) (encode b) = encode (a + b) ∧ sub (encode a) (encode b) = encode (a - b) ∧
    mul (encode a) (encode b) = encode (a * b) ∧ neg (encode a) = encode (-a) := by
  refine ⟨?_, ?_, ?_, ?_⟩ <;> apply load_inj
  · rw [add, load_store, encode_word, encode_word, encode_word, Bits.ofInt_add]
  · rw [sub, load_store, encode_word, encode_word, encode_word, Bits.ofInt_sub]
  · rw [mul, load_store, encode_word, encode_word, encode_word, Bits.ofInt_mul]
  · rw [neg, load_store, encode_word, encode_word, Bits.ofInt_neg]

/-- The absolute value, which is exact except for the least word, whose negation wraps. -/
theorem abs_spec (p : Limbs) (h : (load p).toInt ≠ -2 ^ 127) : (load (abs128 p)).toInt = |(load p).toInt| := by
  have hr := Bits.toInt_range (load p)
  unfold abs128
  rw [load_store]
  split
  · rename_i hn
    rw [abs_of_neg hn]
    have : -load p = BitVec.ofInt 128 (-(load p).toInt) := by
      rw [Bits.ofInt_neg, BitVec.ofInt_toInt]
    rw [this, Bits.toInt_ofInt (by norm_num)] <;> norm_num at hr h ⊢ <;> omega
  · rw [abs_of_nonneg (by omega)]

theorem abs_least_false : (load (abs128 minLimbs)).toInt = -2 ^ 127 := by decide +kernel

theorem amount_nat {step : BitVec 64} (h : 0 ≤ step.toInt) : (step.toNat : ℤ) = step.toInt := by
  rw [BitVec.toInt_eq_toNat_cond] at h ⊢
  have := step.isLt
  split at h
  · rw [if_pos (by assumption)]
  · push_cast at h; omega

/-- **C50**: the arithmetic right shift is division rounding down, for every amount from 0 up
(including 128 and more). -/
theorem sar_spec (p : Limbs) (step : BitVec 64) (h : 0 ≤ step.toInt) :
    (load (sar p step)).toInt = (load p).toInt / 2 ^ step.toNat := by
  have hn := amount_nat h
  have hr := Bits.toInt_range (load p)
  unfold sar
  split
  · rw [show step.toNat = 0 by omega]; simp
  · split
    · have hp : (2 : ℤ) ^ 127 < 2 ^ step.toNat := by
        exact_mod_cast Nat.pow_lt_pow_right (by decide : 1 < 2) (by omega : 127 < step.toNat)
      rw [load_store]
      norm_num at hr
      split
      · have : (load p).toInt / 2 ^ step.toNat = -1 := by
          rw [Int.ediv_eq_iff_of_pos (by omega)]
          constructor <;> norm_num at hp ⊢ <;> omega
        rw [this]; rfl
      · rw [Int.ediv_eq_zero_of_lt (by omega) (by norm_num at hp; omega)]; rfl
    · rw [load_store, Bits.sar_eq, Bits.toInt_ofInt (by norm_num)]
      · have hp : (0 : ℤ) < 2 ^ step.toNat := by positivity
        norm_num at hr ⊢
        rw [Int.le_ediv_iff_mul_le hp]
        nlinarith
      · have hp : (0 : ℤ) < 2 ^ step.toNat := by positivity
        norm_num at hr ⊢
        refine Int.ediv_lt_of_lt_mul hp ?_
        nlinarith

/-- **C50**: the logical right shift divides the unsigned word, rounding down. -/
theorem shr_spec (p : Limbs) (step : BitVec 64) (h : 0 ≤ step.toInt) :
    (load (shr p step)).toNat = (load p).toNat / 2 ^ step.toNat := by
  have hn := amount_nat h
  have hr := (load p).isLt
  unfold shr
  split
  · rw [show step.toNat = 0 by omega]; simp
  · split
    · have hp : (2 : ℕ) ^ 128 ≤ 2 ^ step.toNat := Nat.pow_le_pow_right (by decide) (by omega)
      rw [load_store, Nat.div_eq_of_lt (by omega)]
      rfl
    · rw [load_store, BitVec.toNat_ushiftRight, Nat.shiftRight_eq_div_pow]

/-- **C50**: the left shift multiplies by the power of two, modulo `2^128`. -/
theorem shl_spec (p : Limbs) (step : BitVec 64) (h : 0 ≤ step.toInt) :
    load (shl p step) = BitVec.ofInt 128 ((load p).toInt * 2 ^ step.toNat) := by
  have hn := amount_nat h
  unfold shl
  split
  · rw [show step.toNat = 0 by omega]; simp
  · split
    · rw [load_store]
      symm
      have : (BitVec.ofInt 128 0 : BitVec 128) = 0 := by simp
      rw [← this, Bits.ofInt_eq_iff, sub_zero]
      refine Dvd.dvd.mul_left (pow_dvd_pow 2 ?_) _
      omega
    · rw [load_store, Bits.ofInt_mul, BitVec.ofInt_toInt]
      apply BitVec.eq_of_toNat_eq
      rw [BitVec.toNat_shiftLeft, BitVec.toNat_mul, Nat.shiftLeft_eq,
        show ((2 : ℤ) ^ step.toNat) = ((2 ^ step.toNat : ℕ) : ℤ) by push_cast; rfl, Bits.ofInt_natCast,
        BitVec.toNat_ofNat, Nat.mul_mod_mod]

/-- A negative amount shifts by nothing, in all three shifts. -/
theorem shift_negative (p : Limbs) (step : BitVec 64) (h : step.toInt ≤ 0) :
    sar p step = p ∧ shr p step = p ∧ shl p step = p := by
  simp [sar, shr, shl, h]

example : (load (sar (encode (-5)) 1)).toInt = -3 ∧ (load (sar (encode (-5)) 200)).toInt = -1 ∧
    (load (shl (encode 3) 64)).toInt = 3 * 2 ^ 64 := by
  rw [sar_spec _ _ (by decide), sar_spec _ _ (by decide), shl_spec _ _ (by decide), encode_word, encode_word]
  decide +kernel

/-- **C50**: the bitwise operations on the two limbs are the bitwise operations on the word. -/
theorem bitwise_word (p q : Limbs) :
    load (p.1 &&& q.1, p.2 &&& q.2) = load p &&& load q ∧
    load (p.1 ||| q.1, p.2 ||| q.2) = load p ||| load q ∧
    load (p.1 ^^^ q.1, p.2 ^^^ q.2) = load p ^^^ load q ∧
    load (~~~p.1, ~~~p.2) = ~~~load p := by
  refine ⟨?_, ?_, ?_, ?_⟩ <;> apply BitVec.eq_of_getLsbD_eq <;> intro i hi
  · rw [BitVec.getLsbD_and, load_bit, load_bit, load_bit]; split <;> rw [BitVec.getLsbD_and]
  · rw [BitVec.getLsbD_or, load_bit, load_bit, load_bit]; split <;> rw [BitVec.getLsbD_or]
  · rw [BitVec.getLsbD_xor, load_bit, load_bit, load_bit]; split <;> rw [BitVec.getLsbD_xor]
  · rw [BitVec.getLsbD_not, load_bit, load_bit]
    split
    · rename_i h; rw [BitVec.getLsbD_not]; simp [h, hi]
    · rename_i h; rw [BitVec.getLsbD_not]
      have : i - 64 < 64 := by omega
      simp [this, hi]

/-- A cast to boolean is true exactly for the words other than zero, and a cast to 64 bits keeps the
word modulo `2^64`. -/
theorem cast_spec (p : Limbs) : (castBool p = true ↔ load p ≠ 0) ∧
    (castInt64 p).toNat = (load p).toNat % 2 ^ 64 := by
  constructor
  · have hz : load ((0, 0) : Limbs) = 0 := by decide +kernel
    unfold castBool
    constructor
    · intro h hc
      rw [← hz] at hc
      have := load_inj hc
      subst this
      simp at h
    · intro h
      by_contra hc
      apply h
      obtain ⟨a, b⟩ := p
      simp only [ne_eq, decide_not, Bool.or_eq_true, Bool.not_eq_true', decide_eq_false_iff_not, not_or,
        not_not] at hc
      rw [hc.1, hc.2, hz]
  · unfold castInt64
    rw [load_toNat, Nat.add_mul_mod_self_left, Nat.mod_eq_of_lt p.1.isLt]

/-! ## Tensors -/

/-- The entry of the word at `idx` is the pair of 64-bit words that lies at twice its position in
memory: the view that the C++ kernels have through a `Scalar*`. -/
theorem words_memory (t : Store) (s idx : List ℕ) (h : t.shape = s ++ [2]) (hi : InShape s idx) :
    (words t).get idx = load (t.get (unflat t.shape (2 * flat s idx)),
      t.get (unflat t.shape (2 * flat s idx + 1))) := by
  have h0 := unflat_flat _ _ (inShape_snoc hi (by decide : 0 < 2))
  have h1 := unflat_flat _ _ (inShape_snoc hi (by decide : 1 < 2))
  rw [flat_snoc (inShape_length hi)] at h0 h1
  rw [h, mul_comm 2, show flat s idx * 2 = flat s idx * 2 + 0 by rfl, h0, Nat.add_zero, h1]
  rfl

/-- Two results agree: both are present, and the words of the first are the second. -/
def Agree (a : Option Store) (b : Option (Ten (BitVec 128))) : Prop :=
  ∃ r r', a = some r ∧ b = some r' ∧ Valid r ∧ Same (words r) r'

theorem same_refl {α : Type} (t : Ten α) : Same t t := ⟨rfl, fun _ _ => rfl⟩

/-- **C50**: the arithmetic kernels act word by word with broadcasting, on up to five dimensions. -/
theorem binary_spec (f : BitVec 128 → BitVec 128 → BitVec 128) (x y : Store) (u : Ten (BitVec 128))
    (h : map2T f (words x) (words y) = some u) (h5 : u.shape.length ≤ 5) :
    Agree (binary f x y) (some u) := by
  refine ⟨limbs u, u, ?_, rfl, valid_limbs u, by rw [words_limbs]; exact same_refl u⟩
  unfold binary
  simp [h, h5]

/-- More than five dimensions abort. -/
theorem binary_refused (f : BitVec 128 → BitVec 128 → BitVec 128) (x y : Store) (u : Ten (BitVec 128))
    (h : map2T f (words x) (words y) = some u) (h5 : 5 < u.shape.length) : binary f x y = none := by
  unfold binary
  simp [h, Nat.not_le.2 h5]

/-- **C50**: bitwise operations on the stored limbs, with TensorFlow's broadcasting of the stored
shapes, are the bitwise operations on the words with broadcasting of the word shapes. -/
theorem bitwise_spec (f : BitVec 64 → BitVec 64 → BitVec 64) (g : BitVec 128 → BitVec 128 → BitVec 128)
    (hfg : ∀ p q : Limbs, load (f p.1 q.1, f p.2 q.2) = g (load p) (load q))
    (x y : Store) (hx : Valid x) (hy : Valid y) (u : Ten (BitVec 128))
    (h : map2T g (words x) (words y) = some u) : Agree (bitwise f x y) (some u) := by
  obtain ⟨s, hs⟩ := hx
  obtain ⟨s', hs'⟩ := hy
  unfold map2T at h
  rw [words_shape hs, words_shape hs'] at h
  cases hb : bcast s s' with
  | none => rw [hb] at h; cases h
  | some o =>
    rw [hb] at h
    simp only [Option.map_some, Option.some.injEq] at h
    obtain ⟨l1, l2⟩ := bcast_len hb
    refine ⟨⟨o ++ [2], fun idx => f (x.get (bcastIdx x.shape idx)) (y.get (bcastIdx y.shape idx))⟩, u, ?_,
      rfl, ⟨o, rfl⟩, ?_⟩
    · unfold bitwise map2T
      rw [hs, hs', bcast_snoc hb]
      rfl
    · subst h
      refine ⟨by simp [words], fun idx hi => ?_⟩
      have hl := inShape_length hi
      simp only [words, List.dropLast_concat] at hl
      simp only [words, hs, hs', bcastIdx_snoc (by omega : s.length ≤ idx.length),
        bcastIdx_snoc (by omega : s'.length ≤ idx.length)]
      exact hfg (_, _) (_, _)

example (x y : Store) (hx : Valid x) (hy : Valid y) (u : Ten (BitVec 128))
    (h : map2T (· ^^^ ·) (words x) (words y) = some u) : Agree (bitwise (· ^^^ ·) x y) (some u) :=
  bitwise_spec _ _ (fun p q => (bitwise_word p q).2.2.1) x y hx hy u h

theorem invert_spec (x : Store) (hx : Valid x) : Agree (some (invert x))
    (some ⟨(words x).shape, fun idx => ~~~(words x).get idx⟩) := by
  obtain ⟨s, hs⟩ := hx
  exact ⟨_, _, rfl, rfl, ⟨s, hs⟩, rfl, fun idx _ => (bitwise_word (_, _) (0, 0)).2.2.2⟩

/-- **C50**: equality of two tensors of equal shape compares word by word. -/
theorem equal_spec (x y : Store) (h : (words x).shape = (words y).shape) :
    ∃ r, equal x y = some r ∧ r.shape = (words x).shape ∧
      ∀ idx, InShape r.shape idx → (r.get idx = true ↔ (words x).get idx = (words y).get idx) := by
  unfold equal
  simp only [h, lt_irrefl, if_false, and_self]
  split
  · rename_i hp
    refine ⟨_, rfl, rfl, fun idx hi => ?_⟩
    have : idx = (words y).shape.map fun _ => 0 := by
      clear h
      have hi' : InShape (words y).shape idx := hi
      generalize (words y).shape = s at hi' hp
      clear hi
      induction s generalizing idx with
      | nil => cases idx with
        | nil => rfl
        | cons _ _ => exact hi'.elim
      | cons d s ih =>
        cases idx with
        | nil => exact hi'.elim
        | cons i idx =>
          rw [List.prod_cons] at hp
          have hd := Nat.eq_one_of_mul_eq_one_right hp
          have hs := Nat.eq_one_of_mul_eq_one_left hp
          rw [List.map_cons, ← ih idx hi'.2 hs]
          congr 1
          have := hi'.1
          omega
    simp [this]
  · refine ⟨_, rfl, rfl, fun idx _ => by simp⟩

/-- Comparing with a one-entry tensor of as many dimensions works only with the one-entry tensor on
the left: on the right the kernel allocates the wrong shape and aborts. -/
theorem equal_order_false : ∃ x y : Store, (equal x y).isSome = true ∧ (equal y x).isSome = false := by
  refine ⟨⟨[1, 2], fun _ => 0⟩, ⟨[3, 2], fun _ => 0⟩, ?_, ?_⟩ <;> simp [equal, words]

/-- The reshaped tensor has the words of the reshaped word tensor. -/
theorem reshape_spec (t : Store) (s s' : List ℕ) (h : t.shape = s ++ [2]) (hp : s'.prod = s.prod) :
    Agree (reshape t s') (Tensor.reshape (words t) s') := by
  have e1 : (s' ++ [2]).prod = t.shape.prod := by rw [h, List.prod_append, List.prod_append, hp]
  have e2 : s'.prod = (words t).shape.prod := by rw [words_shape h, hp]
  refine ⟨_, _, reshape_some _ _ e1, reshape_some _ _ e2, ⟨s', rfl⟩, by simp [words], fun idx hi => ?_⟩
  have hi' : InShape s' idx := by simpa [words] using hi
  have hl := inShape_length hi'
  have hlt := flat_lt _ _ hi'
  simp only [words, h, List.dropLast_concat, flat_snoc hl]
  rw [unflat_snoc' (by decide) (by omega), unflat_snoc' (by decide) (by omega)]

/-- A reshape to a different number of words raises in both. -/
theorem reshape_refused (t : Store) (s s' : List ℕ) (h : t.shape = s ++ [2]) (hp : s'.prod ≠ s.prod) :
    reshape t s' = none ∧ Tensor.reshape (words t) s' = none := by
  constructor
  · unfold reshape Tensor.reshape
    rw [if_neg]
    rw [h, List.prod_append, List.prod_append]
    simpa using hp
  · unfold Tensor.reshape
    rw [if_neg]
    rw [words_shape h]
    exact hp

/-- **C50**: stacking along an existing position `0 ≤ axis < rank`. -/
theorem stack_spec (x : Store) (xs : List Store) (s : List ℕ) (h : ∀ y ∈ x :: xs, y.shape = s ++ [2])
    (a : ℕ) (ha : a < s.length) :
    Agree (stack (x :: xs) a) (stackT ((x :: xs).map words) a) := by
  have hx := h x (by simp)
  have hw : (words x).shape = s := words_shape hx
  have hall : ∀ y ∈ words x :: xs.map words, y.shape = (words x).shape := by
    intro y hy
    obtain ⟨y, hy', rfl⟩ := List.mem_map.1 (show y ∈ (x :: xs).map words from hy)
    rw [words_shape (h y hy'), hw]
  refine ⟨⟨x.shape.insertIdx a (x :: xs).length,
      fun idx => ((x :: xs).getD (idx.getD a 0) x).get (idx.eraseIdx a)⟩, _, ?_, stackT_some (a := a) hall (by rw [hw]; exact normAxis_nat (by omega)), ?_, ?_⟩
  · simp only [stack, hx, List.length_append, List.length_singleton, Nat.add_sub_cancel, liftAxis_nat ha]
    refine (stackT_some (a := a) (fun y hy => by rw [h y hy, hx]) ?_).trans (by rw [hx])
    rw [hx]
    exact normAxis_nat (by simp; omega)
  · exact ⟨s.insertIdx a (x :: xs).length, by rw [hx, insertIdx_snoc (by omega)]⟩
  · refine ⟨?_, fun idx hi => ?_⟩
    · rw [hw]
      simp only [words]
      rw [hx, insertIdx_snoc (by omega), List.dropLast_concat]
      simp
    have hl : a < idx.length := by
      have := inShape_length hi
      simp only [words] at this
      rw [hx, insertIdx_snoc (by omega), List.dropLast_concat, List.length_insertIdx_of_le_length (by omega)] at this
      omega
    have e := getD_map words (x :: xs) (idx.getD a 0) x
    rw [List.map_cons] at e
    simp only [e]
    simp only [words, getD_snoc hl, eraseIdx_snoc hl]

/-- Stacking along the last axis (`axis = -1`) puts the new dimension before the last one instead of
after it. -/
theorem stack_last_false (x : Store) (xs : List Store) (s : List ℕ)
    (h : ∀ y ∈ x :: xs, y.shape = s ++ [2]) (hs : 0 < s.length) :
    ∃ r r', stack (x :: xs) (-1) = some r ∧ stackT ((x :: xs).map words) (-1) = some r' ∧
      (words r).shape = s.insertIdx (s.length - 1) (xs.length + 1) ∧ r'.shape = s ++ [xs.length + 1] := by
  obtain ⟨r, u, h1, h2, -, h4⟩ := stack_spec x xs s h (s.length - 1) (by omega)
  have hx := h x (by simp)
  have hw : (words x).shape = s := words_shape hx
  have hall : ∀ y ∈ words x :: xs.map words, y.shape = (words x).shape := by
    intro y hy
    obtain ⟨y, hy', rfl⟩ := List.mem_map.1 (show y ∈ (x :: xs).map words from hy)
    rw [words_shape (h y hy'), hw]
  have hn : normAxis (-1) ((words x).shape.length + 1) = some s.length := by
    unfold normAxis
    rw [if_pos (by constructor <;> omega), if_pos (by omega), hw]
    congr 1
    omega
  refine ⟨r, _, ?_, stackT_some hall hn, ?_, ?_⟩
  · rw [← h1]
    simp only [stack, hx, List.length_append, List.length_singleton, Nat.add_sub_cancel]
    rw [liftAxis_nat (by omega)]
    unfold liftAxis
    rw [if_pos rfl]
    congr 2
    omega
  · rw [h4.1]
    have h2' : stackT (words x :: xs.map words) ((s.length - 1 : ℕ) : ℤ) = some u := h2
    rw [stackT_some (a := s.length - 1) hall (by rw [hw]; exact normAxis_nat (by omega))] at h2'
    simp only [Option.some.injEq] at h2'
    rw [← h2']
    simp [hw]
  · simp [hw]

/-- Scalars cannot be stacked: the axis check compares with the rank of the parts. -/
theorem stack_scalars_false (x : Store) (h : x.shape = [2]) :
    stack [x, x] 0 = none ∧ (stackT [words x, words x] 0).isSome = true := by
  have hw : (words x).shape = [] := words_shape (s := []) h
  constructor
  · unfold stack
    simp [h, liftAxis]
  · unfold stackT
    simp [hw, normAxis]

/-- **C50**: concatenation along `0 ≤ axis < rank`. -/
theorem concat_spec (x : Store) (xs : List Store) (a : ℕ)
    (h : ∀ y ∈ x :: xs, Valid y ∧ y.shape.length = x.shape.length ∧ y.shape.eraseIdx a = x.shape.eraseIdx a)
    (ha : a < (words x).shape.length) :
    Agree (concat (x :: xs) a) (concatT ((x :: xs).map words) a) := by
  obtain ⟨⟨s, hx⟩, -⟩ := h x (by simp)
  have hw : (words x).shape = s := words_shape hx
  rw [hw] at ha
  have hsub : ∀ y ∈ x :: xs, (words y).shape.getD a 0 = y.shape.getD a 0 := by
    intro y hy
    obtain ⟨⟨s', hy'⟩, hl, -⟩ := h y hy
    rw [words_shape hy', hy', getD_snoc]
    rw [hx, hy'] at hl
    simp at hl
    omega
  have hall : ∀ y ∈ words x :: xs.map words, y.shape.length = (words x).shape.length ∧
      y.shape.eraseIdx a = (words x).shape.eraseIdx a := by
    intro y hy
    obtain ⟨y, hy', rfl⟩ := List.mem_map.1 (show y ∈ (x :: xs).map words from hy)
    obtain ⟨⟨s', he⟩, hl, hc⟩ := h y hy'
    rw [words_shape he, hw]
    rw [he, hx] at hl hc
    simp only [List.length_append, List.length_singleton, Nat.add_right_cancel_iff] at hl
    rw [eraseIdx_snoc (by omega), eraseIdx_snoc (by omega)] at hc
    exact ⟨hl, (List.append_inj' hc rfl).1⟩
  have hmap : (words x :: xs.map words).map (fun y => y.shape.getD a 0) =
      (x :: xs).map fun y => y.shape.getD a 0 := by
    rw [← List.map_cons (f := words), List.map_map]
    exact List.map_congr_left fun y hy => hsub y hy
  refine ⟨⟨x.shape.set a ((x :: xs).map fun y => y.shape.getD a 0).sum, fun idx =>
      ((x :: xs).getD (locate ((x :: xs).map fun y => y.shape.getD a 0) (idx.getD a 0)).1 x).get
        (idx.set a (locate ((x :: xs).map fun y => y.shape.getD a 0) (idx.getD a 0)).2)⟩, _, ?_, concatT_some (a := a) (by rw [hw]; exact normAxis_nat ha) hall, ?_, ?_⟩
  · simp only [concat]
    rw [show x.shape.length - 1 = s.length by rw [hx]; simp, liftAxis_nat ha]
    refine concatT_some (a := a) ?_ fun y hy => (h y hy).2
    rw [hx]
    exact normAxis_nat (by simp; omega)
  · exact ⟨s.set a ((x :: xs).map fun y => y.shape.getD a 0).sum, by simp only [hx]; rw [set_snoc ha]⟩
  · rw [hmap]
    refine ⟨?_, fun idx hi => ?_⟩
    · rw [hw]
      simp only [words, hx]
      rw [set_snoc ha, List.dropLast_concat]
    have hl : a < idx.length := by
      have := inShape_length hi
      simp only [words] at this
      rw [hx, set_snoc ha, List.dropLast_concat, List.length_set] at this
      omega
    have e := getD_map words (x :: xs)
      (locate ((x :: xs).map fun y => y.shape.getD a 0) (idx.getD a 0)).1 x
    rw [List.map_cons] at e
    simp only [e]
    simp only [words, getD_snoc hl, set_snoc hl]

/-- An axis counted from the end, other than the last, is off by one: `concat` along `axis = -2` of
matrices joins their rows side by side, along the last axis. -/
theorem concat_second_last_false : ∃ x : Store, x.shape = [3, 4, 2] ∧
    (concat [x, x] (-2)).map (fun r => (words r).shape) = some [3, 8] ∧
    (concatT [words x, words x] (-2)).map (fun r => r.shape) = some [6, 4] := by
  refine ⟨⟨[3, 4, 2], fun _ => 0⟩, rfl, ?_, ?_⟩
  · simp [concat, liftAxis, concatT, normAxis, words]
  · simp [concatT, normAxis, words]

/-- **C50**: a new dimension at `0 ≤ axis ≤ rank`, or at the end with `axis = -1`. -/
theorem expand_dims_spec (t : Store) (s : List ℕ) (h : t.shape = s ++ [2]) (a : ℕ) (ha : a ≤ s.length) :
    Agree (expandDims t a) (expandT (words t) a) ∧
      expandDims t (-1) = expandDims t s.length ∧ expandT (words t) (-1) = expandT (words t) s.length := by
  have hw := words_shape h
  have hd : t.shape.length - 1 + 1 = s.length + 1 := by rw [h]; simp
  refine ⟨⟨⟨t.shape.insertIdx a 1, fun idx => t.get (idx.eraseIdx a)⟩,
    ⟨s.insertIdx a 1, fun idx => (words t).get (idx.eraseIdx a)⟩, ?_, ?_, ?_, ?_, ?_⟩, ?_, ?_⟩
  · unfold expandDims expandT
    rw [hd, liftAxis_nat (by omega)]
    simp only [Option.bind_some]
    rw [normAxis_nat (by rw [h]; simp; omega)]
    rfl
  · unfold expandT
    rw [normAxis_nat (by rw [hw]; omega), hw]
    rfl
  · exact ⟨s.insertIdx a 1, by simp only [h]; rw [insertIdx_snoc ha]⟩
  · simp only [words, h]
    rw [insertIdx_snoc ha, List.dropLast_concat]
  · intro idx hi
    have hl : a < idx.length := by
      have := inShape_length hi
      simp only [words, h] at this
      rw [insertIdx_snoc ha, List.dropLast_concat, List.length_insertIdx_of_le_length ha] at this
      omega
    simp only [words, eraseIdx_snoc hl]
  · unfold expandDims
    rw [hd, liftAxis_nat (by omega)]
    unfold liftAxis
    rw [if_pos rfl]
    congr 2
    push_cast
    omega
  · unfold expandT
    rw [normAxis_nat (by rw [hw]; omega), hw]
    congr 1
    unfold normAxis
    rw [if_pos (by constructor <;> omega), if_pos (by omega)]
    congr 1
    push_cast
    omega

/-- **C50**: gathering positions along `0 ≤ axis < rank`. -/
theorem gather_spec (t : Store) (s : List ℕ) (h : t.shape = s ++ [2]) (a : ℕ) (ha : a < s.length)
    (ks : List ℕ) (hk : ∀ k ∈ ks, k < s.getD a 0) :
    Agree (gather t ks a) (gatherT (words t) ks a) := by
  have hw := words_shape h
  refine ⟨⟨t.shape.set a ks.length, fun idx => t.get (idx.set a (ks.getD (idx.getD a 0) 0))⟩,
    ⟨s.set a ks.length, fun idx => (words t).get (idx.set a (ks.getD (idx.getD a 0) 0))⟩, ?_, ?_, ?_, ?_, ?_⟩
  · unfold gather
    rw [show t.shape.length - 1 = s.length by rw [h]; simp, liftAxis_nat ha]
    simp only [Option.bind_some]
    unfold gatherT
    rw [normAxis_nat (by rw [h]; simp; omega)]
    show (if _ then _ else _) = _
    rw [if_pos (by rw [h, getD_snoc ha]; exact hk)]
  · unfold gatherT
    rw [normAxis_nat (by rw [hw]; omega)]
    show (if _ then _ else _) = _
    rw [hw, if_pos hk]
  · exact ⟨s.set a ks.length, by simp only [h]; rw [set_snoc ha]⟩
  · simp only [words, h]
    rw [set_snoc ha, List.dropLast_concat]
  · intro idx hi
    have hl : a < idx.length := by
      have := inShape_length hi
      simp only [words, h] at this
      rw [set_snoc ha, List.dropLast_concat, List.length_set] at this
      omega
    simp only [words, getD_snoc hl, set_snoc hl]

/-- **C50**: sums over `0 ≤ axis < rank` (and over the last axis with `axis = -1`) are sums of words
modulo `2^128`, on up to six dimensions. -/
theorem reduce_sum_spec (t : Store) (s : List ℕ) (h : t.shape = s ++ [2]) (a : ℕ) (ha : a < s.length)
    (h6 : s.length ≤ 6) :
    Agree (reduceSum t a) (sumT (words t) a) ∧ reduceSum t (-1) = reduceSum t (s.length - 1 : ℕ) := by
  have hw := words_shape h
  have hd : t.shape.length - 1 = s.length := by rw [h]; simp
  constructor
  · cases hs : sumT (words t) a with
    | none =>
      unfold sumT at hs
      rw [normAxis_nat (by rw [hw]; omega)] at hs
      cases hs
    | some u =>
      refine ⟨limbs u, u, ?_, rfl, valid_limbs u, by rw [words_limbs]; exact same_refl u⟩
      unfold reduceSum
      have hne : ¬ ((a : ℤ) = -1) := by omega
      simp only [hd, hne, if_false]
      rw [if_pos (by omega), hs]
      rfl
  · unfold reduceSum
    have hne : ¬ (((s.length - 1 : ℕ) : ℤ) = -1) := by omega
    have : ((s.length - 1 : ℕ) : ℤ) = (s.length : ℤ) - 1 := by omega
    simp only [hd, hne, if_false, if_true]
    rw [this]

/-- **C50**: the product of two matrices is the matrix product modulo `2^128`. -/
theorem matmul_spec (x y : Store) (u : Ten (BitVec 128))
    (h : Tensor.matmul (words x) (words y) = some u) : Agree (matmul x y) (some u) := by
  refine ⟨limbs u, u, ?_, rfl, valid_limbs u, by rw [words_limbs]; exact same_refl u⟩
  unfold matmul
  rw [h]
  rfl

/-- `where`, `ones` and `zeros`. -/
theorem select_spec (c : Ten Bool) (x y : Store) (hx : Valid x) : Agree (some (select c x y))
    (some ⟨(words x).shape, fun idx => if c.get idx then (words x).get idx else (words y).get idx⟩) := by
  obtain ⟨s, hs⟩ := hx
  refine ⟨_, _, rfl, rfl, ⟨s, hs⟩, rfl, fun idx _ => ?_⟩
  simp only [words, select, List.dropLast_concat]
  split <;> rfl

theorem ones_zeros_spec (s : List ℕ) :
    Agree (some (ones s)) (some ⟨s, fun _ => 1⟩) ∧ Agree (some (zeros s)) (some ⟨s, fun _ => 0⟩) := by
  refine ⟨⟨_, _, rfl, rfl, ⟨s, rfl⟩, by simp [words, ones], fun idx _ => ?_⟩,
    ⟨_, _, rfl, rfl, ⟨s, rfl⟩, by simp [words, zeros], fun idx _ => ?_⟩⟩
  · simp only [words, ones, getLastD_snoc, if_true, one_ne_zero, if_false]
    decide +kernel
  · simp only [words, zeros]
    decide +kernel

/-- **C50**: transposing by any permutation, or reversing the dimensions when none is given. -/
theorem transpose_spec (t : Store) (s : List ℕ) (h : t.shape = s ++ [2]) (perm : List ℕ)
    (hp : perm.length = s.length) (hall : ∀ a ∈ List.range s.length, a ∈ perm) :
    Agree (transpose t (some perm)) (Tensor.transpose (words t) perm) ∧
      transpose t none = transpose t (some (List.range s.length).reverse) := by
  have hw := words_shape h
  have hd : t.shape.length - 1 = s.length := by rw [h]; simp
  have hlen : t.shape.length = s.length + 1 := by rw [h]; simp
  have hnotin : s.length ∉ perm := by
    intro hc
    have hsub : List.range (s.length + 1) ⊆ perm := by
      intro a ha
      rcases Nat.lt_succ_iff_lt_or_eq.1 (List.mem_range.1 ha) with h1 | h1
      · exact hall a (List.mem_range.2 h1)
      · rw [h1]; exact hc
    have := (List.subperm_of_subset List.nodup_range hsub).length_le
    simp at this
    omega
  have hlt : ∀ a ∈ perm, a < s.length := by
    have hsub : List.range s.length ⊆ perm := hall
    have hperm := (List.subperm_of_subset List.nodup_range hsub).perm_of_length_le (by simp [hp])
    intro a ha
    exact List.mem_range.1 (hperm.symm.subset ha)
  constructor
  · refine ⟨⟨(perm ++ [s.length]).map fun a => t.shape.getD a 0, fun idx => t.get
        ((List.range t.shape.length).map fun a => idx.getD ((perm ++ [s.length]).idxOf a) 0)⟩,
      ⟨perm.map fun a => s.getD a 0, fun idx => (words t).get
        ((List.range s.length).map fun a => idx.getD (perm.idxOf a) 0)⟩, ?_, ?_, ?_, ?_, ?_⟩
    · unfold transpose Tensor.transpose
      simp only [hd]
      rw [if_pos]
      refine ⟨by simp [hlen, hp], fun a ha => ?_⟩
      rw [hlen, List.mem_range] at ha
      rcases Nat.lt_succ_iff_lt_or_eq.1 ha with h1 | h1
      · exact List.mem_append_left _ (hall a (List.mem_range.2 h1))
      · rw [h1]; simp
    · unfold Tensor.transpose
      rw [hw, if_pos ⟨hp, hall⟩]
    · refine ⟨perm.map fun a => s.getD a 0, ?_⟩
      simp only [List.map_append, h, List.map_cons, List.map_nil]
      congr 1
      · exact List.map_congr_left fun a ha => getD_snoc (hlt a ha)
      · simp
    · simp only [words, List.map_append, h, List.map_cons, List.map_nil, List.dropLast_concat]
      exact List.map_congr_left fun a ha => getD_snoc (hlt a ha)
    · intro idx hi
      have hl : idx.length = s.length := by
        have := inShape_length hi
        simpa [words, hp] using this
      have key : ∀ b, ((List.range t.shape.length).map fun a => (idx ++ [b]).getD ((perm ++ [s.length]).idxOf a) 0)
          = ((List.range s.length).map fun a => idx.getD (perm.idxOf a) 0) ++ [b] := by
        intro b
        rw [hlen, List.range_succ, List.map_append]
        congr 1
        · refine List.map_congr_left fun a ha => ?_
          have hin := hall a ha
          rw [List.idxOf_append_of_mem hin, getD_snoc]
          rw [hl, ← hp]
          exact List.idxOf_lt_length_of_mem hin
        · rw [List.map_cons, List.map_nil, List.idxOf_append_of_notMem hnotin, hp, ← hl]
          simp
      simp only [words, key]
  · unfold transpose
    simp only [hd]

/-! ## Indexing -/

theorem indexT_shape {α β : Type} : ∀ (items : List Item) (t : Ten α) (u : Ten β), t.shape = u.shape →
    (indexT t items).map (·.shape) = (indexT u items).map (·.shape)
  | [], t, u, h => by simp [indexT, h]
  | .ellipsis :: items, t, u, h => by simp [indexT]
  | .int k :: items, t, u, h => by
      unfold indexT
      rw [h]
      cases hs : u.shape with
      | nil => rfl
      | cons d ds =>
        simp only
        split
        · exact indexT_shape items _ _ rfl
        · rfl
  | .slice lo hi :: items, t, u, h => by
      unfold indexT
      rw [h]
      cases hs : u.shape with
      | nil => rfl
      | cons d ds =>
        simp only
        have := indexT_shape items (⟨ds, fun idx => t.get (0 :: idx)⟩ : Ten α)
          (⟨ds, fun idx => u.get (0 :: idx)⟩ : Ten β) rfl
        cases h1 : indexT (⟨ds, fun idx => t.get (0 :: idx)⟩ : Ten α) items <;>
          cases h2 : indexT (⟨ds, fun idx => u.get (0 :: idx)⟩ : Ten β) items <;>
          rw [h1, h2] at this <;> simp at this ⊢
        exact this

theorem indexT_agree : ∀ (items : List Item) (t : Store) (s : List ℕ), t.shape = s ++ [2] →
    items.length ≤ s.length →
    (indexT t items = none ∧ indexT (words t) items = none) ∨ Agree (indexT t items) (indexT (words t) items)
  | [], t, s, h, _ => .inr ⟨t, words t, rfl, rfl, ⟨s, h⟩, same_refl _⟩
  | .ellipsis :: items, t, s, h, _ => .inl ⟨rfl, rfl⟩
  | .int k :: items, t, s, h, hl => by
      cases s with
      | nil => simp at hl
      | cons d ds =>
        have hw : (words t).shape = d :: ds := words_shape h
        unfold indexT
        rw [hw, h]
        simp only [List.cons_append]
        split
        · have ih := indexT_agree items ⟨ds ++ [2], fun idx => t.get (k :: idx)⟩ ds rfl (by simpa using hl)
          have e : words ⟨ds ++ [2], fun idx => t.get (k :: idx)⟩ = ⟨ds, fun idx => (words t).get (k :: idx)⟩ := by
            simp [words]
          rw [e] at ih
          exact ih
        · exact .inl ⟨rfl, rfl⟩
  | .slice lo hi :: items, t, s, h, hl => by
      cases s with
      | nil => simp at hl
      | cons d ds =>
        have hw : (words t).shape = d :: ds := words_shape h
        have e : ∀ k, words ⟨ds ++ [2], fun idx => t.get (k :: idx)⟩ = ⟨ds, fun idx => (words t).get (k :: idx)⟩ := by
          intro k; simp [words]
        have ih := fun k => indexT_agree items ⟨ds ++ [2], fun idx => t.get (k :: idx)⟩ ds rfl (by simpa using hl)
        simp only [e] at ih
        rcases ih 0 with ⟨h1, h2⟩ | ⟨r, r', h1, h2, ⟨sr, hr⟩, hsame⟩
        · left
          unfold indexT
          rw [hw, h]
          simp only [List.cons_append, h1, h2]
          exact ⟨trivial, trivial⟩
        · right
          unfold indexT
          rw [hw, h]
          simp only [List.cons_append, h1, h2]
          refine ⟨_, _, rfl, rfl, ⟨(min hi d - lo) :: sr, by simp [hr]⟩, ?_, ?_⟩
          · have := hsame.1
            simp only [words] at this ⊢
            rw [← this, hr, ← List.cons_append, List.dropLast_concat, List.dropLast_concat]
          · intro idx hi'
            cases idx with
            | nil =>
              have := inShape_length hi'
              simp [words, hr] at this
            | cons i idx =>
              have hin : InShape sr idx := by
                simp only [words, hr] at hi'
                rw [← List.cons_append, List.dropLast_concat] at hi'
                exact hi'.2
              rcases ih (lo + i) with ⟨g1, -⟩ | ⟨q, q', g1, g2, -, gsame⟩
              · have := indexT_shape items (⟨ds ++ [2], fun idx => t.get (0 :: idx)⟩ : Store)
                  (⟨ds ++ [2], fun idx => t.get ((lo + i) :: idx)⟩ : Store) rfl
                rw [g1, h1] at this
                simp at this
              · have hq : q.shape = r.shape := by
                  have := indexT_shape items (⟨ds ++ [2], fun idx => t.get (0 :: idx)⟩ : Store)
                    (⟨ds ++ [2], fun idx => t.get ((lo + i) :: idx)⟩ : Store) rfl
                  rw [g1, h1] at this
                  simpa using this.symm
                have := gsame.2 idx (by rw [words_shape (s := sr) (by rw [hq, hr])]; exact hin)
                simp only [words, List.cons_append] at this g2 ⊢
                rw [g1, g2]
                exact this

/-- **C50**: an index without an ellipsis, with no more items than dimensions, selects the same words
(or raises in both cases). -/
theorem getitem_spec (t : Store) (s : List ℕ) (h : t.shape = s ++ [2]) (items : List Item)
    (hl : items.length ≤ s.length) (hi : ∀ i ∈ items, i ≠ .ellipsis) :
    (getitem t items = none ∧ getitemT (words t) items = none) ∨
      Agree (getitem t items) (getitemT (words t) items) := by
  have e : items.takeWhile Item.plain = items := by
    clear hl
    induction items with
    | nil => rfl
    | cons i items ih =>
      have h1 : i.plain = true := by
        have := hi i (by simp)
        cases i <;> simp_all [Item.plain]
      rw [List.takeWhile_cons_of_pos h1, ih fun j hj => hi j (List.mem_cons_of_mem _ hj)]
  unfold getitem getitemT
  simp only [e, if_true]
  exact indexT_agree items t s h hl

/-- An ellipsis reaches the limbs: `x[..., 0]` on a vector of two words is not the first word but a
word made of both low limbs. -/
theorem getitem_ellipsis_false : ∃ t : Store, t.shape = [2, 2] ∧
    (words t).get [0] = 7 ∧ (words t).get [1] = 9 ∧
    (∃ r, getitemT (words t) [.ellipsis, .int 0] = some r ∧ r.get [] = 7) ∧
    ∃ r, getitem t [.ellipsis, .int 0] = some r ∧ Valid r ∧ (words r).get [] = 7 + 9 * 2 ^ 64 := by
  refine ⟨⟨[2, 2], fun idx => match idx with | [0, 0] => 7 | [1, 0] => 9 | _ => 0⟩, rfl, ?_, ?_,
    ⟨_, rfl, ?_⟩, ⟨_, rfl, ⟨[], rfl⟩, ?_⟩⟩ <;> decide +kernel

end Verif.I128
