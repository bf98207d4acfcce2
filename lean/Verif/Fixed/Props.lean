import Verif.Fixed.Lemmas
import Mathlib.Tactic.NormNum.Prime
import Mathlib.Tactic.FieldSimp
import Mathlib.Tactic.Positivity

/-!
# C08: encoding and decoding; C09: validation of configurations
-/

namespace Verif.Fixed

/-- The factory can hold the single-precision range of `c` the way Pond decodes it: the shifted
values `[0, 2·bound)` lie in the window and `to_native` keeps them. -/
structure HoldsShifted (F : Factory) (c : Config) : Prop where
  lo : F.lo ≤ 0
  hi : 2 * (c.boundSingle : ℤ) ≤ F.lo + F.modulus
  native : ∀ v : ℤ, 0 ≤ v → v < 2 * c.boundSingle → F.native v = v

/-- The factory can hold the single-precision range of `c` the way ABY3 decodes it. -/
structure HoldsCentred (F : Factory) (c : Config) : Prop where
  lo : F.lo ≤ -(c.boundSingle : ℤ)
  hi : (c.boundSingle : ℤ) ≤ F.lo + F.modulus
  native : ∀ v : ℤ, -(c.boundSingle : ℤ) ≤ v → v < c.boundSingle → F.native v = v

section
variable {F : Factory} {c : Config}

theorem pond_decode_int (h : HoldsShifted F c) (v : ℤ) (h0 : -(c.boundSingle : ℤ) ≤ v)
    (h1 : v < c.boundSingle) (sc : Bool) :
    decodePond F c sc (v : ZMod F.modulus) = if sc then (v : ℚ) / c.scale else v := by
  have e : ((v : ZMod F.modulus) + (c.boundSingle : ZMod F.modulus))
      = ((v + c.boundSingle : ℤ) : ZMod F.modulus) := by push_cast; ring
  have r : F.rep ((v + c.boundSingle : ℤ) : ZMod F.modulus) = v + c.boundSingle :=
    F.rep_cast _ (by linarith [h.lo]) (by linarith [h.hi])
  unfold decodePond Factory.toNative
  rw [e, r, h.native _ (by linarith) (by linarith)]
  simp

theorem aby3_decode_int (h : HoldsCentred F c) (v : ℤ) (h0 : -(c.boundSingle : ℤ) ≤ v)
    (h1 : v < c.boundSingle) (sc : Bool) :
    decodeAby3 F c sc (v : ZMod F.modulus) = if sc then (v : ℚ) / c.scale else v := by
  have r : F.rep (v : ZMod F.modulus) = v :=
    F.rep_cast _ (by linarith [h.lo]) (by linarith [h.hi])
  unfold decodeAby3 Factory.toNative
  rw [r, h.native _ h0 h1]

/-- The encoding of a number of magnitude below `base ^ pInt` is within the single-precision
bound. -/
theorem encode_range (hb : 0 < c.base) (q : ℚ) (hq : |q| < (c.base : ℚ) ^ c.pInt) :
    |encode c true q| < c.boundSingle := by
  have hs : (0 : ℚ) < c.scale := by unfold Config.scale; positivity
  have h := (toInt_spec (q * c.scale)).1
  have : (|encode c true q| : ℚ) < c.boundSingle := by
    calc (|encode c true q| : ℚ) = |(toInt (q * c.scale) : ℚ)| := by simp [encode]
      _ ≤ |q * c.scale| := h
      _ = |q| * c.scale := by rw [abs_mul, abs_of_pos hs]
      _ < (c.base : ℚ) ^ c.pInt * c.scale := by gcongr
      _ = c.boundSingle := by
        unfold Config.scale Config.boundSingle; push_cast; rw [pow_add]
  exact_mod_cast this

theorem encode_error (hb : 0 < c.base) (q : ℚ) :
    |(encode c true q : ℚ) / c.scale - q| < 1 / c.scale ∧ |(encode c true q : ℚ) / c.scale| ≤ |q| ∧
    0 ≤ (encode c true q : ℚ) / c.scale * q := by
  have hs : (0 : ℚ) < c.scale := by unfold Config.scale; positivity
  obtain ⟨h1, h2, h3⟩ := toInt_spec (q * c.scale)
  have he : encode c true q = toInt (q * c.scale) := by simp [encode]
  rw [he]
  refine ⟨?_, ?_, ?_⟩
  · have : (toInt (q * c.scale) : ℚ) / c.scale - q
        = ((toInt (q * c.scale) : ℚ) - q * c.scale) / c.scale := by field_simp
    rw [this, abs_div, abs_of_pos hs]
    gcongr
  · rw [abs_div, abs_of_pos hs, div_le_iff₀ hs, ← abs_of_pos hs, ← abs_mul, abs_of_pos hs]
    exact h1
  · have : (toInt (q * c.scale) : ℚ) / c.scale * q
        = ((toInt (q * c.scale) : ℚ) * (q * c.scale)) / (c.scale ^ 2) := by field_simp
    rw [this]
    positivity

/-- **C08, Pond.** For every rational of magnitude below `base ^ pInt`, decoding its encoding
gives a number less than `1 / scale` away, never larger in magnitude and of the same sign. -/
theorem pond_encode_decode (hb : 0 < c.base) (h : HoldsShifted F c) (q : ℚ)
    (hq : |q| < (c.base : ℚ) ^ c.pInt) :
    let d := decodePond F c true (encode c true q : ZMod F.modulus)
    |d - q| < 1 / c.scale ∧ |d| ≤ |q| ∧ 0 ≤ d * q := by
  have hr := abs_lt.mp (encode_range hb q hq)
  intro d
  have hd : d = (encode c true q : ℚ) / c.scale := pond_decode_int h _ hr.1.le hr.2 true
  rw [hd]
  exact encode_error hb q

/-- **C08, ABY3.** The same for ABY3. -/
theorem aby3_encode_decode (hb : 0 < c.base) (h : HoldsCentred F c) (q : ℚ)
    (hq : |q| < (c.base : ℚ) ^ c.pInt) :
    let d := decodeAby3 F c true (encode c true q : ZMod F.modulus)
    |d - q| < 1 / c.scale ∧ |d| ≤ |q| ∧ 0 ≤ d * q := by
  have hr := abs_lt.mp (encode_range hb q hq)
  intro d
  have hd : d = (encode c true q : ℚ) / c.scale := aby3_decode_int h _ hr.1.le hr.2 true
  rw [hd]
  exact encode_error hb q

/-- **C08**, numbers on the grid: multiples of `1 / scale` round-trip exactly, in both protocols. -/
theorem encode_decode_exact (hb : 0 < c.base) (n : ℤ) (hn : |n| < c.boundSingle) :
    (HoldsShifted F c →
      decodePond F c true (encode c true ((n : ℚ) / c.scale) : ZMod F.modulus) = n / c.scale) ∧
    (HoldsCentred F c →
      decodeAby3 F c true (encode c true ((n : ℚ) / c.scale) : ZMod F.modulus) = n / c.scale) := by
  have hs : (0 : ℚ) < c.scale := by unfold Config.scale; positivity
  have he : encode c true ((n : ℚ) / c.scale) = n := by
    simp only [encode, if_true]
    rw [div_mul_cancel₀ _ hs.ne', toInt_intCast]
  have hr := abs_lt.mp hn
  rw [he]
  exact ⟨fun h => pond_decode_int h n hr.1.le hr.2 true,
    fun h => aby3_decode_int h n hr.1.le hr.2 true⟩

/-- **C08**, unscaled integers round-trip exactly, in both protocols. -/
theorem encode_decode_integer (n : ℤ) (h0 : -(c.boundSingle : ℤ) ≤ n) (h1 : n < c.boundSingle) :
    (HoldsShifted F c → decodePond F c false (encode c false n : ZMod F.modulus) = n) ∧
    (HoldsCentred F c → decodeAby3 F c false (encode c false n : ZMod F.modulus) = n) := by
  have he : encode c false (n : ℚ) = n := by simp [encode, toInt_intCast]
  rw [he]
  exact ⟨fun h => pond_decode_int h n h0 h1 false, fun h => aby3_decode_int h n h0 h1 false⟩

end

/-- Outside the range Pond's decoding is wrong: with `fixed64` on int64 the integer
`2^63 - 3^15` (which the ring holds) decodes to a negative number. -/
theorem pond_decode_out_of_range :
    decodePond (native 64) fixed64 false ((2 ^ 63 - 3 ^ 15 : ℤ) : ZMod (2 ^ 64)) = -2 ^ 63 - 3 ^ 15 := by
  have e : (((2 ^ 63 - 3 ^ 15 : ℤ) : ZMod (2 ^ 64)) + ((fixed64.boundSingle : ℕ) : ZMod (2 ^ 64)))
      = ((-2 ^ 63 : ℤ) : ZMod (2 ^ 64)) := by
    have : ((fixed64.boundSingle : ℕ) : ZMod (2 ^ 64)) = ((3 ^ 15 : ℤ) : ZMod (2 ^ 64)) := by
      simp [Config.boundSingle, fixed64]
    rw [this, ← Int.cast_add, ZMod.intCast_eq_intCast_iff]
    norm_num [Int.ModEq]
  have r : (native 64).rep ((-2 ^ 63 : ℤ) : ZMod (2 ^ 64)) = -2 ^ 63 :=
    (native 64).rep_cast _ (by norm_num [native]) (by norm_num [native])
  have hs : fixed64.boundSingle = 3 ^ 15 := rfl
  have : (native 64).toNative (((2 ^ 63 - 3 ^ 15 : ℤ) : ZMod (2 ^ 64)) +
      ((fixed64.boundSingle : ℕ) : ZMod (2 ^ 64))) = -2 ^ 63 := by
    rw [e]; exact r
  show (((native 64).toNative (((2 ^ 63 - 3 ^ 15 : ℤ) : ZMod (2 ^ 64)) +
      ((fixed64.boundSingle : ℕ) : ZMod (2 ^ 64))) - (fixed64.boundSingle : ℤ) : ℤ) : ℚ) = _
  rw [this, hs]; norm_num

/-- The branch of `Pond._encode` for TensorFlow tensors raises unless an integer type is passed. -/
theorem encode_tf_tensor_raises (c : Config) (sc : Bool) (q : ℚ) :
    encodeTfTensor c false sc q = none ∧ encodeTfTensor c true sc q = some (encode c sc q) :=
  ⟨rfl, rfl⟩

/-- A `w`-bit native factory holds every configuration with `4·bound ≤ 2^w`. -/
theorem native_holds (w : ℕ) (hw : 0 < w) (c : Config) (h : 4 * c.boundSingle ≤ 2 ^ w) :
    HoldsShifted (native w) c ∧ HoldsCentred (native w) c := by
  obtain ⟨v, rfl⟩ : ∃ v, w = v + 1 := ⟨w - 1, by omega⟩
  have h' : 4 * (c.boundSingle : ℤ) ≤ 2 * 2 ^ v := by
    have : ((4 * c.boundSingle : ℕ) : ℤ) ≤ ((2 ^ (v + 1) : ℕ) : ℤ) := by exact_mod_cast h
    push_cast at this; rw [pow_succ] at this; linarith
  have hp : (0 : ℤ) < 2 ^ v := by positivity
  have hbn : (0 : ℤ) ≤ c.boundSingle := by positivity
  refine ⟨⟨?_, ?_, fun _ _ _ => rfl⟩, ⟨?_, ?_, fun _ _ _ => rfl⟩⟩ <;>
    simp only [native, Nat.add_sub_cancel] <;> push_cast <;> (try rw [pow_succ]) <;> linarith

/-- The CRT factory holds every configuration with `2·bound ≤ 2^31` and `4·bound ≤ m`. -/
theorem crt_holds (m : ℕ) (c : Config) (h : 4 * c.boundSingle ≤ m) (h32 : c.boundSingle ≤ 2 ^ 30) :
    HoldsShifted (crt m) c := by
  have h' : 4 * (c.boundSingle : ℤ) ≤ m := by exact_mod_cast h
  have h2 : (c.boundSingle : ℤ) ≤ 2 ^ 30 := by exact_mod_cast h32
  refine ⟨?_, ?_, ?_⟩ <;> simp only [crt]
  · omega
  · omega
  · intro v h0 h1
    apply Int.bmod_eq_of_le <;> norm_num <;> omega

/-- Non-vacuity: the library's configurations with their factories. -/
example : HoldsShifted (crt int100Modulus) fixed100 ∧ HoldsShifted (crt int100Modulus) fixed100_ni ∧
    HoldsShifted (native 64) fixed64 ∧ HoldsShifted (native 64) fixed64_ni ∧
    HoldsCentred (native 64) fixed64_heuristic ∧ HoldsCentred (native 128) fixed128_heuristic := by
  refine ⟨crt_holds _ _ ?_ ?_, crt_holds _ _ ?_ ?_, (native_holds _ ?_ _ ?_).1,
    (native_holds _ ?_ _ ?_).1, (native_holds _ ?_ _ ?_).2, (native_holds _ ?_ _ ?_).2⟩ <;>
  norm_num [Config.boundSingle, fixed100, fixed100_ni, fixed64, fixed64_ni, fixed64_heuristic,
    fixed128_heuristic, int100Modulus]

/-! ## C09 -/

/-- What the validation decides: encoded single-precision values have at most 31 bits, and the
double-precision bound with the statistical gap is below the modulus. -/
theorem validate_iff (c : Config) (m : ℕ) :
    validate c m = true ↔
      c.boundSingle ≤ 2 ^ 31 ∧ 2 ^ (Nat.clog 2 c.boundDouble + c.gap) < m := by
  have h1 : ∀ x, ¬ Nat.clog 2 x > 31 ↔ x ≤ 2 ^ 31 := by
    intro x; rw [not_lt]; exact Nat.clog_le_iff_le_pow (by norm_num)
  unfold validate
  simp only [Bool.and_eq_true, Bool.not_eq_true', decide_eq_false_iff_not, h1, not_le]
  constructor
  · rintro ⟨⟨h, _⟩, h'⟩; exact ⟨h, h'⟩
  · rintro ⟨h, h'⟩
    have := (h1 c.boundSingle).mpr h
    exact ⟨⟨h, by omega⟩, h'⟩

/-- What interactive truncation needs: the mask passes the factory's assertion, and shifted value
plus mask stays in the factory's window, for every value within the double-precision bound. -/
structure TruncReady (F : Factory) (c : Config) : Prop where
  mask : F.boundedOk c.maskBits = true
  room : ∀ (x r : ℤ), -(c.boundDouble : ℤ) ≤ x → x < c.boundDouble → 0 ≤ r → r < 2 ^ c.maskBits →
    F.lo ≤ x + c.boundDouble + r ∧ x + c.boundDouble + r < F.lo + F.modulus

/-- **C09 is false as stated**: validation accepts a configuration (that of `fixed64` with a larger
gap) whose truncation mask the factory refuses, so every truncation raises. -/
theorem validate_ready_false :
    ¬ ∀ (c : Config) (w : ℕ), validate c (2 ^ w) = true → TruncReady (native w) c := by
  intro h
  have hc : Nat.clog 2 (3 ^ 23) = 37 := by
    apply le_antisymm
    · exact (Nat.clog_le_iff_le_pow (by norm_num)).mpr (by norm_num)
    · exact Nat.succ_le_of_lt ((Nat.lt_clog_iff_pow_lt (by norm_num)).mpr (by norm_num))
  have hv : validate { fixed64 with gap := 26 } (2 ^ 64) = true := by
    rw [validate_iff]
    simp only [Config.boundSingle, Config.boundDouble, fixed64, Nat.reduceAdd, Nat.reduceMul, hc]
    norm_num
  have := (h _ 64 hv).mask
  simp only [Config.maskBits, Config.boundDouble, fixed64, native, Nat.reduceAdd, Nat.reduceMul,
    hc] at this
  norm_num at this

/-- With an explicit modulus nothing is raised and the sum of value and mask can leave the ring:
the configuration is accepted, the mask passes its assertion, and truncation is silently wrong. -/
theorem validate_ready_explicit_false :
    ∃ (c : Config) (m : ℕ), validate c m = true ∧ (explicit m).boundedOk c.maskBits = true ∧
      ¬ TruncReady (explicit m) c := by
  have hc : Nat.clog 2 (2 ^ 8) = 8 := Nat.clog_pow 2 8 (by norm_num)
  refine ⟨⟨2, 64, 4, 2, 256, 0, false⟩, 2 ^ 9 + 9, ?_, ?_, ?_⟩
  · rw [validate_iff]; simp only [Config.boundSingle, Config.boundDouble, Nat.reduceAdd, Nat.reduceMul, hc]
    norm_num
  · simp only [Config.maskBits, Config.boundDouble, explicit, Nat.reduceAdd, Nat.reduceMul, hc]
    norm_num
  · intro h
    have := (h.room 255 511 (by norm_num [Config.boundDouble]) (by norm_num [Config.boundDouble])
      (by norm_num) (by
        simp only [Config.maskBits, Config.boundDouble, Nat.reduceAdd, Nat.reduceMul, hc]; norm_num)).2
    norm_num [explicit, Config.boundDouble] at this

/-- **C09 (partial).** On a native factory without explicit modulus the two checks together - the
validation and the assertion inside `sample_bounded` - do guarantee room for value plus mask: such
a configuration either raises or is safe. What is missing from the full claim: validation alone
does not imply the assertion (`validate_ready_false`). -/
theorem validate_ready_partial (c : Config) (w : ℕ) (hw : 1 < w)
    (hm : (native w).boundedOk c.maskBits = true) : TruncReady (native w) c := by
  refine ⟨hm, fun x r h0 h1 h2 h3 => ?_⟩
  obtain ⟨v, rfl⟩ : ∃ v, w = v + 1 := ⟨w - 1, by omega⟩
  simp only [native, Nat.add_sub_cancel, decide_eq_true_eq] at hm ⊢
  have hlt : c.maskBits < v := by
    by_contra hle
    have : (2 : ℤ) ^ v ≤ 2 ^ c.maskBits := pow_le_pow_right₀ (by norm_num) (by omega)
    linarith
  have hhalf : (2 : ℤ) * 2 ^ c.maskBits ≤ 2 ^ v := by
    have : (2 : ℤ) ^ (c.maskBits + 1) ≤ 2 ^ v := pow_le_pow_right₀ (by norm_num) hlt
    rw [pow_succ] at this; linarith
  have hB : 2 * (c.boundDouble : ℤ) ≤ 2 ^ c.maskBits := by
    have h : c.boundDouble ≤ 2 ^ Nat.clog 2 c.boundDouble := Nat.le_pow_clog (by norm_num) _
    have h' : (c.boundDouble : ℤ) ≤ 2 ^ Nat.clog 2 c.boundDouble := by exact_mod_cast h
    have : (2 : ℤ) ^ (Nat.clog 2 c.boundDouble + 1) ≤ 2 ^ c.maskBits :=
      pow_le_pow_right₀ (by norm_num) (by unfold Config.maskBits; omega)
    rw [pow_succ] at this; linarith
  have hp : (0 : ℤ) < 2 ^ v := by positivity
  constructor
  · linarith
  · push_cast; rw [pow_succ]; linarith

/-- The CRT factory needs the modulus to leave two more bits than validation asks for. -/
theorem validate_ready_crt (c : Config) (m : ℕ) (h : 2 ^ (c.maskBits + 2) < m) :
    TruncReady (crt m) c := by
  refine ⟨rfl, fun x r h0 h1 h2 h3 => ?_⟩
  have hm : (2 : ℤ) ^ (c.maskBits + 2) < m := by exact_mod_cast h
  have hB : 2 * (c.boundDouble : ℤ) ≤ 2 ^ c.maskBits := by
    have h : c.boundDouble ≤ 2 ^ Nat.clog 2 c.boundDouble := Nat.le_pow_clog (by norm_num) _
    have h' : (c.boundDouble : ℤ) ≤ 2 ^ Nat.clog 2 c.boundDouble := by exact_mod_cast h
    have : (2 : ℤ) ^ (Nat.clog 2 c.boundDouble + 1) ≤ 2 ^ c.maskBits :=
      pow_le_pow_right₀ (by norm_num) (by unfold Config.maskBits; omega)
    rw [pow_succ] at this; linarith
  rw [pow_add] at hm
  simp only [crt]
  constructor <;> omega

/-- In range operands are not enough either: the product of two values below the single-precision
bound can exceed the double-precision bound that truncation relies on, for every validated
configuration with at least one integral digit. -/
theorem product_may_exceed (c : Config) (hb : 2 ≤ c.base) (hi : 1 ≤ c.pInt) (hf : 1 ≤ c.pFrac) :
    ∃ x y : ℤ, |x| < c.boundSingle ∧ |y| < c.boundSingle ∧ (c.boundDouble : ℤ) ≤ x * y := by
  have hb' : (2 : ℤ) ≤ c.base := by exact_mod_cast hb
  have hpos : (0 : ℤ) < c.base := by linarith
  refine ⟨c.boundSingle - 1, c.boundSingle - 1, ?_, ?_, ?_⟩
  all_goals have h1 : (0 : ℤ) < c.boundSingle := by unfold Config.boundSingle; positivity
  · rw [abs_lt]; constructor <;> linarith
  · rw [abs_lt]; constructor <;> linarith
  · -- (B-1)^2 ≥ base^(i+2f) since B = base^(i+f), i ≥ 1, f ≥ 1
    have hB : (c.boundSingle : ℤ) = c.base ^ c.pInt * c.base ^ c.pFrac := by
      unfold Config.boundSingle; push_cast; rw [pow_add]
    have hD : (c.boundDouble : ℤ) = c.base ^ c.pInt * (c.base ^ c.pFrac * c.base ^ c.pFrac) := by
      unfold Config.boundDouble; push_cast; rw [pow_add, two_mul, pow_add]
    have hi' : (2 : ℤ) ≤ c.base ^ c.pInt := by
      calc (2 : ℤ) ≤ c.base := hb'
        _ = c.base ^ 1 := (pow_one _).symm
        _ ≤ c.base ^ c.pInt := pow_le_pow_right₀ (by linarith) hi
    have hf' : (2 : ℤ) ≤ c.base ^ c.pFrac := by
      calc (2 : ℤ) ≤ c.base := hb'
        _ = c.base ^ 1 := (pow_one _).symm
        _ ≤ c.base ^ c.pFrac := pow_le_pow_right₀ (by linarith) hf
    rw [hB, hD]
    generalize (c.base : ℤ) ^ c.pInt = a at *
    generalize (c.base : ℤ) ^ c.pFrac = b at *
    -- a b² (a - 1) - 2ab + 1 ≥ 0
    nlinarith [mul_nonneg (mul_nonneg (by linarith : (0:ℤ) ≤ a) (by linarith : (0:ℤ) ≤ b)) (by linarith : (0:ℤ) ≤ b - 2),
      mul_nonneg (mul_nonneg (mul_nonneg (by linarith : (0:ℤ) ≤ a) (by linarith : (0:ℤ) ≤ b)) (by linarith : (0:ℤ) ≤ b)) (by linarith : (0:ℤ) ≤ a - 2)]

/-- The configurations checked when the library is imported (tensor/__init__.py 46-50) do pass,
and those used with interactive truncation leave room for it.  `fixed128_heuristic`, which is not
checked there, would not pass. -/
theorem library_configs :
    validate fixed100 int100Modulus = true ∧ validate fixed100_ni int100Modulus = true ∧
    validate fixed64 (2 ^ 64) = true ∧ validate fixed64_ni (2 ^ 64) = true ∧
    validate fixed64_heuristic (2 ^ 64) = true ∧ validate fixed128_heuristic (2 ^ 128) = false ∧
    TruncReady (crt int100Modulus) fixed100 ∧ TruncReady (native 64) fixed64 := by
  have c1 : Nat.clog 2 (2 ^ 46) = 46 := Nat.clog_pow 2 46 (by norm_num)
  have c2 : Nat.clog 2 (3 ^ 23) = 37 := by
    apply le_antisymm
    · exact (Nat.clog_le_iff_le_pow (by norm_num)).mpr (by norm_num)
    · exact Nat.succ_le_of_lt ((Nat.lt_clog_iff_pow_lt (by norm_num)).mpr (by norm_num))
  have c3 : Nat.clog 2 (2 ^ 36) = 36 := Nat.clog_pow 2 36 (by norm_num)
  have c4 : Nat.clog 2 (2 ^ 43) = 43 := Nat.clog_pow 2 43 (by norm_num)
  simp only [← Bool.not_eq_true (validate fixed128_heuristic _), validate_iff]
  refine ⟨?_, ?_, ?_, ?_, ?_, ?_, validate_ready_crt _ _ ?_, validate_ready_partial _ _ (by norm_num) ?_⟩ <;>
  simp only [Config.maskBits, Config.boundSingle, Config.boundDouble, fixed100, fixed100_ni, fixed64,
    fixed64_ni, fixed64_heuristic, fixed128_heuristic, int100Modulus, native, Nat.reduceAdd,
    Nat.reduceMul, decide_eq_true_eq, c1, c2, c3, c4] <;> norm_num

end Verif.Fixed
