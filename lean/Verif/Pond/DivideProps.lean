import Verif.Pond.Divide
import Mathlib.Tactic.FinCases

/-!
# C83 for Pond: division by a public value

Property theorems: `div_int_close`, `div_public_close`, `div_public_unscaled_close`, `recip_public_close`,
`recip_public_aby3_close`, `sqrt_public_close`, `div_errors`, and the negations `div_float_false`,
`div_large_false`, `div_int_unscaled_false`, `recip_small_false`.
-/

namespace Verif.Pond

open Verif.Fixed RandM

/-- An integer product of encodings, rescaled with an error of at most one unit, is in range and close. -/
theorem rescaled_close {F : Factory} {c : Config} (hb : 0 < c.base) (hh : HoldsShifted F c) {q1 q2 : ℚ} {e : ℤ} (he : e = 0 ∨ e = 1)
    (hq : |q1 * q2| < (c.base : ℚ) ^ c.pInt - 1 / c.scale) {v : ZMod F.modulus}
    (hv : v = ((encode c true q1 * encode c true q2 / c.scale + e : ℤ) : ZMod F.modulus)) :
    |decodePond F c true v - q1 * q2| ≤ (|q1| + |q2| + 1) / c.scale := by
  have hs : (0 : ℚ) < c.scale := by unfold Config.scale; positivity
  have hsz : (0 : ℤ) < c.scale := by exact_mod_cast hs
  obtain ⟨a1, a2, -⟩ := toInt_spec (q1 * c.scale)
  obtain ⟨b1, b2, -⟩ := toInt_spec (q2 * c.scale)
  set e1 := encode c true q1 with he1
  set e2 := encode c true q2 with he2
  have hd1 : e1 = toInt (q1 * c.scale) := by simp [he1, encode]
  have hd2 : e2 = toInt (q2 * c.scale) := by simp [he2, encode]
  rw [← hd1] at a1 a2
  rw [← hd2] at b1 b2
  rw [abs_mul, abs_of_pos hs] at a1 b1
  have hbd : (c.boundSingle : ℚ) = (c.base : ℚ) ^ c.pInt * c.scale := by
    unfold Config.scale Config.boundSingle; push_cast; rw [pow_add]
  have hvq : |((e1 * e2 : ℤ) : ℚ)| < (c.boundSingle - 1) * c.scale := by
    push_cast
    rw [abs_mul]
    calc _ ≤ (|q1| * c.scale) * (|q2| * c.scale) := by gcongr
      _ = |q1 * q2| * c.scale * c.scale := by rw [abs_mul]; ring
      _ < ((c.base : ℚ) ^ c.pInt - 1 / c.scale) * c.scale * c.scale := by gcongr
      _ = _ := by rw [hbd]; field_simp
  have hvz : |e1 * e2| < (c.boundSingle - 1 : ℤ) * c.scale := by exact_mod_cast hvq
  obtain ⟨hv0, hv1⟩ := abs_lt.mp hvz
  have hfl0 : -(c.boundSingle : ℤ) ≤ e1 * e2 / c.scale + e := by
    have : -(c.boundSingle : ℤ) ≤ e1 * e2 / c.scale := (Int.le_ediv_iff_mul_le hsz).mpr (by linarith)
    omega
  have hfl1 : e1 * e2 / c.scale + e < c.boundSingle := by
    have : e1 * e2 / c.scale < (c.boundSingle - 1 : ℤ) := (Int.ediv_lt_iff_lt_mul hsz).mpr (by linarith)
    omega
  rw [hv, pond_decode_int hh _ hfl0 hfl1]
  simp only [if_true]
  have herr := product_error hs a2 b2 b1
  have hdiv := Int.mul_ediv_add_emod (e1 * e2) c.scale
  have hm0 := Int.emod_nonneg (e1 * e2) hsz.ne'
  have hm1 := Int.emod_lt_of_pos (e1 * e2) hsz
  have hfl : |((e1 * e2 / c.scale + e : ℤ) : ℚ) * c.scale - e1 * e2| ≤ c.scale := by
    have : |(e1 * e2 / c.scale + e) * c.scale - e1 * e2| ≤ (c.scale : ℤ) := by
      rw [abs_le]; rcases he with rfl | rfl <;> constructor <;> nlinarith
    exact_mod_cast this
  have key : |((e1 * e2 / c.scale + e : ℤ) : ℚ) * c.scale - q1 * q2 * c.scale ^ 2| ≤ (|q1| + |q2| + 1) * c.scale := by
    calc _ = |(((e1 * e2 / c.scale + e : ℤ) : ℚ) * c.scale - e1 * e2) + ((e1 : ℚ) * e2 - q1 * q2 * c.scale ^ 2)| := by ring_nf
      _ ≤ _ := abs_add_le _ _
      _ ≤ c.scale + (|q1| + |q2|) * c.scale := add_le_add hfl herr
      _ = _ := by ring
  have hfin : ((e1 * e2 / c.scale + e : ℤ) : ℚ) / c.scale - q1 * q2
      = (((e1 * e2 / c.scale + e : ℤ) : ℚ) * c.scale - q1 * q2 * c.scale ^ 2) / c.scale ^ 2 := by
    field_simp
  rw [hfin, abs_div, abs_of_pos (by positivity : (0 : ℚ) < (c.scale : ℚ) ^ 2), div_le_div_iff₀ (by positivity) hs]
  calc _ ≤ (|q1| + |q2| + 1) * c.scale * c.scale := by gcongr
    _ = _ := by ring

/-- The range of the integer product. -/
theorem product_range {c : Config} (hb : 0 < c.base) {q1 q2 : ℚ} (hq : |q1 * q2| < (c.base : ℚ) ^ c.pInt - 1 / c.scale) :
    -(rotation c true : ℤ) ≤ encode c true q1 * encode c true q2 ∧ encode c true q1 * encode c true q2 < rotation c true := by
  have hs : (0 : ℚ) < c.scale := by unfold Config.scale; positivity
  have hsz : (0 : ℤ) < c.scale := by exact_mod_cast hs
  obtain ⟨a1, -, -⟩ := toInt_spec (q1 * c.scale)
  obtain ⟨b1, -, -⟩ := toInt_spec (q2 * c.scale)
  rw [abs_mul, abs_of_pos hs] at a1 b1
  have hbd : (c.boundSingle : ℚ) = (c.base : ℚ) ^ c.pInt * c.scale := by
    unfold Config.scale Config.boundSingle; push_cast; rw [pow_add]
  have hdd : (c.boundDouble : ℚ) = c.boundSingle * c.scale := by
    unfold Config.scale Config.boundSingle Config.boundDouble; push_cast; rw [← pow_add]; ring_nf
  have hvq : |((encode c true q1 * encode c true q2 : ℤ) : ℚ)| < (c.boundSingle - 1) * c.scale := by
    push_cast
    rw [abs_mul]
    calc _ ≤ (|q1| * c.scale) * (|q2| * c.scale) := by
          simp only [encode, if_true]; gcongr
      _ = |q1 * q2| * c.scale * c.scale := by rw [abs_mul]; ring
      _ < ((c.base : ℚ) ^ c.pInt - 1 / c.scale) * c.scale * c.scale := by gcongr
      _ = _ := by rw [hbd]; field_simp
  have hvz : |encode c true q1 * encode c true q2| < (c.boundSingle - 1 : ℤ) * c.scale := by exact_mod_cast hvq
  have hdz : (c.boundDouble : ℤ) = c.boundSingle * c.scale := by exact_mod_cast hdd
  obtain ⟨hv0, hv1⟩ := abs_lt.mp hvz
  have hrot : (rotation c true : ℤ) = c.boundDouble := by simp [rotation]
  rw [hrot, hdz]
  constructor <;> linarith

/-- Running `timesProg`: it does not raise, both servers see the same tensor, and this is the rescaled product, or the
product if one of the factors is not scaled. -/
theorem times_run {F : Factory} {b : Backend} {c : Config} {C : Cfg (Vec F)} (hb : 0 < c.base) (hF : 0 < F.modulus)
    (hni : c.noninteractive = false) (hready : TruncReady F c) (hlo : F.lo ≤ -(c.boundDouble : ℤ)) (hC : pondCfg F b c = some C)
    {n : ℕ} (xsc : Bool) (m : Vec F n × Bool) (x : Vec F n) :
    ((timesProg F xsc m).start C fun _ => x).All fun r => ∃ v tr, r = .ok (⟨.plain (.pub v v), xsc || m.2⟩, tr) ∧
      if xsc && m.2 then TruncRel F c true n (x * m.1) v else v = x * m.1 := by
  have hS := pondCfg_sound hb hF hni hready hlo hC
  have H1 := program_refines C hS (fun _ : Unit => x) (timesProg F xsc m)
  have H2 := program_flags C (fun _ : Unit => x) (timesProg F xsc m)
  refine All.mono ?_ (All.and H1 H2)
  rintro (e | ⟨v, tr⟩) ⟨h1, h2⟩
  · exact absurd h2 (by simp [timesProg, Prog.ty, Op.ty, Env.get, Kind.join])
  have h2' : (.ok (.pub, xsc || m.2) : Except Err _) = .ok (v.body.kind, v.sc) := h2
  simp only [Except.ok.injEq, Prod.mk.injEq] at h2'
  obtain ⟨body, sc⟩ := v
  obtain ⟨hk, rfl⟩ := h2'
  obtain ⟨z, hz, hr⟩ := h1 _ _ rfl
  match body, hk, hr with
  | .plain (.pub v0 v1), _, hr =>
    obtain ⟨rfl, rfl⟩ : v0 = z ∧ v1 = z := hr
    refine ⟨_, tr, rfl, ?_⟩
    obtain ⟨_, rfl, _, rfl, ⟨p, psc⟩, ⟨_, hp⟩, _, rfl, hret⟩ := hz
    simp only [Env.get, Prod.mk.injEq] at hp hret
    obtain ⟨rfl, -⟩ := hret
    cases xsc <;> cases hm : m.2 <;> simp_all <;> exact hp

/-- What is assumed of the protocol: interactive truncation, a ring that is large enough, and a native type that holds the
numbers of single precision. `fixed64` and `fixed100` meet this. -/
structure DivReady (F : Factory) (b : Backend) (c : Config) (C : Cfg (Vec F)) (bits : ℕ) : Prop where
  base : 0 < c.base
  pos : 0 < F.modulus
  inter : c.noninteractive = false
  ready : TruncReady F c
  lo : F.lo ≤ -(c.boundDouble : ℤ)
  holds : HoldsShifted F c
  cfg : pondCfg F b c = some C
  bits : (c.boundSingle : ℤ) ≤ 2 ^ (bits - 1)

theorem conv_in {m bits : ℕ} (junk : ZMod m) {e : ℤ} {B : ℕ} (hB : (B : ℤ) ≤ 2 ^ (bits - 1)) (he : |e| < B) : conv bits junk e = (e : ZMod m) := by
  unfold conv
  have := abs_lt.mp he
  rw [if_pos ⟨by linarith, by linarith⟩]

section
variable {F : Factory} {b : Backend} {c : Config} {C : Cfg (Vec F)} {bits n : ℕ}

/-- **C83, Pond (reciprocal of a public tensor).** Where the value is not zero and its reciprocal is in range, the result is less
than one unit away from the reciprocal and never larger. -/
theorem recip_public_close (hb : 0 < c.base) (hh : HoldsShifted F c) (hbits : (c.boundSingle : ℤ) ≤ 2 ^ (bits - 1)) (junk : ZMod F.modulus)
    (y : Vec F n) : ∃ r, recipPublic F c bits junk true y = .ok r ∧
      ∀ i, decodePond F c true (y i) ≠ 0 → |1 / decodePond F c true (y i)| < (c.base : ℚ) ^ c.pInt →
        |decodePond F c true (r i) - 1 / decodePond F c true (y i)| < 1 / c.scale ∧
        |decodePond F c true (r i)| ≤ |1 / decodePond F c true (y i)| := by
  refine ⟨_, rfl, fun i h0 h1 => ?_⟩
  rw [if_neg h0, inv_eq_one_div, conv_in junk hbits (encode_range hb _ h1)]
  obtain ⟨k1, k2, -⟩ := pond_encode_decode hb hh _ h1
  exact ⟨k1, k2⟩

/-- **C83, ABY3 (reciprocal of a public tensor).** -/
theorem recip_public_aby3_close (hb : 0 < c.base) (hh : HoldsCentred F c) (hbits : (c.boundSingle : ℤ) ≤ 2 ^ (bits - 1))
    (junk : ZMod F.modulus) (y : Vec F n) : ∃ r, recipPublicAby3 F c bits junk true y = .ok r ∧
      ∀ i, decodeAby3 F c true (y i) ≠ 0 → |1 / decodeAby3 F c true (y i)| < (c.base : ℚ) ^ c.pInt →
        |decodeAby3 F c true (r i) - 1 / decodeAby3 F c true (y i)| < 1 / c.scale ∧
        |decodeAby3 F c true (r i)| ≤ |1 / decodeAby3 F c true (y i)| := by
  refine ⟨_, rfl, fun i h0 h1 => ?_⟩
  rw [if_neg h0, inv_eq_one_div, conv_in junk hbits (encode_range hb _ h1)]
  obtain ⟨k1, k2, -⟩ := aby3_encode_decode hb hh _ h1
  exact ⟨k1, k2⟩

/-- **C83, Pond (square root of a public tensor).** For values that are not negative and in range, the result is less than one
unit below the root. -/
theorem sqrt_public_close (hb : 0 < c.base) (hh : HoldsShifted F c) (hbits : (c.boundSingle : ℤ) ≤ 2 ^ (bits - 1)) (junk : ZMod F.modulus)
    (y : Vec F n) : ∃ r, sqrtPublic F c bits junk true y = .ok r ∧
      ∀ i, 0 ≤ decodePond F c true (y i) → decodePond F c true (y i) < (c.base : ℚ) ^ c.pInt →
        ((decodePond F c true (r i) : ℚ) : ℝ) ≤ Real.sqrt (decodePond F c true (y i) : ℚ) ∧
        Real.sqrt (decodePond F c true (y i) : ℚ) < ((decodePond F c true (r i) : ℚ) : ℝ) + 1 / c.scale := by
  refine ⟨_, rfl, fun i h0 h1 => ?_⟩
  rw [if_neg (not_lt.2 h0)]
  have hs : (0 : ℝ) < c.scale := by
    have : (0 : ℚ) < c.scale := by unfold Config.scale; positivity
    exact_mod_cast this
  set d : ℚ := decodePond F c true (y i) with hd
  set t : ℝ := Real.sqrt ((d : ℚ) : ℝ) with ht
  have ht0 : 0 ≤ t := Real.sqrt_nonneg _
  have hB1 : (1 : ℝ) ≤ (c.base : ℝ) ^ c.pInt := one_le_pow₀ (by exact_mod_cast hb)
  have htB : t < (c.base : ℝ) ^ c.pInt := by
    have hdB : ((d : ℚ) : ℝ) < (c.base : ℝ) ^ c.pInt := by exact_mod_cast h1
    have : t ^ 2 = ((d : ℚ) : ℝ) := Real.sq_sqrt (by exact_mod_cast h0)
    nlinarith
  have hbd : (c.boundSingle : ℝ) = (c.base : ℝ) ^ c.pInt * c.scale := by
    unfold Config.scale Config.boundSingle; push_cast; rw [pow_add]
  have he : toIntReal (t * c.scale) = ⌊t * c.scale⌋ := if_pos (by positivity)
  have e0 : (0 : ℤ) ≤ ⌊t * c.scale⌋ := Int.floor_nonneg.2 (by positivity)
  have e1 : ⌊t * c.scale⌋ < (c.boundSingle : ℤ) := by
    rw [Int.floor_lt]
    push_cast
    rw [hbd]
    gcongr
  rw [he, conv_in junk hbits (by rw [abs_of_nonneg e0]; exact e1), pond_decode_int hh _ (by omega) e1]
  simp only [if_true]
  push_cast
  have f1 := Int.floor_le (t * c.scale)
  have f2 := Int.lt_floor_add_one (t * c.scale)
  constructor
  · rw [div_le_iff₀ hs]; exact f1
  · rw [← add_div, lt_div_iff₀ hs]; exact f2

/-- Multiplying by the encoding of a number. -/
theorem times_close (R : DivReady F b c C bits) (x : Fin n → ℚ) (m : Fin n → ℚ)
    (hx : ∀ i, |x i * m i| < (c.base : ℚ) ^ c.pInt - 1 / c.scale) :
    ((timesProg F true (fun i => (encode c true (m i) : ZMod F.modulus), true)).start C fun _ i => (encode c true (x i) : ZMod F.modulus)).All
      fun r => ∃ v tr, r = .ok (⟨.plain (.pub v v), true⟩, tr) ∧
        ∀ i, |decodePond F c true (v i) - x i * m i| ≤ (|x i| + |m i| + 1) / c.scale := by
  refine All.mono ?_ (times_run R.base R.pos R.inter R.ready R.lo R.cfg true _ _)
  rintro r ⟨v, tr, rfl, h⟩
  refine ⟨v, tr, rfl, fun i => ?_⟩
  simp only [Bool.and_self, if_true] at h
  obtain ⟨h0, h1⟩ := product_range R.base (hx i)
  obtain ⟨e, he, hv⟩ := h i _ (by simp) h0 h1
  exact rescaled_close R.base R.holds he (hx i) hv

/-- **C83, Pond (private tensor divided by an integer).** Encode, share, divide, reveal, decode: each quotient is within
`(|x| + 1/|z| + 1)` units, for all shares and masks, at both servers. -/
theorem div_int_close (R : DivReady F b c C bits) (junk : ZMod F.modulus) (z : ℤ) (hz : z ≠ 0) (x : Fin n → ℚ)
    (hx : ∀ i, |x i / z| < (c.base : ℚ) ^ c.pInt - 1 / c.scale) :
    ∃ p, divProg F c bits junk true (.int z : Divisor F n) = .ok p ∧ (p.start C fun _ i => (encode c true (x i) : ZMod F.modulus)).All
      fun r => ∃ v tr, r = .ok (⟨.plain (.pub v v), true⟩, tr) ∧
        ∀ i, |decodePond F c true (v i) - x i / z| ≤ (|x i| + 1 / |(z : ℚ)| + 1) / c.scale := by
  refine ⟨timesProg F true (fun _ => (encode c true (1 / (z : ℚ)) : ZMod F.modulus), true), ?_, ?_⟩
  · unfold divProg multiplier
    dsimp only
    rw [if_neg hz]
    rfl
  · have := times_close R x (fun _ => 1 / (z : ℚ)) (fun i => by rw [mul_one_div]; exact hx i)
    simpa only [mul_one_div, abs_div, abs_one] using this

/-- **C83, Pond (private tensor divided by a public tensor)** of numbers that are not zero and whose reciprocals are in range. -/
theorem div_public_close (R : DivReady F b c C bits) (junk : ZMod F.modulus) (y : Vec F n) (x : Fin n → ℚ)
    (h0 : ∀ i, decodePond F c true (y i) ≠ 0) (h1 : ∀ i, |1 / decodePond F c true (y i)| < (c.base : ℚ) ^ c.pInt)
    (hx : ∀ i, |x i / decodePond F c true (y i)| < (c.base : ℚ) ^ c.pInt - 1 / c.scale) :
    ∃ p, divProg F c bits junk true (.pub y true) = .ok p ∧ (p.start C fun _ i => (encode c true (x i) : ZMod F.modulus)).All
      fun r => ∃ v tr, r = .ok (⟨.plain (.pub v v), true⟩, tr) ∧
        ∀ i, |decodePond F c true (v i) - x i / decodePond F c true (y i)| ≤
          (|x i| + 1 / |decodePond F c true (y i)| + 1) / c.scale := by
  refine ⟨timesProg F true (fun i => (encode c true (1 / decodePond F c true (y i)) : ZMod F.modulus), true), ?_, ?_⟩
  · unfold divProg multiplier recipPublic
    simp only [if_true, Except.map]
    congr 2
    refine Prod.ext (funext fun i => ?_) rfl
    dsimp only
    rw [if_neg (h0 i), inv_eq_one_div, conv_in junk R.bits (encode_range R.base _ (h1 i))]
  · have := times_close R x (fun i => 1 / decodePond F c true (y i)) (fun i => by rw [mul_one_div]; exact hx i)
    simpa only [mul_one_div, abs_div, abs_one] using this

/-- **C83, Pond (private integers divided by a public tensor).** The result is scaled, nothing is rescaled. -/
theorem div_public_unscaled_close (R : DivReady F b c C bits) (junk : ZMod F.modulus) (y : Vec F n) (x : Fin n → ℤ)
    (h0 : ∀ i, decodePond F c true (y i) ≠ 0) (h1 : ∀ i, |1 / decodePond F c true (y i)| < (c.base : ℚ) ^ c.pInt)
    (hx : ∀ i, |x i / decodePond F c true (y i)| < (c.base : ℚ) ^ c.pInt) :
    ∃ p, divProg F c bits junk false (.pub y true) = .ok p ∧ (p.start C fun _ i => (encode c false (x i) : ZMod F.modulus)).All
      fun r => ∃ v tr, r = .ok (⟨.plain (.pub v v), true⟩, tr) ∧
        ∀ i, |decodePond F c true (v i) - x i / decodePond F c true (y i)| ≤ |(x i : ℚ)| / c.scale := by
  have hs : (0 : ℚ) < c.scale := by have := R.base; unfold Config.scale; positivity
  refine ⟨timesProg F false (fun i => (encode c true (1 / decodePond F c true (y i)) : ZMod F.modulus), true), ?_, ?_⟩
  · unfold divProg multiplier recipPublic
    simp only [if_true, Except.map]
    congr 2
    refine Prod.ext (funext fun i => ?_) rfl
    dsimp only
    rw [if_neg (h0 i), inv_eq_one_div, conv_in junk R.bits (encode_range R.base _ (h1 i))]
  · refine All.mono ?_ (times_run R.base R.pos R.inter R.ready R.lo R.cfg false _ _)
    rintro r ⟨v, tr, rfl, h⟩
    refine ⟨v, tr, rfl, fun i => ?_⟩
    simp only [Bool.false_and, Bool.false_eq_true, if_false] at h
    obtain ⟨k1, k2, -⟩ := encode_error R.base (1 / decodePond F c true (y i))
    have hv : v i = ((x i * encode c true (1 / decodePond F c true (y i)) : ℤ) : ZMod F.modulus) := by
      rw [h]
      simp [encode, toInt_intCast]
    have hr : |x i * encode c true (1 / decodePond F c true (y i))| < c.boundSingle := by
      have hbd : (c.boundSingle : ℚ) = (c.base : ℚ) ^ c.pInt * c.scale := by
        unfold Config.scale Config.boundSingle; push_cast; rw [pow_add]
      have : (|x i * encode c true (1 / decodePond F c true (y i))| : ℚ) < c.boundSingle := by
        rw [hbd, abs_mul]
        rw [abs_div, abs_of_pos hs, div_le_iff₀ hs] at k2
        calc _ ≤ |(x i : ℚ)| * (|1 / decodePond F c true (y i)| * c.scale) := by gcongr
          _ = |x i / decodePond F c true (y i)| * c.scale := by rw [← mul_assoc, ← abs_mul, mul_one_div]
          _ < _ := by have := hx i; gcongr
      exact_mod_cast this
    obtain ⟨r0, r1⟩ := abs_lt.mp hr
    rw [hv, pond_decode_int R.holds _ r0.le r1]
    simp only [if_true]
    push_cast
    have : (x i : ℚ) * encode c true (1 / decodePond F c true (y i)) / c.scale - x i / decodePond F c true (y i) =
        x i * (encode c true (1 / decodePond F c true (y i)) / c.scale - 1 / decodePond F c true (y i)) := by ring
    rw [this, abs_mul, ← mul_one_div |(x i : ℚ)|]
    exact mul_le_mul_of_nonneg_left k1.le (abs_nonneg _)

/-- Division by a float is refused whatever its value is: the property fails for the divisors its description names first. -/
theorem div_float_false (junk : ZMod F.modulus) (xsc : Bool) (q : ℚ) :
    divProg F c bits junk xsc (.float q : Divisor F n) = .error (if q = 0 then .zeroDivision else .typeError) := by
  unfold divProg multiplier
  by_cases h : q = 0 <;> simp [h, Except.map]

/-- What else is refused: zero, tensors that are not scaled, other types; and nothing but that. -/
theorem div_errors (junk : ZMod F.modulus) (xsc : Bool) (d : Divisor F n) :
    (∃ p, divProg F c bits junk xsc d = .ok p) ↔ (∃ z, z ≠ 0 ∧ d = .int z) ∨ ∃ y, d = .pub y true := by
  cases d with
  | float q => rw [div_float_false]; simp
  | int z =>
      unfold divProg multiplier
      by_cases h : z = 0 <;> simp [h, Except.map]
  | pub y sc => cases sc <;> simp [divProg, multiplier, recipPublic, Except.map]
  | other => simp [divProg, multiplier, Except.map]

/-- **C83 fails for integers above the scaling factor**: their reciprocal is encoded as zero, and every quotient is revealed as
zero or one unit. -/
theorem div_large_false (R : DivReady F b c C bits) (junk : ZMod F.modulus) (z : ℤ) (hz : (c.scale : ℤ) < |z|) (h1 : 1 < c.boundSingle)
    (x : Vec F n) :
    ∃ p, divProg F c bits junk true (.int z : Divisor F n) = .ok p ∧ (p.start C fun _ => x).All
      fun r => ∃ v tr, r = .ok (⟨.plain (.pub v v), true⟩, tr) ∧
        ∀ i, decodePond F c true (v i) = 0 ∨ decodePond F c true (v i) = 1 / c.scale := by
  have hs : (0 : ℚ) < c.scale := by have := R.base; unfold Config.scale; positivity
  have hz0 : z ≠ 0 := by rintro rfl; simp at hz; omega
  have he : encode c true (1 / (z : ℚ)) = 0 := by
    obtain ⟨a1, -, -⟩ := toInt_spec (1 / (z : ℚ) * c.scale)
    have hzq : (0 : ℚ) < |(z : ℚ)| := abs_pos.2 (by exact_mod_cast hz0)
    have hlt : (c.scale : ℚ) < |(z : ℚ)| := by exact_mod_cast hz
    have : |1 / (z : ℚ) * c.scale| < 1 := by
      rw [abs_mul, abs_div, abs_one, abs_of_pos hs, one_div_mul_eq_div, div_lt_one hzq]; exact hlt
    have h : (|toInt (1 / (z : ℚ) * c.scale)| : ℚ) < 1 := lt_of_le_of_lt a1 this
    have h' : |toInt (1 / (z : ℚ) * c.scale)| < 1 := by exact_mod_cast h
    simp only [encode, if_true]
    exact Int.abs_lt_one_iff.1 h'
  refine ⟨timesProg F true (fun _ => (encode c true (1 / (z : ℚ)) : ZMod F.modulus), true), ?_, ?_⟩
  · unfold divProg multiplier
    dsimp only
    rw [if_neg hz0]
    rfl
  · refine All.mono ?_ (times_run R.base R.pos R.inter R.ready R.lo R.cfg true _ _)
    rintro r ⟨v, tr, rfl, h⟩
    refine ⟨v, tr, rfl, fun i => ?_⟩
    simp only [Bool.and_self, if_true] at h
    have hrot : (0 : ℤ) < rotation c true := by
      have : 0 < c.boundDouble := Nat.pow_pos R.base
      simp [rotation, this]
    obtain ⟨e, h2, hv⟩ := h i 0 (by show x i * ((encode c true (1 / (z : ℚ)) : ℤ) : ZMod F.modulus) = _; rw [he]; simp) (by linarith) hrot
    have hB : (1 : ℤ) < c.boundSingle := by exact_mod_cast h1
    rw [hv, Int.zero_ediv, zero_add, pond_decode_int R.holds e (by rcases h2 with rfl | rfl <;> omega) (by rcases h2 with rfl | rfl <;> omega)]
    rcases h2 with rfl | rfl <;> simp

/-- **C83 fails for tensors of integers divided by an integer**: the reciprocal is encoded without scaling, and every quotient
is zero. -/
theorem div_int_unscaled_false (R : DivReady F b c C bits) (junk : ZMod F.modulus) (z : ℤ) (hz : 1 < |z|) (x : Vec F n) :
    ∃ p, divProg F c bits junk false (.int z : Divisor F n) = .ok p ∧ (p.start C fun _ => x).All
      fun r => ∃ v tr, r = .ok (⟨.plain (.pub v v), false⟩, tr) ∧ ∀ i, v i = 0 := by
  have hz0 : z ≠ 0 := by rintro rfl; simp at hz
  have he : encode c false (1 / (z : ℚ)) = 0 := by
    obtain ⟨a1, -, -⟩ := toInt_spec (1 / (z : ℚ))
    have hzq : (1 : ℚ) < |(z : ℚ)| := by exact_mod_cast hz
    have : |1 / (z : ℚ)| < 1 := by rw [abs_div, abs_one, div_lt_one (by linarith)]; exact hzq
    have h : (|toInt (1 / (z : ℚ))| : ℚ) < 1 := lt_of_le_of_lt a1 this
    have h' : |toInt (1 / (z : ℚ))| < 1 := by exact_mod_cast h
    simp only [encode, Bool.false_eq_true, if_false]
    exact Int.abs_lt_one_iff.1 h'
  refine ⟨timesProg F false (fun _ => (encode c false (1 / (z : ℚ)) : ZMod F.modulus), false), ?_, ?_⟩
  · unfold divProg multiplier
    dsimp only
    rw [if_neg hz0]
    rfl
  · refine All.mono ?_ (times_run R.base R.pos R.inter R.ready R.lo R.cfg false _ _)
    rintro r ⟨v, tr, rfl, h⟩
    refine ⟨v, tr, rfl, fun i => ?_⟩
    simp only [Bool.and_self, Bool.false_eq_true, if_false] at h
    rw [h]
    show x i * ((encode c false (1 / (z : ℚ)) : ℤ) : ZMod F.modulus) = _
    rw [he]
    simp

end

/-- **The reciprocal fails for small numbers** in int100: that of one unit does not fit the native type, and the result is whatever
the conversion gives. -/
theorem recip_small_false (junk : ZMod (crt int100Modulus).modulus) :
    recipPublic (crt int100Modulus) fixed100 32 junk true (fun _ : Fin 1 => 1) = .ok fun _ => junk := by
  have hd : decodePond (crt int100Modulus) fixed100 true (1 : ZMod (crt int100Modulus).modulus) = 1 / 2 ^ 16 := by
    have h := pond_decode_int library_fixed.2.2.2.2.1 1 (by norm_num [Config.boundSingle, fixed100]) (by norm_num [Config.boundSingle, fixed100]) true
    rw [Int.cast_one] at h
    rw [h]
    norm_num [Config.scale, fixed100]
  have he : encode fixed100 true ((1 / 2 ^ 16 : ℚ)⁻¹) = 2 ^ 32 := by
    have : (((1 / 2 ^ 16 : ℚ)⁻¹) * (fixed100.scale : ℚ)) = ((2 ^ 32 : ℤ) : ℚ) := by norm_num [Config.scale, fixed100]
    simp only [encode, if_true]
    rw [this, toInt_intCast]
  unfold recipPublic
  simp only [if_true]
  congr 1
  funext i
  rw [hd, if_neg (by norm_num), he]
  unfold conv
  rw [if_neg (by norm_num)]

/-- The default configuration meets the hypotheses, with int64 and with int100. -/
theorem div_ready : (∃ C, DivReady (native 64) .native fixed64 C 64) ∧ ∃ C, DivReady (crt int100Modulus) .crt fixed100 C 32 := by
  obtain ⟨⟨C, hC⟩, l1, h1, l2, h2, ⟨C', hC'⟩⟩ := library_fixed
  have h := library_configs
  refine ⟨⟨C, by decide, by norm_num [native], rfl, h.2.2.2.2.2.2.2, l1, h1, hC, by norm_num [Config.boundSingle, fixed64]⟩,
    ⟨C', by decide, by norm_num [crt, int100Modulus], rfl, h.2.2.2.2.2.2.1, l2, h2, hC', by norm_num [Config.boundSingle, fixed100]⟩⟩

/-- A tensor divided by 3: within `|x| + 4/3` units. -/
example (junk : ZMod (native 64).modulus) : ∃ C p, divProg (native 64) fixed64 64 junk true (.int 3 : Divisor (native 64) 2) = .ok p ∧
    (p.start C fun _ i => (encode fixed64 true (![10, -7 / 2] i) : ZMod (native 64).modulus)).All
      fun r => ∃ v tr, r = .ok (⟨.plain (.pub v v), true⟩, tr) ∧
        ∀ i, |decodePond (native 64) fixed64 true (v i) - ![10, -7 / 2] i / (3 : ℤ)| ≤ (|![10, -7 / 2] i| + 1 / |((3 : ℤ) : ℚ)| + 1) / fixed64.scale := by
  obtain ⟨⟨C, R⟩, -⟩ := div_ready
  obtain ⟨p, h⟩ := div_int_close R junk 3 (by decide) ![10, -7 / 2] (by
    intro i
    fin_cases i <;> norm_num [fixed64, Config.scale, abs_lt])
  exact ⟨C, p, h⟩

/-- 700 divided by 7000 is 0 or 1/6561. -/
example (junk : ZMod (native 64).modulus) : ∃ C p, divProg (native 64) fixed64 64 junk true (.int 7000 : Divisor (native 64) 1) = .ok p ∧
    (p.start C fun _ _ => (encode fixed64 true 700 : ZMod (native 64).modulus)).All
      fun r => ∃ v tr, r = .ok (⟨.plain (.pub v v), true⟩, tr) ∧
        ∀ i, decodePond (native 64) fixed64 true (v i) = 0 ∨ decodePond (native 64) fixed64 true (v i) = 1 / fixed64.scale := by
  obtain ⟨⟨C, R⟩, -⟩ := div_ready
  exact ⟨C, div_large_false R junk 7000 (by norm_num [fixed64, Config.scale]) (by norm_num [Config.boundSingle, fixed64]) _⟩

/-- The public number 5/2 in the default configuration, up to half a unit. -/
theorem five_halves : decodePond (native 64) fixed64 true ((16402 : ℤ) : ZMod (native 64).modulus) = 16402 / 6561 := by
  rw [pond_decode_int library_fixed.2.2.1 16402 (by norm_num [Config.boundSingle, fixed64]) (by norm_num [Config.boundSingle, fixed64]) true]
  norm_num [Config.scale, fixed64]

/-- Tensors divided by a public tensor, its reciprocal and its root. -/
example (junk : ZMod (native 64).modulus) :
    (∃ C p, divProg (native 64) fixed64 64 junk true (.pub (fun _ : Fin 1 => ((16402 : ℤ) : ZMod _)) true) = .ok p ∧
      (p.start C fun _ _ => (encode fixed64 true (-100) : ZMod (native 64).modulus)).All fun r => ∃ v tr, r = .ok (⟨.plain (.pub v v), true⟩, tr) ∧
        ∀ i, |decodePond (native 64) fixed64 true (v i) + 100 / (16402 / 6561)| ≤ 102 / 6561) ∧
    (∃ C p, divProg (native 64) fixed64 64 junk false (.pub (fun _ : Fin 1 => ((16402 : ℤ) : ZMod _)) true) = .ok p ∧
      (p.start C fun _ _ => (encode fixed64 false 100 : ZMod (native 64).modulus)).All fun r => ∃ v tr, r = .ok (⟨.plain (.pub v v), true⟩, tr) ∧
        ∀ i, |decodePond (native 64) fixed64 true (v i) - 100 / (16402 / 6561)| ≤ 100 / 6561) ∧
    (∃ r, recipPublic (native 64) fixed64 64 junk true (fun _ : Fin 1 => ((16402 : ℤ) : ZMod _)) = .ok r ∧
      |decodePond (native 64) fixed64 true (r 0) - 6561 / 16402| < 1 / 6561) ∧
    ∃ r, sqrtPublic (native 64) fixed64 64 junk true (fun _ : Fin 1 => ((16402 : ℤ) : ZMod _)) = .ok r ∧
      ((decodePond (native 64) fixed64 true (r 0) : ℚ) : ℝ) ≤ Real.sqrt ((16402 / 6561 : ℚ) : ℝ) := by
  obtain ⟨⟨C, R⟩, -⟩ := div_ready
  refine ⟨?_, ?_, ?_, ?_⟩
  · obtain ⟨p, hp, h⟩ := div_public_close (n := 1) R junk (fun _ => ((16402 : ℤ) : ZMod _)) (fun _ => -100)
      (fun _ => by rw [five_halves]; norm_num) (fun _ => by rw [five_halves]; norm_num [fixed64, abs_lt])
      (fun _ => by rw [five_halves]; norm_num [fixed64, Config.scale, abs_lt])
    refine ⟨C, p, hp, All.mono ?_ h⟩
    rintro r ⟨v, tr, rfl, hv⟩
    refine ⟨v, tr, rfl, fun i => ?_⟩
    have := hv i
    rw [five_halves] at this
    norm_num [fixed64, Config.scale, abs_le] at this ⊢
    constructor <;> linarith
  · obtain ⟨p, hp, h⟩ := div_public_unscaled_close (n := 1) R junk (fun _ => ((16402 : ℤ) : ZMod _)) (fun _ => 100)
      (fun _ => by rw [five_halves]; norm_num) (fun _ => by rw [five_halves]; norm_num [fixed64, abs_lt])
      (fun _ => by rw [five_halves]; norm_num [fixed64, Config.scale, abs_lt])
    refine ⟨C, p, hp, All.mono ?_ h⟩
    rintro r ⟨v, tr, rfl, hv⟩
    refine ⟨v, tr, rfl, fun i => ?_⟩
    have := hv i
    rw [five_halves] at this
    norm_num [fixed64, Config.scale, abs_le] at this ⊢
    constructor <;> linarith
  · obtain ⟨r, hr, h⟩ := recip_public_close (n := 1) R.base R.holds R.bits junk (fun _ => ((16402 : ℤ) : ZMod _))
    refine ⟨r, hr, ?_⟩
    have := (h 0 (by rw [five_halves]; norm_num) (by rw [five_halves]; norm_num [fixed64, abs_lt])).1
    rw [five_halves] at this
    norm_num [fixed64, Config.scale] at this ⊢
    exact this
  · obtain ⟨r, hr, h⟩ := sqrt_public_close (n := 1) R.base R.holds R.bits junk (fun _ => ((16402 : ℤ) : ZMod _))
    refine ⟨r, hr, ?_⟩
    have := (h 0 (by rw [five_halves]; norm_num) (by rw [five_halves]; norm_num [fixed64])).1
    rw [five_halves] at this
    exact this

end Verif.Pond
