import Verif.Pond.DividePublic
import Verif.Pond.DivideProps

/-!
# Accuracy of the division of public tensors (C83)
-/

namespace Verif.Pond

open Verif.Fixed RandM

/-- Running `timesPublicProg`: it does not raise, both servers compute the same tensor, and this is the rescaled product, or
the product if one of the factors is not scaled. -/
theorem times_public_run {F : Factory} {b : Backend} {c : Config} {C : Cfg (Vec F)} (hb : 0 < c.base) (hF : 0 < F.modulus)
    (hni : c.noninteractive = false) (hready : TruncReady F c) (hlo : F.lo ≤ -(c.boundDouble : ℤ)) (hC : pondCfg F b c = some C)
    {n : ℕ} (x m : Vec F n × Bool) :
    ((timesPublicProg F x m).start C Empty.rec).All fun r => ∃ v tr, r = .ok (⟨.plain (.pub v v), x.2 || m.2⟩, tr) ∧
      if x.2 && m.2 then TruncRel F c true n (x.1 * m.1) v else v = x.1 * m.1 := by
  have hS := pondCfg_sound hb hF hni hready hlo hC
  have H1 := program_refines C hS (fun e : Empty => e.elim) (timesPublicProg F x m)
  have H2 := program_flags C (fun e : Empty => e.elim) (timesPublicProg F x m)
  have he : (Empty.rec : (e : Empty) → Vec F n) = fun e : Empty => e.elim := funext fun e => e.elim
  rw [he]
  refine All.mono ?_ (All.and H1 H2)
  rintro (e | ⟨v, tr⟩) ⟨h1, h2⟩
  · exact absurd h2 (by simp [timesPublicProg, Prog.ty, Op.ty, Env.get, Kind.join])
  have h2' : (.ok (.pub, x.2 || m.2) : Except Err _) = .ok (v.body.kind, v.sc) := h2
  simp only [Except.ok.injEq, Prod.mk.injEq] at h2'
  obtain ⟨body, sc⟩ := v
  obtain ⟨hk, rfl⟩ := h2'
  obtain ⟨z, hz, hr⟩ := h1 _ _ rfl
  match body, hk, hr with
  | .plain (.pub v0 v1), _, hr =>
    obtain ⟨rfl, rfl⟩ : v0 = z ∧ v1 = z := hr
    refine ⟨_, tr, rfl, ?_⟩
    obtain ⟨_, rfl, _, rfl, ⟨p, psc⟩, ⟨_, hp⟩, hret⟩ := hz
    simp only [Env.get, Prod.mk.injEq] at hp hret
    obtain ⟨rfl, -⟩ := hret
    cases hx : x.2 <;> cases hm : m.2 <;> simp_all <;> exact hp

section
variable {F : Factory} {b : Backend} {c : Config} {C : Cfg (Vec F)} {bits n : ℕ}

/-- The multiplier of a public divisor. -/
theorem multiplier_public (R : DivReady F b c C bits) (junk : ZMod F.modulus) (xsc : Bool) (y : Vec F n)
    (h0 : ∀ i, decodePond F c true (y i) ≠ 0) (h1 : ∀ i, |1 / decodePond F c true (y i)| < (c.base : ℚ) ^ c.pInt) :
    multiplier F c bits junk xsc (.pub y true) =
      .ok (fun i => (encode c true (1 / decodePond F c true (y i)) : ZMod F.modulus), true) := by
  unfold multiplier recipPublic
  simp only [if_true, Except.map]
  refine congrArg Except.ok (Prod.ext (funext fun i => ?_) rfl)
  dsimp only
  rw [if_neg (h0 i), inv_eq_one_div, conv_in junk R.bits (encode_range R.base _ (h1 i))]

/-- The same product for a public dividend. -/
theorem times_public_close (R : DivReady F b c C bits) (x : Fin n → ℚ) (m : Fin n → ℚ)
    (hx : ∀ i, |x i * m i| < (c.base : ℚ) ^ c.pInt - 1 / c.scale) :
    ((timesPublicProg F (fun i => (encode c true (x i) : ZMod F.modulus), true) (fun i => (encode c true (m i) : ZMod F.modulus), true)).start C
      Empty.rec).All
      fun r => ∃ v tr, r = .ok (⟨.plain (.pub v v), true⟩, tr) ∧
        ∀ i, |decodePond F c true (v i) - x i * m i| ≤ (|x i| + |m i| + 1) / c.scale := by
  refine All.mono ?_ (times_public_run R.base R.pos R.inter R.ready R.lo R.cfg _ _)
  rintro r ⟨v, tr, rfl, h⟩
  refine ⟨v, tr, rfl, fun i => ?_⟩
  simp only [Bool.and_self, if_true] at h
  obtain ⟨h0, h1⟩ := product_range R.base (hx i)
  obtain ⟨e, he, hv⟩ := h i _ (by simp) h0 h1
  exact rescaled_close R.base R.holds he (hx i) hv

/-- **C83, Pond (public tensor divided by an integer).** -/
theorem div_public_int_close (R : DivReady F b c C bits) (junk : ZMod F.modulus) (z : ℤ) (hz : z ≠ 0) (x : Fin n → ℚ)
    (hx : ∀ i, |x i / z| < (c.base : ℚ) ^ c.pInt - 1 / c.scale) :
    ∃ p, divPublicProg F c bits junk (fun i => (encode c true (x i) : ZMod F.modulus), true) (.int z : Divisor F n) = .ok p ∧
      (p.start C Empty.rec).All fun r => ∃ v tr, r = .ok (⟨.plain (.pub v v), true⟩, tr) ∧
        ∀ i, |decodePond F c true (v i) - x i / z| ≤ (|x i| + 1 / |(z : ℚ)| + 1) / c.scale := by
  refine ⟨timesPublicProg F (fun i => (encode c true (x i) : ZMod F.modulus), true) (fun _ => (encode c true (1 / (z : ℚ)) : ZMod F.modulus), true), ?_, ?_⟩
  · unfold divPublicProg multiplier
    dsimp only
    rw [if_neg hz]
    rfl
  · have := times_public_close R x (fun _ => 1 / (z : ℚ)) (fun i => by rw [mul_one_div]; exact hx i)
    simpa only [mul_one_div, abs_div, abs_one] using this

/-- **C83, Pond (public tensor divided by a public tensor)** of numbers that are not zero and whose reciprocals are in range. -/
theorem div_public_public_close (R : DivReady F b c C bits) (junk : ZMod F.modulus) (y : Vec F n) (x : Fin n → ℚ)
    (h0 : ∀ i, decodePond F c true (y i) ≠ 0) (h1 : ∀ i, |1 / decodePond F c true (y i)| < (c.base : ℚ) ^ c.pInt)
    (hx : ∀ i, |x i / decodePond F c true (y i)| < (c.base : ℚ) ^ c.pInt - 1 / c.scale) :
    ∃ p, divPublicProg F c bits junk (fun i => (encode c true (x i) : ZMod F.modulus), true) (.pub y true) = .ok p ∧
      (p.start C Empty.rec).All fun r => ∃ v tr, r = .ok (⟨.plain (.pub v v), true⟩, tr) ∧
        ∀ i, |decodePond F c true (v i) - x i / decodePond F c true (y i)| ≤
          (|x i| + 1 / |decodePond F c true (y i)| + 1) / c.scale := by
  refine ⟨timesPublicProg F (fun i => (encode c true (x i) : ZMod F.modulus), true) (fun i => (encode c true (1 / decodePond F c true (y i)) : ZMod F.modulus), true), ?_, ?_⟩
  · unfold divPublicProg
    rw [multiplier_public R junk true y h0 h1]
    rfl
  · have := times_public_close R x (fun i => 1 / decodePond F c true (y i)) (fun i => by rw [mul_one_div]; exact hx i)
    simpa only [mul_one_div, abs_div, abs_one] using this

/-- An integer times an encoded reciprocal. -/
theorem unscaled_close (R : DivReady F b c C bits) (x : ℤ) (m : ℚ) (hx : |x * m| < (c.base : ℚ) ^ c.pInt) {v : ZMod F.modulus}
    (hv : v = ((x * encode c true m : ℤ) : ZMod F.modulus)) : |decodePond F c true v - x * m| ≤ |(x : ℚ)| / c.scale := by
  have hs : (0 : ℚ) < c.scale := by have := R.base; unfold Config.scale; positivity
  obtain ⟨k1, k2, -⟩ := encode_error R.base m
  have hr : |x * encode c true m| < c.boundSingle := by
    have hbd : (c.boundSingle : ℚ) = (c.base : ℚ) ^ c.pInt * c.scale := by
      unfold Config.scale Config.boundSingle; push_cast; rw [pow_add]
    have : (|x * encode c true m| : ℚ) < c.boundSingle := by
      rw [hbd, abs_mul]
      rw [abs_div, abs_of_pos hs, div_le_iff₀ hs] at k2
      calc _ ≤ |(x : ℚ)| * (|m| * c.scale) := by gcongr
        _ = |x * m| * c.scale := by rw [← mul_assoc, ← abs_mul]
        _ < _ := by gcongr
    exact_mod_cast this
  obtain ⟨r0, r1⟩ := abs_lt.mp hr
  rw [hv, pond_decode_int R.holds _ r0.le r1]
  simp only [if_true]
  push_cast
  have : (x : ℚ) * encode c true m / c.scale - x * m = x * (encode c true m / c.scale - m) := by ring
  rw [this, abs_mul, ← mul_one_div |(x : ℚ)|]
  exact mul_le_mul_of_nonneg_left k1.le (abs_nonneg _)

/-- **C83, Pond (public integers divided by a public tensor).** The result is scaled, nothing is rescaled. -/
theorem div_public_public_unscaled_close (R : DivReady F b c C bits) (junk : ZMod F.modulus) (y : Vec F n) (x : Fin n → ℤ)
    (h0 : ∀ i, decodePond F c true (y i) ≠ 0) (h1 : ∀ i, |1 / decodePond F c true (y i)| < (c.base : ℚ) ^ c.pInt)
    (hx : ∀ i, |x i / decodePond F c true (y i)| < (c.base : ℚ) ^ c.pInt) :
    ∃ p, divPublicProg F c bits junk (fun i => (encode c false (x i) : ZMod F.modulus), false) (.pub y true) = .ok p ∧
      (p.start C Empty.rec).All fun r => ∃ v tr, r = .ok (⟨.plain (.pub v v), true⟩, tr) ∧
        ∀ i, |decodePond F c true (v i) - x i / decodePond F c true (y i)| ≤ |(x i : ℚ)| / c.scale := by
  refine ⟨timesPublicProg F (fun i => (encode c false (x i) : ZMod F.modulus), false) (fun i => (encode c true (1 / decodePond F c true (y i)) : ZMod F.modulus), true), ?_, ?_⟩
  · unfold divPublicProg
    rw [multiplier_public R junk false y h0 h1]
    rfl
  · refine All.mono ?_ (times_public_run R.base R.pos R.inter R.ready R.lo R.cfg _ _)
    rintro r ⟨v, tr, rfl, h⟩
    refine ⟨v, tr, rfl, fun i => ?_⟩
    simp only [Bool.false_and, Bool.false_eq_true, if_false] at h
    have := unscaled_close R (x i) (1 / decodePond F c true (y i)) (by rw [mul_one_div]; exact hx i) (v := v i) (by
      rw [h]
      simp [encode, toInt_intCast])
    rwa [mul_one_div] at this

/-- Public integers divided by an integer give zero, as private ones do. -/
theorem div_public_int_unscaled_false (R : DivReady F b c C bits) (junk : ZMod F.modulus) (z : ℤ) (hz : 1 < |z|) (x : Vec F n) :
    ∃ p, divPublicProg F c bits junk (x, false) (.int z : Divisor F n) = .ok p ∧
      (p.start C Empty.rec).All fun r => ∃ tr, r = .ok (⟨.plain (.pub 0 0), false⟩, tr) := by
  have hz0 : z ≠ 0 := by rintro rfl; simp at hz
  have he : encode c false (1 / (z : ℚ)) = 0 := by
    obtain ⟨a1, -, -⟩ := toInt_spec (1 / (z : ℚ))
    have hzq : (1 : ℚ) < |(z : ℚ)| := by exact_mod_cast hz
    have h2 : |1 / (z : ℚ)| < 1 := by rw [abs_div, abs_one, div_lt_one (by linarith)]; exact hzq
    have h3 : |(toInt (1 / (z : ℚ)) : ℚ)| < 1 := lt_of_le_of_lt a1 h2
    have h4 : |toInt (1 / (z : ℚ))| < 1 := by exact_mod_cast h3
    show toInt (1 / (z : ℚ)) = 0
    exact Int.abs_lt_one_iff.1 h4
  refine ⟨timesPublicProg F (x, false) (fun _ => (encode c false (1 / (z : ℚ)) : ZMod F.modulus), false), ?_, ?_⟩
  · unfold divPublicProg multiplier
    dsimp only
    rw [if_neg hz0]
    rfl
  · refine All.mono ?_ (times_public_run R.base R.pos R.inter R.ready R.lo R.cfg _ _)
    rintro r ⟨v, tr, rfl, h⟩
    refine ⟨tr, ?_⟩
    simp only [Bool.and_self, Bool.false_eq_true, if_false] at h
    have : v = 0 := by
      rw [h, he]
      funext i
      simp
    rw [this]
    rfl

/-- The same divisors are refused as for private tensors. -/
theorem div_public_errors (junk : ZMod F.modulus) (x : Vec F n × Bool) (d : Divisor F n) :
    (∃ p, divPublicProg F c bits junk x d = .ok p) ↔ (∃ z, z ≠ 0 ∧ d = .int z) ∨ ∃ y, d = .pub y true := by
  rw [← div_errors (c := c) (bits := bits) junk x.2 d]
  unfold divPublicProg divProg
  cases multiplier F c bits junk x.2 d <;> simp [Except.map]

end

/-- Ten and -3.5 divided by three in the default configuration. -/
example (junk : ZMod (native 64).modulus) : ∃ C p,
    divPublicProg (native 64) fixed64 64 junk (fun i => (encode fixed64 true (![10, -7 / 2] i) : ZMod (native 64).modulus), true)
      (.int 3 : Divisor (native 64) 2) = .ok p ∧
    (p.start C Empty.rec).All fun r => ∃ v tr, r = .ok (⟨.plain (.pub v v), true⟩, tr) ∧
        ∀ i, |decodePond (native 64) fixed64 true (v i) - ![10, -7 / 2] i / (3 : ℤ)| ≤ (|![10, -7 / 2] i| + 1 / |((3 : ℤ) : ℚ)| + 1) / fixed64.scale := by
  obtain ⟨⟨C, R⟩, -⟩ := div_ready
  obtain ⟨p, h⟩ := div_public_int_close R junk 3 (by decide) ![10, -7 / 2] (by
    intro i
    fin_cases i <;> norm_num [fixed64, Config.scale, abs_lt])
  exact ⟨C, p, h⟩

end Verif.Pond
