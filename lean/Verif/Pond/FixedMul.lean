import Verif.Pond.TruncProps

/-!
# C14 (Pond): fixed-point multiplication end to end

Encode, share, multiply with Beaver triples, truncate, reveal, decode.
-/

namespace Verif.Pond

open Verif.Fixed RandM

/-- What rescaling does to each element: an integer `v` of double precision becomes
`⌊v/scale⌋` or `⌊v/scale⌋ + 1`. -/
def TruncRel (F : Factory) (c : Config) (sc : Bool) (n : ℕ) (x z : Vec F n) : Prop :=
  ∀ i (v : ℤ), x i = (v : ZMod F.modulus) → -(rotation c sc : ℤ) ≤ v → v < rotation c sc →
    ∃ e : ℤ, (e = 0 ∨ e = 1) ∧ z i = ((v / c.scale + e : ℤ) : ZMod F.modulus)

theorem rotation_le (c : Config) (sc : Bool) : rotation c sc ≤ c.boundDouble := by
  unfold rotation; split
  · exact le_refl _
  · exact Nat.div_le_self _ _

/-- The interactive truncation, as packaged for Pond programs, meets `TruncRel` for public and
private values, for every mask. -/
theorem pondCfg_sound {F : Factory} {b : Backend} {c : Config} {C : Cfg (Vec F)}
    (hb : 0 < c.base) (hF : 0 < F.modulus) (hni : c.noninteractive = false)
    (hready : TruncReady F c) (hlo : F.lo ≤ -(c.boundDouble : ℤ))
    (hC : pondCfg F b c = some C) : C.Sound (TruncRel F c) := by
  unfold pondCfg at hC
  cases ht : tensorTruncate F b c.base c.pFrac with
  | none => rw [ht] at hC; cases hC
  | some tr =>
    rw [ht] at hC
    simp only [hni] at hC
    cases hi : Helpers.inverse c.scale F.modulus with
    | none => rw [hi] at hC; simp at hC
    | some inv =>
      rw [hi] at hC
      simp only [hready.mask, if_true, Option.some.injEq] at hC
      cases hC
      have hB : (0 : ℤ) < c.boundDouble := by
        have : 0 < c.boundDouble := Nat.pow_pos hb
        exact_mod_cast this
      constructor
      · intro sc n x i v hv h0 h1
        have hle : (rotation c sc : ℤ) ≤ c.boundDouble := by exact_mod_cast rotation_le c sc
        refine ⟨0, Or.inl rfl, ?_⟩
        show tr (x i) = _
        have room := hready.room v 0 (by linarith) (by linarith) (le_refl _) (by positivity)
        rw [tensorTruncate_eq hF ht, hv, F.rep_cast v (by linarith) (by linarith [room.2])]
        simp [Config.scale]
      · intro sc n p
        show ((drawMasks c.maskBits n).bind _).All _
        rw [all_bind]
        refine All.mono ?_ (drawMasks_lt c.maskBits n)
        intro r hr i v hv h0 h1
        obtain ⟨e, he, _, h⟩ := interactive_truncation hb hF hready hi sc ⟨p.x0 i, p.x1 i⟩ v hv h0 h1
          (r i) (hr i)
        exact ⟨e, he, h⟩

/-- Multiply two private fixed-point inputs and reveal the product. -/
def mulProg (F : Factory) (n : ℕ) : Prog (Vec F) (fun _ : Bool => n) [] n :=
  .step (.input false true) <|
  .step (.input true true) <|
  .step (.bilin (s := n) (u := n) (t := n) .mul AddMonoidHom.mul (.there .here) .here) <|
  .step (.reveal .here) (.ret .here)

/-- It never raises and reveals a public scaled tensor. -/
example (F : Factory) (n : ℕ) : (mulProg F n).ty .nil = .ok (.pub, true) := rfl

/-- Integer part of the error analysis. -/
theorem product_error {s : ℚ} (hs : 0 < s) {q1 q2 e1 e2 : ℚ}
    (h1 : |e1 - q1 * s| < 1) (h2 : |e2 - q2 * s| < 1) (h2' : |e2| ≤ |q2| * s) :
    |e1 * e2 - q1 * q2 * s ^ 2| ≤ (|q1| + |q2|) * s := by
  have : e1 * e2 - q1 * q2 * s ^ 2 = (e1 - q1 * s) * e2 + (q1 * s) * (e2 - q2 * s) := by ring
  rw [this]
  calc _ ≤ |(e1 - q1 * s) * e2| + |(q1 * s) * (e2 - q2 * s)| := abs_add_le _ _
    _ = |e1 - q1 * s| * |e2| + |q1| * s * |e2 - q2 * s| := by
        rw [abs_mul, abs_mul, abs_mul, abs_of_pos hs]
    _ ≤ 1 * (|q2| * s) + |q1| * s * 1 := by gcongr
    _ = _ := by ring

/-- **C14, Pond.** Encoding two vectors of rationals whose element-wise product is in range,
sharing, multiplying, truncating interactively, revealing and decoding returns, at both servers and
for every share, triple and truncation mask, each product within `(|q1| + |q2| + 1) / scale`. -/
theorem pond_fixed_mul {F : Factory} {b : Backend} {c : Config} {C : Cfg (Vec F)}
    (hb : 0 < c.base) (hF : 0 < F.modulus) (hni : c.noninteractive = false)
    (hready : TruncReady F c) (hlo : F.lo ≤ -(c.boundDouble : ℤ)) (hh : HoldsShifted F c)
    (hC : pondCfg F b c = some C) {n : ℕ} (q1 q2 : Fin n → ℚ)
    (hq : ∀ i, |q1 i * q2 i| < (c.base : ℚ) ^ c.pInt - 1 / c.scale) :
    ((mulProg F n).start C fun j i => (encode c true ((if j then q2 else q1) i) : ZMod F.modulus)).All
      fun r => ∃ v0 v1 tr, r = .ok (⟨.plain (.pub v0 v1), true⟩, tr) ∧ v0 = v1 ∧
        ∀ i, |decodePond F c true (v0 i) - q1 i * q2 i| ≤ (|q1 i| + |q2 i| + 1) / c.scale := by
  have hs : (0 : ℚ) < c.scale := by unfold Config.scale; positivity
  have hsz : (0 : ℤ) < c.scale := by exact_mod_cast hs
  have hS := pondCfg_sound hb hF hni hready hlo hC
  have H1 := program_refines C hS (fun (j : Bool) i =>
    (encode c true ((if j then q2 else q1) i) : ZMod F.modulus)) (mulProg F n)
  have H2 := program_flags C (fun (j : Bool) i =>
    (encode c true ((if j then q2 else q1) i) : ZMod F.modulus)) (mulProg F n)
  refine All.mono ?_ (All.and H1 H2)
  rintro (e | ⟨v, tr⟩) ⟨h1, h2⟩
  · exact absurd h2 (by simp [mulProg, Prog.ty, Op.ty, Env.get, Kind.join])
  have h2' : (.ok (.pub, true) : Except Err _) = .ok (v.body.kind, v.sc) := h2
  simp only [Except.ok.injEq, Prod.mk.injEq] at h2'
  obtain ⟨body, sc⟩ := v
  obtain ⟨hk, rfl⟩ := h2'
  obtain ⟨z, hz, hr⟩ := h1 _ _ rfl
  match body, hk, hr with
  | .plain (.pub v0 v1), _, hr =>
    obtain ⟨rfl, rfl⟩ : v0 = z ∧ v1 = z := hr
    refine ⟨_, _, tr, rfl, rfl, fun i => ?_⟩
    obtain ⟨_, rfl, _, rfl, ⟨p, psc⟩, ⟨_, hp⟩, _, rfl, hret⟩ := hz
    simp only [Env.get, Prod.mk.injEq, and_self, if_true] at hp hret
    obtain ⟨rfl, -⟩ := hret
    obtain ⟨a1, a2, -⟩ := toInt_spec (q1 i * c.scale)
    obtain ⟨b1, b2, -⟩ := toInt_spec (q2 i * c.scale)
    set e1 := encode c true (q1 i) with he1
    set e2 := encode c true (q2 i) with he2
    have hd1 : e1 = toInt (q1 i * c.scale) := by simp [he1, encode]
    have hd2 : e2 = toInt (q2 i * c.scale) := by simp [he2, encode]
    rw [← hd1] at a1 a2
    rw [← hd2] at b1 b2
    rw [abs_mul, abs_of_pos hs] at a1 b1
    -- range of the integer product
    have hbd : (c.boundSingle : ℚ) = (c.base : ℚ) ^ c.pInt * c.scale := by
      unfold Config.scale Config.boundSingle; push_cast; rw [pow_add]
    have hdd : (c.boundDouble : ℚ) = c.boundSingle * c.scale := by
      unfold Config.scale Config.boundSingle Config.boundDouble; push_cast; rw [← pow_add]; ring_nf
    have hv : |((e1 * e2 : ℤ) : ℚ)| < (c.boundSingle - 1) * c.scale := by
      push_cast
      rw [abs_mul]
      calc _ ≤ (|q1 i| * c.scale) * (|q2 i| * c.scale) := by gcongr
        _ = |q1 i * q2 i| * c.scale * c.scale := by rw [abs_mul]; ring
        _ < ((c.base : ℚ) ^ c.pInt - 1 / c.scale) * c.scale * c.scale := by
            have := hq i; gcongr
        _ = _ := by rw [hbd]; field_simp
    have hvz : |e1 * e2| < (c.boundSingle - 1 : ℤ) * c.scale := by exact_mod_cast hv
    have hdz : (c.boundDouble : ℤ) = c.boundSingle * c.scale := by exact_mod_cast hdd
    obtain ⟨hv0, hv1⟩ := abs_lt.mp hvz
    have hrot : (rotation c true : ℤ) = c.boundDouble := by simp [rotation]
    obtain ⟨e, he, hpe⟩ := hp i (e1 * e2) (by simp [e1, e2]) (by rw [hrot, hdz]; linarith)
      (by rw [hrot, hdz]; linarith)
    have hfl0 : -(c.boundSingle : ℤ) ≤ e1 * e2 / c.scale + e := by
      have : -(c.boundSingle : ℤ) ≤ e1 * e2 / c.scale :=
        (Int.le_ediv_iff_mul_le hsz).mpr (by linarith)
      omega
    have hfl1 : e1 * e2 / c.scale + e < c.boundSingle := by
      have : e1 * e2 / c.scale < (c.boundSingle - 1 : ℤ) :=
        (Int.ediv_lt_iff_lt_mul hsz).mpr (by linarith)
      omega
    rw [hpe, pond_decode_int hh _ hfl0 hfl1]
    simp only [if_true]
    have herr := product_error hs a2 b2 b1
    have hdiv := Int.mul_ediv_add_emod (e1 * e2) c.scale
    have hm0 := Int.emod_nonneg (e1 * e2) hsz.ne'
    have hm1 := Int.emod_lt_of_pos (e1 * e2) hsz
    have hfl : |((e1 * e2 / c.scale + e : ℤ) : ℚ) * c.scale - e1 * e2| ≤ c.scale := by
      have : |(e1 * e2 / c.scale + e) * c.scale - e1 * e2| ≤ (c.scale : ℤ) := by
        rw [abs_le]; rcases he with rfl | rfl <;> constructor <;> nlinarith
      exact_mod_cast this
    have key : |((e1 * e2 / c.scale + e : ℤ) : ℚ) * c.scale - q1 i * q2 i * c.scale ^ 2|
        ≤ (|q1 i| + |q2 i| + 1) * c.scale := by
      calc _ = |(((e1 * e2 / c.scale + e : ℤ) : ℚ) * c.scale - e1 * e2)
            + ((e1 : ℚ) * e2 - q1 i * q2 i * c.scale ^ 2)| := by ring_nf
        _ ≤ _ := abs_add_le _ _
        _ ≤ c.scale + (|q1 i| + |q2 i|) * c.scale := add_le_add hfl herr
        _ = _ := by ring
    have hfin : ((e1 * e2 / c.scale + e : ℤ) : ℚ) / c.scale - q1 i * q2 i
        = (((e1 * e2 / c.scale + e : ℤ) : ℚ) * c.scale - q1 i * q2 i * c.scale ^ 2) / c.scale ^ 2 := by
      field_simp
    rw [hfin, abs_div, abs_of_pos (by positivity : (0 : ℚ) < (c.scale : ℚ) ^ 2), div_le_div_iff₀ (by positivity) hs]
    calc _ ≤ (|q1 i| + |q2 i| + 1) * c.scale * c.scale := by gcongr
      _ = _ := by ring

/-- Non-vacuity: `fixed64` on int64 and `fixed100` on int100 meet every hypothesis. -/
theorem library_fixed : (∃ C, pondCfg (native 64) .native fixed64 = some C) ∧
    (native 64).lo ≤ -(fixed64.boundDouble : ℤ) ∧ HoldsShifted (native 64) fixed64 ∧
    (crt int100Modulus).lo ≤ -(fixed100.boundDouble : ℤ) ∧ HoldsShifted (crt int100Modulus) fixed100 ∧
    ∃ C, pondCfg (crt int100Modulus) .crt fixed100 = some C := by
  have h := library_configs
  have r1 := h.2.2.2.2.2.2.2
  have r2 := h.2.2.2.2.2.2.1
  obtain ⟨i1, hi1⟩ := inverse_isSome_of_coprime (s := fixed64.scale) (m := (native 64).modulus)
    (by norm_num [native]) (by simp only [Config.scale, fixed64, native]; decide +kernel)
  obtain ⟨i2, hi2⟩ := inverse_isSome_of_coprime (s := fixed100.scale) (m := int100Modulus)
    (by norm_num [int100Modulus]) (by simp only [Config.scale, fixed100, int100Modulus]; decide +kernel)
  refine ⟨?_, by norm_num [native, Config.boundDouble, fixed64],
    (native_holds 64 (by norm_num) fixed64 (by norm_num [Config.boundSingle, fixed64])).1,
    by norm_num [crt, int100Modulus, Config.boundDouble, fixed100],
    (crt_holds _ fixed100 (by norm_num [Config.boundSingle, fixed100, int100Modulus])
      (by norm_num [Config.boundSingle, fixed100])), ?_⟩
  · have ht : tensorTruncate (native 64) .native fixed64.base fixed64.pFrac
        = some (divTrunc (native 64) (fixed64.base ^ fixed64.pFrac) i1) := by
      unfold tensorTruncate
      rw [if_neg (by simp [fixed64])]
      have hi1' : Helpers.inverse ((fixed64.base ^ fixed64.pFrac : ℕ) : ℤ)
        ((native 64).modulus : ℤ) = some i1 := hi1
      rw [hi1']; rfl
    unfold pondCfg
    rw [ht]; simp only [hi1, r1.mask, if_true]
    exact ⟨_, rfl⟩
  · have ht : tensorTruncate (crt int100Modulus) .crt fixed100.base fixed100.pFrac
        = some (divTrunc (crt int100Modulus) (fixed100.base ^ fixed100.pFrac) i2) := by
      unfold tensorTruncate
      rw [if_neg (by simp)]
      have hi2' : Helpers.inverse ((fixed100.base ^ fixed100.pFrac : ℕ) : ℤ)
        ((crt int100Modulus).modulus : ℤ) = some i2 := hi2
      rw [hi2']; rfl
    have hi2' : Helpers.inverse (fixed100.scale : ℤ) ((crt int100Modulus).modulus : ℤ) = some i2 := hi2
    unfold pondCfg
    rw [ht]; simp only [hi2', r2.mask, if_true]
    exact ⟨_, rfl⟩

/-! ## Secrecy of truncation -/

/-- Local truncation reveals nothing, so **C03** (`program_secrecy_partial`) applies to Pond with
`noninteractive` configurations. -/
theorem pondCfg_hides {F : Factory} {b : Backend} {c : Config} {C : Cfg (Vec F)}
    (hni : c.noninteractive = true) (hC : pondCfg F b c = some C) (σ : Server) : C.Hides σ := by
  unfold pondCfg at hC
  cases ht : tensorTruncate F b c.base c.pFrac with
  | none => rw [ht] at hC; cases hC
  | some tr =>
    rw [ht] at hC
    have hf : truncNoninteractive F b c
        = some fun p => ⟨tr p.x0, rsubZero F b (tr (rsubZero F b p.x1))⟩ := by
      unfold truncNoninteractive; rw [ht]; rfl
    simp only [hni, if_true, hf, Option.map_some, Option.some.injEq] at hC
    cases hC
    intro sc n p q h
    refine .pure ⟨?_, rfl⟩
    cases σ <;> simp only [Priv.of] at h ⊢ <;> rw [h]

/-- **C55.** Interactive truncation hides up to the statistical gap: server 1, who holds the share
`a1` and receives the masked share, cannot tell two values `x`, `x'` apart except with advantage
`|x - x'| / 2^maskBits`. For every set `A` of observations, the number of masks leading into `A`
differs by at most `|x - x'|`. -/
theorem interactive_truncation_hides {F : Factory} (c : Config) (sc : Bool)
    (a1 : ZMod F.modulus) (x x' : ℤ) (A : ZMod F.modulus → Prop) [DecidablePred A] :
    ((Finset.range (2 ^ c.maskBits)).filter fun r => A (maskedShare F c sc (x - a1) r)).card
      ≤ ((Finset.range (2 ^ c.maskBits)).filter fun r => A (maskedShare F c sc (x' - a1) r)).card
        + (x - x').natAbs := by
  set N := 2 ^ c.maskBits
  set P : ℤ → Prop := fun v => A ((v : ZMod F.modulus) - a1 + (rotation c sc : ZMod _)) with hP
  have key : ∀ y : ℤ, ((Finset.range N).filter fun r => A (maskedShare F c sc (y - a1) r)).card
      = ((Finset.Ico y (y + N)).filter P).card := by
    intro y
    apply Finset.card_bij (fun (r : ℕ) _ => y + (r : ℤ))
    · intro r hr
      simp only [Finset.mem_filter, Finset.mem_range, Finset.mem_Ico] at hr ⊢
      refine ⟨⟨by omega, by omega⟩, ?_⟩
      have h := hr.2
      simp only [hP, maskedShare] at h ⊢
      convert h using 1
      push_cast; ring
    · intro r _ r' _ h; omega
    · intro v hv
      simp only [Finset.mem_filter, Finset.mem_Ico] at hv
      refine ⟨(v - y).toNat, ?_, by omega⟩
      simp only [Finset.mem_filter, Finset.mem_range]
      refine ⟨by omega, ?_⟩
      have h := hv.2
      simp only [hP, maskedShare] at h ⊢
      have e : (((v - y).toNat : ℕ) : ZMod F.modulus) = (v : ZMod F.modulus) - y := by
        rw [← Int.cast_natCast, Int.toNat_of_nonneg (by omega)]; push_cast; ring
      rw [e]
      convert h using 1
      ring
  rw [key, key]
  have hsub : (Finset.Ico x (x + N)).filter P ⊆ (Finset.Ico x' (x' + N)).filter P ∪
      (Finset.Ico x (x + N) \ Finset.Ico x' (x' + N)) := by
    intro v hv
    simp only [Finset.mem_union, Finset.mem_filter, Finset.mem_sdiff] at hv ⊢
    tauto
  refine (Finset.card_le_card hsub).trans ((Finset.card_union_le _ _).trans ?_)
  refine Nat.add_le_add_left ?_ _
  rcases le_total x x' with h | h
  · have : Finset.Ico x (x + N) \ Finset.Ico x' (x' + N) ⊆ Finset.Ico x x' := by
      intro v; simp only [Finset.mem_sdiff, Finset.mem_Ico]; omega
    refine (Finset.card_le_card this).trans ?_
    rw [Int.card_Ico]; omega
  · have : Finset.Ico x (x + N) \ Finset.Ico x' (x' + N) ⊆ Finset.Ico (x' + N) (x + N) := by
      intro v; simp only [Finset.mem_sdiff, Finset.mem_Ico]; omega
    refine (Finset.card_le_card this).trans ?_
    rw [Int.card_Ico]; omega

/-- ... and for values in the double-precision range that is a fraction of at most `2^-gap` of the
masks. -/
theorem interactive_gap (c : Config) (x x' : ℤ) (hx : |x| ≤ c.boundDouble) (hx' : |x'| ≤ c.boundDouble) :
    (x - x').natAbs * 2 ^ c.gap ≤ 2 ^ c.maskBits := by
  have h : c.boundDouble ≤ 2 ^ Nat.clog 2 c.boundDouble := Nat.le_pow_clog (by norm_num) _
  have h1 : (x - x').natAbs ≤ 2 * c.boundDouble := by
    have := abs_le.mp hx; have := abs_le.mp hx'; omega
  calc _ ≤ 2 * 2 ^ Nat.clog 2 c.boundDouble * 2 ^ c.gap := by gcongr; omega
    _ = _ := by unfold Config.maskBits; rw [pow_add, pow_add]; ring

/-- The bound is meaningful: with `fixed64` two values one apart are not told apart except with
probability at most `2^-58`; and the masked share is not independent of the value (mask 0 gives
different observations), so the hiding is only statistical. -/
example : maskedShare (native 64) fixed64 true (0 - 0) 0 ≠ maskedShare (native 64) fixed64 true (1 - 0) 0 := by
  intro h
  simp only [maskedShare, sub_zero, Nat.cast_zero, add_zero] at h
  have : (0 : ZMod (2 ^ 64)) = 1 := by
    have h' := add_right_cancel h
    exact h'
  exact absurd this (by decide)

end Verif.Pond
