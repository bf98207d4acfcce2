import Verif.Sampling.Props
import Verif.Crt.Props
import Mathlib.Algebra.BigOperators.Fin
import Mathlib.Data.Fintype.Pi

/-! # Samplers of the tensor factories (C19) -/

namespace Verif.Sampling

variable {w : ℕ}

theorem toInt_ofNat_small (hw : 0 < w) {p : ℕ} (h : p < 2 ^ (w - 1)) :
    (BitVec.ofNat w p).toInt = p := by
  have h1 := Bits.toInt_ofInt (w := w) hw (i := (p : ℤ)) (by
    have : (0 : ℤ) ≤ 2 ^ (w - 1) := by positivity
    omega) (by exact_mod_cast h)
  rwa [BitVec.ofInt_natCast] at h1

/-! ## Native rings -/

theorem native_bounds (hw : 0 < w) : (BitVec.intMin w).toInt = -2 ^ (w - 1) ∧
    (BitVec.intMax w).toInt = 2 ^ (w - 1) - 1 := by
  refine ⟨?_, ?_⟩
  · rw [BitVec.toInt_intMin]
    have h2 : (2 : ℕ) ^ (w - 1) % 2 ^ w = 2 ^ (w - 1) :=
      Nat.mod_eq_of_lt (Nat.pow_lt_pow_right (by omega) (by omega))
    rw [h2]; push_cast; rfl
  · rw [BitVec.toInt_intMax]

/-- What the native samplers really do: every element but the largest has exactly one accepted word. -/
theorem native_count (hw : 2 ≤ w) (v : BitVec w) :
    Nat.card {raw // nativeUniform raw = some v} = if v = BitVec.intMax w then 0 else 1 := by
  obtain ⟨h1, h2⟩ := native_bounds (w := w) (by omega)
  have hp : (2 : ℤ) ≤ 2 ^ (w - 1) := by
    calc (2 : ℤ) = 2 ^ 1 := by norm_num
      _ ≤ 2 ^ (w - 1) := pow_le_pow_right₀ (by norm_num) (by omega)
  have hs := Bits.pow_split (w := w) (by omega)
  unfold nativeUniform
  rw [uniform_count (by omega)]
  have hv := Bits.toInt_range v
  have e : InRange (BitVec.intMin w) (BitVec.intMax w) v ↔ v ≠ BitVec.intMax w := by
    unfold InRange
    rw [ne_eq, ← BitVec.toInt_inj, h1, h2]
    omega
  have hspan : ((span (BitVec.intMin w) (BitVec.intMax w) : ℕ) : ℤ) = 2 ^ w - 1 := by
    unfold span; rw [h1, h2]; omega
  have hspan' : span (BitVec.intMin w) (BitVec.intMax w) = 2 ^ w - 1 := by
    have : (1 : ℕ) ≤ 2 ^ w := Nat.one_le_two_pow
    zify [this]; exact hspan
  have hd : 2 ^ w / span (BitVec.intMin w) (BitVec.intMax w) = 1 := by
    rw [hspan']
    have h4 : 4 ≤ 2 ^ w := by
      calc 4 = 2 ^ 2 := by norm_num
        _ ≤ 2 ^ w := Nat.pow_le_pow_right (by norm_num) hw
    exact Nat.div_eq_of_lt_le (by omega) (by omega)
  by_cases hc : v = BitVec.intMax w
  · rw [if_neg (by rw [e]; simp [hc]), if_pos hc]
  · rw [if_pos (e.2 hc), if_neg hc, hd]

/-- **C19 is false for native rings.** `maxval` is exclusive: the largest element is never drawn. -/
theorem native_sample_false (hw : 2 ≤ w) (raw : BitVec w) :
    nativeUniform raw ≠ some (BitVec.intMax w) := by
  intro h
  have hc := native_count hw (BitVec.intMax w)
  rw [if_pos rfl, Nat.card_eq_zero] at hc
  rcases hc with hc | hc
  · exact hc.false ⟨raw, h⟩
  · exact hc.false

theorem native_hits (hw : 2 ≤ w) (v : BitVec w) (hv : v ≠ BitVec.intMax w) :
    ∃ raw, nativeUniform raw = some v := by
  have hc := native_count hw v
  rw [if_neg hv] at hc
  obtain ⟨⟨raw, h⟩⟩ := (Nat.card_pos_iff.1 (hc.symm ▸ Nat.one_pos)).1
  exact ⟨raw, h⟩

/-- Hence a share does not hide its secret perfectly: for any two secrets there is a value of the share
`secret - mask` that is possible for the one and impossible for the other. -/
theorem native_share_leaks_false (hw : 2 ≤ w) (x y : BitVec w) (hxy : x ≠ y) :
    ∃ s, (∃ raw r, nativeUniform raw = some r ∧ x - r = s) ∧
      ¬ ∃ raw r, nativeUniform raw = some r ∧ y - r = s := by
  refine ⟨y - BitVec.intMax w, ?_, ?_⟩
  · have hne : x - y + BitVec.intMax w ≠ BitVec.intMax w := by
      intro h
      apply hxy
      have : x - y = 0#w := by
        have h' := congrArg (· - BitVec.intMax w) h
        simpa using h'
      rw [← sub_eq_zero]; exact this
    obtain ⟨raw, h⟩ := native_hits hw _ hne
    exact ⟨raw, _, h, by ring⟩
  · rintro ⟨raw, r, h1, h2⟩
    have : r = BitVec.intMax w := sub_right_injective h2
    exact native_sample_false hw raw (this ▸ h1)

/-- **C19 (partial), native rings.** The leak is as small as it can be: whatever set of shares an
observer looks for, the numbers of accepted words that produce it from two secrets differ by at most
one (of `2^w - 1`). -/
theorem native_share_close_partial (hw : 2 ≤ w) (x : BitVec w) (P : BitVec w → Prop) [DecidablePred P] :
    Nat.card {raw // ∃ r, nativeUniform raw = some r ∧ P (x - r)} +
      (if P (x - BitVec.intMax w) then 1 else 0) = Nat.card {s // P s} := by
  classical
  have h1 : Nat.card {raw // ∃ r, nativeUniform raw = some r ∧ P (x - r)} =
      Nat.card {s // P s ∧ s ≠ x - BitVec.intMax w} := by
    refine Nat.card_eq_of_bijective
      (fun p => ⟨x - (nativeUniform p.1).getD 0, ?_⟩) ⟨?_, ?_⟩
    · obtain ⟨r, hr, hP⟩ := p.2
      rw [hr]
      refine ⟨hP, fun h => ?_⟩
      have : r = BitVec.intMax w := sub_right_injective h
      exact native_sample_false hw p.1 (this ▸ hr)
    · rintro ⟨a, r, hr, hP⟩ ⟨b, r', hr', hP'⟩ h
      have h := congrArg Subtype.val h
      simp only [hr, hr', Option.getD_some] at h
      have e : r = r' := sub_right_injective h
      subst e
      have hc := native_count hw r
      have hne : r ≠ BitVec.intMax w := fun h => native_sample_false hw a (h ▸ hr)
      rw [if_neg hne, Nat.card_eq_one_iff_unique] at hc
      have := congrArg Subtype.val (hc.1.elim ⟨a, hr⟩ ⟨b, hr'⟩)
      exact Subtype.ext this
    · rintro ⟨s, hs, hne⟩
      have hne' : x - s ≠ BitVec.intMax w := by
        intro h; apply hne; rw [← h]; ring
      obtain ⟨raw, h⟩ := native_hits hw _ hne'
      refine ⟨⟨raw, _, h, by rw [sub_sub_cancel]; exact hs⟩, ?_⟩
      apply Subtype.ext
      simp only [h, Option.getD_some]
      ring
  rw [h1]
  simp only [Nat.card_eq_fintype_card, Fintype.card_subtype]
  have h2 : (Finset.univ.filter fun s => P s ∧ s ≠ x - BitVec.intMax w) =
      (Finset.univ.filter P).erase (x - BitVec.intMax w) := by
    ext s; simp [and_comm]
  rw [h2]
  split
  · rename_i hP
    exact Finset.card_erase_add_one (by simpa using hP)
  · rename_i hP
    rw [Finset.erase_eq_of_notMem (by simpa using hP), add_zero]

/-! ## Explicit moduli, bounded values, booleans -/

/-- `[0, p)`: each element equally often. -/
theorem explicit_count (hw : 0 < w) (p : ℕ) (h0 : 0 < p) (h1 : p < 2 ^ (w - 1)) (v : BitVec w) :
    Nat.card {raw // explicitUniform p raw = some v} =
      if 0 ≤ v.toInt ∧ v.toInt < p then 2 ^ w / p else 0 := by
  have e := toInt_ofNat_small hw h1
  have z : (0#w).toInt = 0 := by simp
  unfold explicitUniform
  rw [uniform_count (by rw [e, z]; exact_mod_cast h0)]
  have hs : span 0#w (BitVec.ofNat w p) = p := by
    unfold span; rw [e, z, sub_zero, Int.toNat_natCast]
  have hi : InRange 0#w (BitVec.ofNat w p) v ↔ 0 ≤ v.toInt ∧ v.toInt < p := by
    unfold InRange; rw [e, z]
  simp only [hs, hi]

theorem explicit_range (hw : 0 < w) (p : ℕ) (h0 : 0 < p) (h1 : p < 2 ^ (w - 1)) {raw v : BitVec w}
    (h : explicitUniform p raw = some v) : 0 ≤ v.toInt ∧ v.toInt < p := by
  by_contra hn
  have hc := explicit_count hw p h0 h1 v
  rw [if_neg hn, Nat.card_eq_zero] at hc
  rcases hc with hc | hc
  · exact hc.false ⟨raw, h⟩
  · exact hc.false

/-- `sample_bounded(b)` of a native ring: `[0, 2^b)`, each value from `2^(w-b)` words. -/
theorem bounded_count (b : ℕ) (hb : 2 ^ b ≤ 2 ^ (w - 1) - 1) (v : BitVec w) :
    Nat.card {raw // nativeBounded b raw = some (some v)} =
      if 0 ≤ v.toInt ∧ v.toInt < 2 ^ b then 2 ^ (w - b) else 0 := by
  have hp : 0 < 2 ^ b := Nat.two_pow_pos b
  have hw : 0 < w := by
    rcases Nat.eq_zero_or_pos w with rfl | h
    · simp at hb
    · exact h
  have h := explicit_count hw (2 ^ b) hp (by omega) v
  have hbw : b ≤ w := by
    by_contra hc
    have : 2 ^ (w - 1) ≤ 2 ^ b := Nat.pow_le_pow_right (by norm_num) (by omega)
    omega
  rw [Nat.pow_div hbw (by norm_num)] at h
  push_cast at h
  rw [← h]
  unfold nativeBounded explicitUniform
  simp [hb]

/-- and the assertion fails for wider requests. -/
theorem bounded_raises (b : ℕ) (hb : 2 ^ (w - 1) - 1 < 2 ^ b) (raw : BitVec w) :
    nativeBounded b raw = none := by
  unfold nativeBounded; rw [if_neg (by omega)]

/-- Booleans: each of the two values from half of the words. -/
theorem bool_count (b : Bool) : Nat.card {raw // boolUniform raw = some b} = 2 ^ 31 := by
  have key : ∀ b : Bool, Nat.card {raw // boolUniform raw = some b} =
      Nat.card {raw // uniform 0#32 2#32 raw = some (if b then 1#32 else 0#32)} := by
    intro b
    refine Nat.card_congr (Equiv.subtypeEquivRight fun raw => ?_)
    unfold boolUniform
    rcases h : uniform 0#32 2#32 raw with _ | u
    · simp
    · have hr : InRange 0#32 2#32 u := draw_range (by decide) [raw] u (by simp [draw, h])
      have h0 : u = 0#32 ∨ u = 1#32 := by
        unfold InRange at hr
        have e0 : (0#32).toInt = 0 := by decide
        have e1 : (1#32).toInt = 1 := by decide
        have e2 : (2#32).toInt = 2 := by decide
        rw [e0, e2] at hr
        rcases (show u.toInt = 0 ∨ u.toInt = 1 by omega) with h | h
        · left; rw [← BitVec.toInt_inj, h, e0]
        · right; rw [← BitVec.toInt_inj, h, e1]
      rcases h0 with rfl | rfl <;> cases b <;> simp
  rw [key, uniform_count (by decide)]
  cases b <;> decide

/-! ## Odd rings -/

/-- What the samplers of an odd ring really do: zero comes from two words, every other word from
`min + 2` to `max - 1` (among them the forbidden `-1`) from one. -/
theorem odd_count (hw : 3 ≤ w) (t : BitVec w) :
    Nat.card {raw : BitVec w // oddUniform raw = some t} =
      if t.toInt = 0 then 2
      else if -2 ^ (w - 1) + 2 ≤ t.toInt ∧ t.toInt < 2 ^ (w - 1) - 1 then 1 else 0 := by
  classical
  obtain ⟨h1, h2⟩ := native_bounds (w := w) (by omega)
  have hp : (4 : ℤ) ≤ 2 ^ (w - 1) := by
    calc (4 : ℤ) = 2 ^ 2 := by norm_num
      _ ≤ 2 ^ (w - 1) := pow_le_pow_right₀ (by norm_num) (by omega)
  have hs := Bits.pow_split (w := w) (by omega)
  have back : ∀ i : ℤ, -2 ^ (w - 1) ≤ i → i < 2 ^ (w - 1) → (BitVec.ofInt w i).toInt = i :=
    fun i a b => Bits.toInt_ofInt (by omega) a b
  have hone : (1#w) = BitVec.ofInt w 1 := by
    rw [← BitVec.ofInt_natCast]; rfl
  have step : ∀ v : BitVec w, v.toInt < 2 ^ (w - 1) - 1 → (v + 1#w).toInt = v.toInt + 1 := by
    intro v hv
    have hr := Bits.toInt_range v
    rw [← back (v.toInt + 1) (by omega) (by omega), BitVec.ofInt_add, BitVec.ofInt_toInt, hone]
  have hlo : (BitVec.intMin w + 1#w).toInt = -2 ^ (w - 1) + 1 := by
    rw [step _ (by rw [h1]; omega), h1]
  have hlt : (BitVec.intMin w + 1#w).toInt < (BitVec.intMax w).toInt := by omega
  have hspan : span (BitVec.intMin w + 1#w) (BitVec.intMax w) = 2 ^ w - 2 := by
    have h : ((span (BitVec.intMin w + 1#w) (BitVec.intMax w) : ℕ) : ℤ) = 2 ^ w - 2 := by
      unfold span; rw [hlo, h2]; omega
    have : (2 : ℕ) ≤ 2 ^ w := by
      calc 2 = 2 ^ 1 := by norm_num
        _ ≤ 2 ^ w := Nat.pow_le_pow_right (by norm_num) (by omega)
    zify [this]; exact h
  have hd : 2 ^ w / span (BitVec.intMin w + 1#w) (BitVec.intMax w) = 1 := by
    rw [hspan]
    have h4 : 8 ≤ 2 ^ w := by
      calc 8 = 2 ^ 3 := by norm_num
        _ ≤ 2 ^ w := Nat.pow_le_pow_right (by norm_num) hw
    exact Nat.div_eq_of_lt_le (by omega) (by omega)
  have cnt : ∀ v : BitVec w, Nat.card {raw // uniform (BitVec.intMin w + 1#w) (BitVec.intMax w) raw
      = some v} = if -2 ^ (w - 1) + 1 ≤ v.toInt ∧ v.toInt < 2 ^ (w - 1) - 1 then 1 else 0 := by
    intro v
    rw [uniform_count hlt, hd]
    have : InRange (BitVec.intMin w + 1#w) (BitVec.intMax w) v ↔
        -2 ^ (w - 1) + 1 ≤ v.toInt ∧ v.toInt < 2 ^ (w - 1) - 1 := by
      unfold InRange; rw [hlo, h2]
    simp only [this]
  have ht := Bits.toInt_range t
  -- which words `v` of the range lead to `t`
  have pre : ∀ raw, oddUniform raw = some t ↔
      ∃ v, uniform (BitVec.intMin w + 1#w) (BitVec.intMax w) raw = some v ∧
        (v.toInt < 0 ∧ v.toInt = t.toInt - 1 ∨ 0 ≤ v.toInt ∧ v.toInt = t.toInt) := by
    intro raw
    unfold oddUniform
    rw [Option.map_eq_some_iff]
    refine exists_congr fun v => and_congr_right fun hv => ?_
    have hr : InRange (BitVec.intMin w + 1#w) (BitVec.intMax w) v :=
      draw_range hlt [raw] v (by simp [draw, hv])
    unfold InRange at hr
    rw [hlo, h2] at hr
    split
    · rename_i hn
      rw [← BitVec.toInt_inj, step v hr.2]
      omega
    · rename_i hn
      rw [← BitVec.toInt_inj]
      omega
  have single : ∀ u : BitVec w, (∀ v : BitVec w, (v.toInt < 0 ∧ v.toInt = t.toInt - 1 ∨
      0 ≤ v.toInt ∧ v.toInt = t.toInt) ↔ v = u) →
      Nat.card {raw : BitVec w // oddUniform raw = some t} =
        if -2 ^ (w - 1) + 1 ≤ u.toInt ∧ u.toInt < 2 ^ (w - 1) - 1 then 1 else 0 := by
    intro u hu
    rw [← cnt u]
    refine Nat.card_congr (Equiv.subtypeEquivRight fun raw => ?_)
    rw [pre]
    simp only [hu]
    exact ⟨fun ⟨v, h, e⟩ => e ▸ h, fun h => ⟨u, h, rfl⟩⟩
  by_cases h0 : t.toInt = 0
  · rw [if_pos h0]
    have e : ∀ raw, oddUniform raw = some t ↔
        uniform (BitVec.intMin w + 1#w) (BitVec.intMax w) raw = some (BitVec.ofInt w (-1)) ∨
        uniform (BitVec.intMin w + 1#w) (BitVec.intMax w) raw = some (BitVec.ofInt w 0) := by
      intro raw
      rw [pre]
      constructor
      · rintro ⟨v, hv, h | h⟩
        · left; rw [hv, ← BitVec.ofInt_toInt (x := v)]; congr 2; omega
        · right; rw [hv, ← BitVec.ofInt_toInt (x := v)]; congr 2; omega
      · rintro (h | h)
        · refine ⟨_, h, Or.inl ?_⟩
          rw [back _ (by omega) (by omega)]; omega
        · refine ⟨_, h, Or.inr ?_⟩
          rw [back _ (by omega) (by omega)]; omega
    have c1 := cnt (BitVec.ofInt w (-1))
    have c2 := cnt (BitVec.ofInt w 0)
    rw [back _ (by omega) (by omega), if_pos (by omega)] at c1 c2
    rw [Nat.card_congr (Equiv.subtypeEquivRight e)]
    rw [Nat.card_eq_fintype_card] at c1 c2 ⊢
    rw [Fintype.card_subtype_or_disjoint, c1, c2]
    rw [Pi.disjoint_iff]
    intro raw
    rw [Prop.disjoint_iff]
    rintro ⟨hx, h⟩
    rw [hx] at h
    have := congrArg BitVec.toInt (Option.some.inj h)
    rw [back _ (by omega) (by omega), back _ (by omega) (by omega)] at this
    omega
  · rw [if_neg h0]
    rcases lt_or_gt_of_ne h0 with hn | hn
    · by_cases hm : t.toInt = -2 ^ (w - 1)
      · rw [if_neg (by omega), Nat.card_eq_zero]
        left
        refine ⟨fun ⟨raw, h⟩ => ?_⟩
        obtain ⟨v, -, h⟩ := (pre raw).1 h
        have hr := Bits.toInt_range v
        omega
      · have hb := back (t.toInt - 1) (by omega) (by omega)
        rw [single (BitVec.ofInt w (t.toInt - 1)), hb]
        · congr 1; apply propext; omega
        · intro v
          rw [← BitVec.toInt_inj, hb]; omega
    · rw [single t]
      · congr 1; apply propext; omega
      · intro v
        rw [← BitVec.toInt_inj]; omega

/-- **C19 is false for odd rings** (elements: all words but -1). The forbidden word is drawn, zero is
twice as likely as any other element, and three elements are never drawn. -/
theorem odd_sample_false (hw : 3 ≤ w) :
    (∃ raw : BitVec w, oddUniform raw = some (-1#w)) ∧
    Nat.card {raw : BitVec w // oddUniform raw = some 0#w} =
      2 * Nat.card {raw : BitVec w // oddUniform raw = some 1#w} ∧
    ∀ t ∈ [BitVec.intMin w, BitVec.intMin w + 1#w, BitVec.intMax w], ∀ raw, oddUniform raw ≠ some t := by
  obtain ⟨h1, h2⟩ := native_bounds (w := w) (by omega)
  have hp : (4 : ℤ) ≤ 2 ^ (w - 1) := by
    calc (4 : ℤ) = 2 ^ 2 := by norm_num
      _ ≤ 2 ^ (w - 1) := pow_le_pow_right₀ (by norm_num) (by omega)
  have hone : (1#w).toInt = 1 := toInt_ofNat_small (by omega) (by zify; omega)
  have hneg : (-1#w).toInt = -1 := by
    rw [BitVec.toInt_neg_of_ne_intMin, hone]
    intro h
    have := congrArg BitVec.toInt h
    rw [h1, hone] at this
    omega
  have hlo : (BitVec.intMin w + 1#w).toInt = -2 ^ (w - 1) + 1 := by
    rw [← Bits.toInt_ofInt (w := w) (by omega) (i := -2 ^ (w - 1) + 1) (by omega) (by omega),
      BitVec.ofInt_add, ← h1, BitVec.ofInt_toInt]
    congr 2
  refine ⟨?_, ?_, ?_⟩
  · have hc := odd_count hw (-1#w)
    rw [hneg, if_neg (by omega), if_pos (by omega)] at hc
    obtain ⟨⟨raw, h⟩⟩ := (Nat.card_pos_iff.1 (hc.symm ▸ Nat.one_pos)).1
    exact ⟨raw, h⟩
  · rw [odd_count hw, odd_count hw, hone, if_pos (by simp), if_neg (by omega), if_pos (by omega)]
  · intro t ht raw hraw
    have hc := odd_count hw t
    have e : t.toInt = -2 ^ (w - 1) ∨ t.toInt = -2 ^ (w - 1) + 1 ∨ t.toInt = 2 ^ (w - 1) - 1 := by
      simp only [List.mem_cons, List.not_mem_nil, or_false] at ht
      rcases ht with rfl | rfl | rfl
      · exact Or.inl h1
      · exact Or.inr (Or.inl hlo)
      · exact Or.inr (Or.inr h2)
    rw [if_neg (by omega), if_neg (by omega), Nat.card_eq_zero] at hc
    rcases hc with hc | hc
    · exact hc.false ⟨raw, hraw⟩
    · exact hc.false

/-! ## Chinese-remainder rings -/

open Crt

/-- **C19 for `int100` (unseeded).** Every element of the ring comes from the same number of word
vectors, for every modulus list the constructor accepts. -/
theorem crt_count {k : ℕ} {m : Fin k → ℕ} {F : Factory k} (hF : Factory.make m = .ok F) (z : ℤ) :
    Nat.card {raw : Fin k → BitVec 32 // ∀ i, crtUniform m raw i = some (F.decompose z i)} =
      ∏ i, 2 ^ 32 / m i := by
  obtain ⟨G, rfl⟩ := make_good hF
  have e : {raw : Fin k → BitVec 32 // ∀ i, crtUniform F.m raw i = some (F.decompose z i)} ≃
      ((i : Fin k) → {raw : BitVec 32 //
        (explicitUniform (F.m i) raw).map (fun v => v.toInt) = some (F.decompose z i)}) :=
    { toFun := fun r i => ⟨r.1 i, r.2 i⟩
      invFun := fun r => ⟨fun i => (r i).1, fun i => (r i).2⟩
      left_inv := fun _ => rfl
      right_inv := fun _ => rfl }
  rw [Nat.card_congr e, Nat.card_pi]
  refine Finset.prod_congr rfl fun i _ => ?_
  have hm := G.mpos' i
  have hm' := G.m_le i
  have hz0 := Int.emod_nonneg z hm.ne'
  have hz1 := Int.emod_lt_of_pos z hm
  have hd : F.decompose z i = z % F.m i := rfl
  have hv := Bits.toInt_ofInt (w := 32) (by omega) (i := z % F.m i) (by norm_num; omega)
    (by norm_num; omega)
  have hc := explicit_count (w := 32) (by omega) (F.m i) (G.mpos i) (by norm_num; omega)
    (BitVec.ofInt 32 (z % F.m i))
  rw [hv, if_pos ⟨hz0, hz1⟩] at hc
  rw [← hc]
  refine Nat.card_congr (Equiv.subtypeEquivRight fun raw => ?_)
  rw [hd, Option.map_eq_some_iff]
  constructor
  · rintro ⟨v, h, hv'⟩
    rw [h, ← hv', BitVec.ofInt_toInt]
  · intro h
    exact ⟨_, h, hv⟩

/-- Chinese remainders: every vector of residues stands for an integer. -/
theorem exists_rep {k : ℕ} {F : Factory k} (G : Good F) (x : Backing k)
    (h : ∀ i, 0 ≤ x i ∧ x i < F.m i) : ∃ z, Rep F x z := by
  refine ⟨∑ i, x i * (cofactor F.m i * F.q i), fun j => ?_⟩
  have h2 : ∑ i ∈ Finset.univ.erase j, x i * (cofactor F.m i * F.q i) ≡ 0 [ZMOD F.m j] := by
    rw [Int.modEq_zero_iff_dvd]
    exact Finset.dvd_sum fun i hi =>
      ((dvd_cofactor (G.mpos i) (Finset.ne_of_mem_erase hi).symm).mul_right _).mul_left _
  have h3 : x j * (cofactor F.m j * F.q j) ≡ x j [ZMOD F.m j] := by
    have := (G.qspec j).mul_left (x j)
    rwa [mul_one] at this
  have h4 : ∑ i, x i * (cofactor F.m i * F.q i) ≡ x j [ZMOD F.m j] := by
    rw [← Finset.add_sum_erase _ _ (Finset.mem_univ j)]
    simpa using h3.add h2
  rw [h4, Int.emod_eq_of_lt (h j).1 (h j).2]

/-- and only elements of the ring are drawn: each accepted vector is the representation of an
integer, which is unique modulo the modulus (`Good.crt`). -/
theorem crt_sample_rep {k : ℕ} {m : Fin k → ℕ} {F : Factory k} (hF : Factory.make m = .ok F)
    (raw : Fin k → BitVec 32) (x : Backing k) (hx : ∀ i, crtUniform m raw i = some (x i)) :
    ∃ z, Rep F x z ∧ ∀ z', Rep F x z' → z' ≡ z [ZMOD modulus m] := by
  obtain ⟨G, rfl⟩ := make_good hF
  obtain ⟨z, hz⟩ := exists_rep G x fun i => by
    have h := hx i
    unfold crtUniform at h
    obtain ⟨v, hv, h⟩ := Option.map_eq_some_iff.1 h
    have hm := G.mpos' i
    have hm' := G.m_le i
    have hr := explicit_range (w := 32) (by omega) (F.m i) (G.mpos i) (by norm_num; omega) hv
    rwa [h] at hr
  refine ⟨z, hz, fun z' hz' => G.crt fun i => ?_⟩
  have := hz i
  rw [hz' i] at this
  exact this

/-- **C19 is false for `int100` (seeded).** Each residue is drawn from `[0, 1039)`; 1039 itself, for
example, is an element of the ring that no seed can give. -/
theorem crt_seeded_false (F : Factory 10) (hF : Factory.make moduli100 = .ok F)
    (raw : Fin 10 → BitVec 32) :
    ¬ ∀ i, crtSeededUniform moduli100 raw i = some (F.decompose 1039 i) := by
  obtain ⟨G, e⟩ := make_good hF
  intro h
  have h0 := h 0
  unfold crtSeededUniform Factory.decompose at h0
  rw [e] at h0
  obtain ⟨v, hv, h1⟩ := Option.map_eq_some_iff.1 h0
  have hm : moduli100 (Fin.last 9) = 1039 := rfl
  have hm' : ((moduli100 0 : ℕ) : ℤ) = 1201 := rfl
  rw [hm] at hv
  rw [hm'] at h1
  have hr := explicit_range (w := 32) (by omega) 1039 (by omega) (by norm_num) hv
  omega

/-- The share of the ring that the seeded sampler can reach at all: less than a quarter. -/
theorem crt_seeded_reach : 4 * 1039 ^ 10 < modulus moduli100 := by
  decide +kernel

/-! ### `sample_bounded` of `int100` -/

/-- The integer that the chunks of `sample_bounded` encode. -/
def chunkValue (cs : List (ℕ × ℤ)) : ℤ := cs.foldl (fun z c => z * 2 ^ c.1 + c.2) 0

/-- Each chunk is in its range. -/
def ChunksOk (cs : List (ℕ × ℤ)) : Prop := ∀ c ∈ cs, 0 ≤ c.2 ∧ c.2 < 2 ^ c.1

theorem fromChunks_rep {k : ℕ} {F : Factory k} (G : Good F) (cs : List (ℕ × ℤ)) :
    Rep F (F.fromChunks cs) (chunkValue cs) := by
  unfold Factory.fromChunks chunkValue
  have key : ∀ (b : Backing k) (z : ℤ), Rep F b z →
      Rep F (cs.foldl (fun b c => F.add (F.mul b (F.decompose (2 ^ c.1))) (F.decompose c.2)) b)
        (cs.foldl (fun z c => z * 2 ^ c.1 + c.2) z) := by
    induction cs with
    | nil => intro b z h; exact h
    | cons c cs ih =>
      intro b z h
      exact ih _ _ (G.add (G.mul h fun _ => rfl) fun _ => rfl)
  exact key _ _ fun _ => rfl

theorem foldl_chunk (cs : List (ℕ × ℤ)) (z : ℤ) :
    cs.foldl (fun z c => z * 2 ^ c.1 + c.2) z =
      z * 2 ^ (cs.map Prod.fst).sum + chunkValue cs := by
  unfold chunkValue
  induction cs generalizing z with
  | nil => simp
  | cons c cs ih =>
    rw [List.foldl_cons, ih, List.foldl_cons, ih (0 * 2 ^ c.1 + c.2), List.map_cons, List.sum_cons,
      pow_add]
    ring

theorem chunkValue_cons (c : ℕ × ℤ) (cs : List (ℕ × ℤ)) :
    chunkValue (c :: cs) = c.2 * 2 ^ (cs.map Prod.fst).sum + chunkValue cs := by
  have := foldl_chunk cs (0 * 2 ^ c.1 + c.2)
  rw [zero_mul, zero_add] at this
  unfold chunkValue at *
  rw [List.foldl_cons, zero_mul, zero_add, this]

theorem chunkValue_range (cs : List (ℕ × ℤ)) (h : ChunksOk cs) :
    0 ≤ chunkValue cs ∧ chunkValue cs < 2 ^ (cs.map Prod.fst).sum := by
  induction cs with
  | nil => simp [chunkValue]
  | cons c cs ih =>
    obtain ⟨h1, h2⟩ := h c (List.mem_cons_self ..)
    obtain ⟨h3, h4⟩ := ih fun d hd => h d (List.mem_cons_of_mem _ hd)
    rw [chunkValue_cons, List.map_cons, List.sum_cons, pow_add]
    have hp : (0 : ℤ) < 2 ^ (cs.map Prod.fst).sum := by positivity
    constructor
    · positivity
    · nlinarith [Int.add_one_le_iff.2 h2]

/-- **C19, `sample_bounded` of `int100`.** For every list of chunk sizes and every value of
`[0, 2^bitlength)` there is exactly one list of chunk values (each from its own range, where
`explicit_count` makes it uniform) that is combined to a representation of that value. -/
theorem crt_bounded_unique {k : ℕ} {m : Fin k → ℕ} {F : Factory k} (hF : Factory.make m = .ok F)
    (sizes : List ℕ) (z : ℤ) (h0 : 0 ≤ z) (h1 : z < 2 ^ sizes.sum) (hM : 2 ^ sizes.sum ≤ modulus m) :
    ∃! cs : List (ℕ × ℤ), cs.map Prod.fst = sizes ∧ ChunksOk cs ∧ Rep F (F.fromChunks cs) z := by
  obtain ⟨G, rfl⟩ := make_good hF
  have ex : ∀ (sizes : List ℕ) (z : ℤ), 0 ≤ z → z < 2 ^ sizes.sum →
      ∃! cs : List (ℕ × ℤ), cs.map Prod.fst = sizes ∧ ChunksOk cs ∧ chunkValue cs = z := by
    intro sizes
    induction sizes with
    | nil =>
      intro z h0 h1
      refine ⟨[], ⟨rfl, by simp [ChunksOk], ?_⟩, fun cs hcs => List.map_eq_nil_iff.1 hcs.1⟩
      simp at h1
      show (0 : ℤ) = z
      omega
    | cons s sizes ih =>
      intro z h0 h1
      have hp : (0 : ℤ) < 2 ^ sizes.sum := by positivity
      rw [List.sum_cons, pow_add] at h1
      have hd := Int.emod_add_mul_ediv z (2 ^ sizes.sum)
      have hm0 := Int.emod_nonneg z hp.ne'
      have hm1 := Int.emod_lt_of_pos z hp
      obtain ⟨cs, ⟨hc1, hc2, hc3⟩, hu⟩ := ih (z % 2 ^ sizes.sum) hm0 hm1
      have hq0 : 0 ≤ z / 2 ^ sizes.sum := Int.ediv_nonneg h0 hp.le
      have hq1 : z / 2 ^ sizes.sum < 2 ^ s := by
        rw [Int.ediv_lt_iff_lt_mul hp]; exact h1
      refine ⟨(s, z / 2 ^ sizes.sum) :: cs, ⟨?_, ?_, ?_⟩, ?_⟩
      · rw [List.map_cons, hc1]
      · intro c hc
        rcases List.mem_cons.1 hc with rfl | hc
        · exact ⟨hq0, hq1⟩
        · exact hc2 c hc
      · rw [chunkValue_cons, hc1, hc3]; linarith
      · rintro (_ | ⟨c, cs'⟩) ⟨e1, e2, e3⟩
        · cases e1
        · rw [List.map_cons, List.cons.injEq] at e1
          have ok' : ChunksOk cs' := fun d hd => e2 d (List.mem_cons_of_mem _ hd)
          have hr := chunkValue_range cs' ok'
          rw [chunkValue_cons] at e3
          rw [e1.2] at e3 hr
          have hmod : chunkValue cs' = z % 2 ^ sizes.sum := by
            rw [← e3, add_comm, Int.add_mul_emod_self_right, Int.emod_eq_of_lt hr.1 hr.2]
          have hdiv : c.2 = z / 2 ^ sizes.sum := by
            rw [← e3, add_comm, Int.add_mul_ediv_right _ _ hp.ne', Int.ediv_eq_zero_of_lt hr.1 hr.2,
              zero_add]
          rw [hu cs' ⟨e1.2, ok', hmod⟩, ← hdiv, ← e1.1]
  obtain ⟨cs, ⟨hc1, hc2, hc3⟩, hu⟩ := ex sizes z h0 h1
  refine ⟨cs, ⟨hc1, hc2, hc3 ▸ fromChunks_rep G cs⟩, ?_⟩
  rintro cs' ⟨e1, e2, e3⟩
  refine hu cs' ⟨e1, e2, ?_⟩
  have hr := chunkValue_range cs' e2
  rw [e1] at hr
  have h := fromChunks_rep G cs'
  have hmod : chunkValue cs' ≡ z [ZMOD modulus F.m] := G.crt fun i => by
    have := h i
    rw [e3 i] at this
    exact this.symm
  have hM' : (2 : ℤ) ^ sizes.sum ≤ modulus F.m := by exact_mod_cast hM
  have := hmod.eq
  rwa [Int.emod_eq_of_lt hr.1 (by omega), Int.emod_eq_of_lt h0 (by omega)] at this

/-- The 83 bits that the truncation masks of `int100` use, and one of their values. -/
example : ∃ F, Factory.make moduli100 = .ok F ∧
    ∃! cs : List (ℕ × ℤ), cs.map Prod.fst = [30, 30, 23] ∧ ChunksOk cs ∧
      Rep F (F.fromChunks cs) 123456789012345678901 := by
  obtain ⟨F, hF⟩ := make100
  exact ⟨F, hF, crt_bounded_unique hF _ _ (by norm_num) (by norm_num) (by decide +kernel)⟩

/-! ### `sample_bounded` of `int128` -/

/-- `sample_bounded` / `sample_seeded_bounded` of `int128` (int128.py:141-162): a full-width sample,
shifted right logically. -/
def shiftedBounded (b : ℕ) (raw : BitVec w) : Option (BitVec w) :=
  (nativeUniform raw).map fun v : BitVec w => v >>> (w - b)

/-- The shifted sampler is uniform on `[0, 2^b)` up to the one word that the full-width sampler never
draws: the value `2^(b-1) - 1` comes from one word less than the others. -/
theorem shifted_count (b : ℕ) (hb : 0 < b) (hbw : b < w) (v : BitVec w) (hv : v.toNat < 2 ^ b) :
    Nat.card {raw : BitVec w // shiftedBounded b raw = some v} +
      (if v.toNat = 2 ^ (b - 1) - 1 then 1 else 0) = 2 ^ (w - b) := by
  classical
  have hw : 2 ≤ w := by omega
  have h1 : Nat.card {raw : BitVec w // shiftedBounded b raw = some v} =
      Nat.card {s : BitVec w // s >>> (w - b) = v ∧ s ≠ BitVec.intMax w} := by
    refine Nat.card_eq_of_bijective
      (fun p => ⟨(nativeUniform p.1).getD 0, ?_⟩) ⟨?_, ?_⟩
    · obtain ⟨r, hr, hP⟩ := Option.map_eq_some_iff.1 p.2
      rw [hr]
      exact ⟨hP, fun h => native_sample_false hw p.1 (h ▸ hr)⟩
    · rintro ⟨a, ha⟩ ⟨b', hb'⟩ h
      obtain ⟨r, hr, hP⟩ := Option.map_eq_some_iff.1 ha
      obtain ⟨r', hr', hP'⟩ := Option.map_eq_some_iff.1 hb'
      have h := congrArg Subtype.val h
      simp only [hr, hr', Option.getD_some] at h
      subst h
      have hc := native_count hw r
      have hne : r ≠ BitVec.intMax w := fun h => native_sample_false hw a (h ▸ hr)
      rw [if_neg hne, Nat.card_eq_one_iff_unique] at hc
      have := congrArg Subtype.val (hc.1.elim ⟨a, hr⟩ ⟨b', hr'⟩)
      exact Subtype.ext this
    · rintro ⟨s, hs, hne⟩
      obtain ⟨raw, h⟩ := native_hits hw _ hne
      refine ⟨⟨raw, ?_⟩, ?_⟩
      · unfold shiftedBounded; rw [h, Option.map_some, hs]
      · apply Subtype.ext
        simp only [h, Option.getD_some]
  have hsplit : 2 ^ w = 2 ^ (w - b) * 2 ^ b := by rw [← pow_add]; congr 1; omega
  have hpos : 0 < 2 ^ (w - b) := Nat.two_pow_pos _
  have h2 : Nat.card {s : BitVec w // s >>> (w - b) = v} = 2 ^ (w - b) := by
    have hbd : ∀ r : Fin (2 ^ (w - b)), 2 ^ (w - b) * v.toNat + r.val < 2 ^ w := fun r => by
      have : 2 ^ (w - b) * (v.toNat + 1) ≤ 2 ^ (w - b) * 2 ^ b := Nat.mul_le_mul_left _ hv
      have hr := r.isLt
      rw [hsplit]; rw [mul_add, mul_one] at this; omega
    have e : {s : BitVec w // s >>> (w - b) = v} ≃ Fin (2 ^ (w - b)) :=
      { toFun := fun s => ⟨s.1.toNat % 2 ^ (w - b), Nat.mod_lt _ hpos⟩
        invFun := fun r => ⟨BitVec.ofNat w (2 ^ (w - b) * v.toNat + r.val), by
          apply BitVec.eq_of_toNat_eq
          rw [BitVec.toNat_ushiftRight, BitVec.toNat_ofNat, Nat.mod_eq_of_lt (hbd r),
            Nat.shiftRight_eq_div_pow, Nat.mul_add_div hpos, Nat.div_eq_of_lt r.isLt, add_zero]⟩
        left_inv := fun s => by
          apply Subtype.ext
          apply BitVec.eq_of_toNat_eq
          have h := congrArg BitVec.toNat s.2
          rw [BitVec.toNat_ushiftRight, Nat.shiftRight_eq_div_pow] at h
          have hdm := Nat.div_add_mod s.1.toNat (2 ^ (w - b))
          rw [h] at hdm
          simp only [BitVec.toNat_ofNat]
          rw [hdm, Nat.mod_eq_of_lt s.1.isLt]
        right_inv := fun r => by
          apply Fin.ext
          simp only [BitVec.toNat_ofNat]
          rw [Nat.mod_eq_of_lt (hbd r), Nat.mul_add_mod, Nat.mod_eq_of_lt r.isLt] }
    rw [Nat.card_congr e, Nat.card_eq_fintype_card, Fintype.card_fin]
  have h3 : (BitVec.intMax w) >>> (w - b) = v ↔ v.toNat = 2 ^ (b - 1) - 1 := by
    rw [← BitVec.toNat_inj, BitVec.toNat_ushiftRight, BitVec.toNat_intMax, Nat.shiftRight_eq_div_pow]
    have : (2 ^ (w - 1) - 1) / 2 ^ (w - b) = 2 ^ (b - 1) - 1 := by
      have e1 : 2 ^ (w - 1) = 2 ^ (w - b) * 2 ^ (b - 1) := by rw [← pow_add]; congr 1; omega
      have hp' : 0 < 2 ^ (b - 1) := Nat.two_pow_pos _
      rw [e1]
      obtain ⟨q, hq⟩ : ∃ q, 2 ^ (b - 1) = q + 1 := ⟨2 ^ (b - 1) - 1, by omega⟩
      rw [hq, mul_add, mul_one, Nat.add_sub_assoc hpos, Nat.mul_add_div hpos,
        Nat.div_eq_of_lt (by omega)]
      simp
    rw [this]
    exact eq_comm
  rw [h1, ← h2]
  simp only [Nat.card_eq_fintype_card, Fintype.card_subtype]
  have h4 : (Finset.univ.filter fun s : BitVec w => s >>> (w - b) = v ∧ s ≠ BitVec.intMax w) =
      (Finset.univ.filter fun s : BitVec w => s >>> (w - b) = v).erase (BitVec.intMax w) := by
    ext s; simp [and_comm]
  rw [h4]
  split
  · rename_i hP
    exact Finset.card_erase_add_one (by simpa using h3.2 hP)
  · rename_i hP
    rw [Finset.erase_eq_of_notMem (by simpa using fun h => hP (h3.1 h)), add_zero]

end Verif.Sampling
