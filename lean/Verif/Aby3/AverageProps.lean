import Verif.Aby3.AverageLemmas

/-!
# C83 (ABY3): dividing by a public number, and the average of private inputs

For all tensors, sharings and draws. `real frac v` is the number that the word `v` stands for, and
`constWord w frac q` the encoding of the number `q`.
-/

namespace Verif.Aby3

open Verif

variable {w n : ℕ}

attribute [local irreducible] M.All M.Sim

/-- A number that fits is encoded towards zero, to within one unit. -/
theorem const_toward {frac : ℕ} (hw : 0 < w) {q : ℚ} (hq : |q| * 2 ^ frac < 2 ^ (w - 1)) :
    |real frac (constWord w frac q)| ≤ |q| ∧ |real frac (constWord w frac q) - q| ≤ 1 / 2 ^ frac := by
  have hN : (0 : ℚ) < 2 ^ frac := by positivity
  obtain ⟨a1, a2, -⟩ := Fixed.toInt_spec (q * 2 ^ frac)
  rw [abs_mul, abs_of_pos hN] at a1
  have e : real frac (constWord w frac q) = (Fixed.toInt (q * 2 ^ frac) : ℚ) / 2 ^ frac :=
    real_of_int hw rfl (by
      rw [abs_div, abs_of_pos hN, div_mul_cancel₀ _ hN.ne']
      exact a1.trans_lt hq)
  rw [e]
  constructor
  · rw [abs_div, abs_of_pos hN, div_le_iff₀ hN]
    exact a1
  · have : (Fixed.toInt (q * 2 ^ frac) : ℚ) / 2 ^ frac - q =
        ((Fixed.toInt (q * 2 ^ frac) : ℚ) - q * 2 ^ frac) / 2 ^ frac := by field_simp
    rw [this, abs_div, abs_of_pos hN]
    exact div_le_div_of_nonneg_right a2.le hN.le

/-- A division of a scaled word: within `1 + |x|` units, and within one unit if the divisor is a power
of two. -/
theorem div_word {frac : ℕ} (hw : 2 ≤ w) {y : ℚ} {plan : DivPlan w}
    (hp : divPlan w frac true y = .ok plan) {x z : BitVec w} (hz : DivVal frac plan x z)
    (h1 : |real frac x| * 2 ^ frac < 2 ^ (w - 2))
    (h2 : |real frac x / y| * (2 ^ frac * 2 ^ frac) < 2 ^ (w - 2))
    (hy : |1 / y| * 2 ^ frac < 2 ^ (w - 1)) :
    |real frac z - real frac x / y| ≤ (1 + |real frac x|) / 2 ^ frac ∧
      ((∃ a : ℤ, y = 2 ^ a) → |real frac z - real frac x / y| ≤ 1 / 2 ^ frac) := by
  have hN : (0 : ℚ) < 2 ^ frac := by positivity
  have hN1 : (1 : ℚ) ≤ 2 ^ frac := one_le_pow₀ (by norm_num)
  have hx0 := abs_nonneg (real frac x)
  have weaken : ∀ {d : ℚ}, d ≤ 1 / 2 ^ frac → d ≤ (1 + |real frac x|) / 2 ^ frac := fun h =>
    h.trans (div_le_div_of_nonneg_right (by linarith) hN.le)
  have hu : (0 : ℚ) ≤ 1 / 2 ^ frac := by positivity
  unfold divPlan at hp
  split at hp
  · cases hp
  rename_i hy0
  have both : |real frac z - real frac x / y| ≤ 1 / 2 ^ frac →
      |real frac z - real frac x / y| ≤ (1 + |real frac x|) / 2 ^ frac ∧
      ((∃ a : ℤ, y = 2 ^ a) → |real frac z - real frac x / y| ≤ 1 / 2 ^ frac) :=
    fun h => ⟨weaken h, fun _ => h⟩
  split at hp
  · rename_i hl
    cases hp
    obtain rfl : z = x := hz
    have : y = 1 := by rw [log2?_eq hl]; rfl
    rw [this, div_one, sub_self, abs_zero] at both
    rw [this, div_one, sub_self, abs_zero]
    exact both hu
  · rename_i a hl
    split at hp
    · cases hp
    · cases hp
      have hy2 : y = 2 ^ (a + 1) := by rw [log2?_eq hl]; exact zpow_natCast _ _
      rw [hy2] at both ⊢
      exact both (trunc_real hw h1 hz)
  · rename_i a hl
    cases hp
    obtain rfl : z = x <<< (a + 1) := hz
    have hy2 : y = (2 ^ (a + 1))⁻¹ := by
      rw [log2?_eq hl, zpow_negSucc]
    have e : real frac x / y = ((2 ^ (a + 1) : ℕ) : ℚ) * real frac x := by
      rw [hy2, div_inv_eq_mul, mul_comm]
      push_cast
      rfl
    have hr : real frac (x <<< (a + 1)) = real frac x / y := by
      rw [BitVec.shiftLeft_eq_mul_twoPow, BitVec.mul_comm, e]
      have ht : BitVec.twoPow w (a + 1) = BitVec.ofNat w (2 ^ (a + 1)) := by
        apply BitVec.eq_of_toNat_eq
        simp [BitVec.toNat_twoPow]
      rw [ht]
      refine nat_mul_real (by omega) ?_
      rw [← e]
      have hp1 : (2 : ℚ) ^ (w - 1) = 2 * 2 ^ (w - 2) := by rw [← pow_succ']; congr 1; omega
      have : |real frac x / y| * 2 ^ frac ≤ |real frac x / y| * (2 ^ frac * 2 ^ frac) := by
        rw [← mul_assoc]
        exact le_mul_of_one_le_right (by positivity) hN1
      have hpos : (0 : ℚ) < 2 ^ (w - 2) := by positivity
      linarith
    rw [hr, sub_self, abs_zero] at both ⊢
    exact both hu
  · rename_i hl
    split at hp
    · cases hp
    · rename_i pl hpl
      cases hp
      simp only [if_true] at hz hpl
      cases pl with
      | none =>
        unfold mulPlan at hpl
        simp only [Bool.and_self, if_true] at hpl
        split at hpl <;> cases hpl
      | some p =>
        obtain ⟨c1, c2⟩ := const_toward (w := w) (by omega) hy
        set c := constWord w frac (1 / y) with hc
        have hxc : |real frac x * real frac c| ≤ |real frac x / y| := by
          rw [abs_mul, div_eq_mul_one_div, abs_mul]
          exact mul_le_mul_of_nonneg_left c1 hx0
        have hm := mul_real (frac := frac) hw (u := x) (v := c) (z := z)
          (lt_of_le_of_lt (mul_le_mul_of_nonneg_right hxc (by positivity)) h2) hz
        constructor
        · have e : real frac z - real frac x / y = (real frac z - real frac x * real frac c) +
              real frac x * (real frac c - 1 / y) := by ring
          rw [e]
          refine (abs_add_le _ _).trans ?_
          rw [abs_mul, add_div]
          refine add_le_add hm ?_
          calc |real frac x| * |real frac c - 1 / y| ≤ |real frac x| * (1 / 2 ^ frac) :=
                mul_le_mul_of_nonneg_left c2 hx0
            _ = _ := by ring
        · rintro ⟨a, ha⟩
          exfalso
          obtain ⟨k, rfl | rfl⟩ := Int.eq_nat_or_neg a
          · have hy3 : y = ((2 ^ k : ℕ) : ℚ) := by rw [ha]; push_cast; exact zpow_natCast _ _
            rcases log2?_natCast (2 ^ k) with h | ⟨-, h⟩ | h
            · rw [← hy3, hl] at h; cases h
            · exact h k rfl
            · exact absurd h (by positivity)
          · have hy3 : y = ((2 ^ k : ℕ) : ℚ)⁻¹ := by
              rw [ha, zpow_neg]; push_cast; rw [zpow_natCast]
            have hnum : y.num = 1 := by
              rw [hy3, Rat.inv_natCast_num_of_pos (by positivity)]
            have hden : y.den = 2 ^ k := by
              rw [hy3, Rat.inv_natCast_den_of_pos (by positivity)]
            unfold log2? at hl
            rw [hnum, hden, Nat.log_pow (by norm_num)] at hl
            split at hl
            · cases hl
            · simp at hl

/-- **C83** (ABY3, division). A scaled private tensor divided by a number, positive or negative, comes
out within `1 + |x|` units in the last place, and within one unit if the number is a power of two. -/
theorem div_close {frac : ℕ} (hw : 2 ≤ w) {y : ℚ} {plan : DivPlan w}
    (hp : divPlan w frac true y = .ok plan) {x : T (.arith w n)} {X : Shares (T (.arith w n))}
    (hX : Holds x X) (h1 : ∀ i, |real frac (x i)| * 2 ^ frac < 2 ^ (w - 2))
    (h2 : ∀ i, |real frac (x i) / y| * (2 ^ frac * 2 ^ frac) < 2 ^ (w - 2))
    (hy : |1 / y| * 2 ^ frac < 2 ^ (w - 1)) :
    M.All (fun o => ∃ z : T (.arith w n), Holds z o ∧ ∀ i,
      |real frac (z i) - real frac (x i) / y| ≤ (1 + |real frac (x i)|) / 2 ^ frac ∧
      ((∃ a : ℤ, y = 2 ^ a) → |real frac (z i) - real frac (x i) / y| ≤ 1 / 2 ^ frac))
      (divRun frac plan X) := by
  refine (divRun_sim hp (hX.alike 0)).left ?_
  rintro o o' ⟨z, z', hz, -, -, ho⟩
  exact ⟨z, ho.1, fun i => div_word hw hp (hz i) (h1 i) (h2 i) hy⟩

/-- The division is possible unless the divisor is zero or too large a power of two. -/
theorem div_possible {frac : ℕ} (hw : 2 * frac + 2 ≤ w) {y : ℚ} (hy : y ≠ 0)
    (h : ∀ a : ℕ, y = 2 ^ a → frac + a + 2 ≤ w) : ∃ plan, divPlan w frac true y = .ok plan := by
  unfold divPlan
  rw [if_neg hy]
  split
  · exact ⟨_, rfl⟩
  · rename_i a hl
    have := h (a + 1) (by rw [log2?_eq hl]; exact zpow_natCast _ _)
    simp only [if_true]
    rw [heurPlan_ok this]
    exact ⟨_, rfl⟩
  · exact ⟨_, rfl⟩
  · obtain ⟨pl, hpl⟩ := mulPlan_ok (w := w) (frac := frac) (sx := true) (sy := true) (fun _ => by omega)
    rw [hpl]
    exact ⟨_, rfl⟩

/-- Zero raises. -/
theorem div_zero_raises (frac : ℕ) (sc : Bool) : divPlan w frac sc 0 = .error .valueError := by
  unfold divPlan
  rw [if_pos rfl]

/-- The docstring promises a true division. A tensor of integers (not scaled) divided by a number above
one in size that is not a power of two is zero, whatever it holds. -/
theorem div_unscaled_false {frac : ℕ} {y : ℚ} (hy : 1 < |y|) (hl : log2? y = none)
    {x : T (.arith w n)} {X : Shares (T (.arith w n))} (hX : Holds x X) :
    ∃ plan, divPlan w frac false y = .ok plan ∧
      M.All (fun o => Holds (fun _ => 0 : T (.arith w n)) o) (divRun frac plan X) := by
  have hy0 : y ≠ 0 := by
    rintro rfl
    rw [abs_zero] at hy
    linarith
  have hp : divPlan w frac false y = .ok (.times none (constWord w 0 (1 / y))) := by
    unfold divPlan
    rw [if_neg hy0, hl]
    rfl
  refine ⟨_, hp, (divRun_sim hp (hX.alike 0)).left ?_⟩
  rintro o o' ⟨z, z', hz, -, -, ho⟩
  have hc : constWord w 0 (1 / y) = 0 := by
    have h1 : |1 / y| < 1 := by
      rw [abs_div, abs_one, div_lt_one (by linarith)]
      exact hy
    obtain ⟨a1, -, -⟩ := Fixed.toInt_spec (1 / y * 2 ^ 0)
    rw [pow_zero, mul_one] at a1
    have h2 : |((Fixed.toInt (1 / y) : ℤ) : ℚ)| < 1 := a1.trans_lt h1
    have h3 : |Fixed.toInt (1 / y)| < 1 := by exact_mod_cast h2
    have h4 : Fixed.toInt (1 / y) = 0 := Int.abs_lt_one_iff.1 h3
    unfold constWord
    rw [pow_zero, mul_one, h4]
    exact Bits.ofInt_natCast 0
  have : z = fun _ => 0 := by
    funext i
    have := hz i
    rw [hc] at this
    have h : z i = x i * 0#w := this
    rw [h, BitVec.mul_zero]
    rfl
  rw [← this]
  exact ho.1

/-! ## Averages -/

/-- The sum of the words that encode some numbers. -/
theorem foldl_const {frac : ℕ} (q : Fin n → ℚ) (qs : List (Fin n → ℚ)) (i : Fin n) :
    ((qs.map fun r => (fun i => constWord w frac (r i) : T (.arith w n))).foldl (· + ·)
      (fun i => constWord w frac (q i))) i =
      BitVec.ofInt w (Fixed.toInt (q i * 2 ^ frac) +
        (qs.map fun r => Fixed.toInt (r i * 2 ^ frac)).sum) := by
  have gen : ∀ (qs : List (Fin n → ℚ)) (v : T (.arith w n)) (V : ℤ), v i = BitVec.ofInt w V →
      ((qs.map fun r => (fun i => constWord w frac (r i) : T (.arith w n))).foldl (· + ·) v) i =
        BitVec.ofInt w (V + (qs.map fun r => Fixed.toInt (r i * 2 ^ frac)).sum) := by
    intro qs
    induction qs with
    | nil => intro v V h; simpa using h
    | cons r qs ih =>
      intro v V h
      rw [List.map_cons, List.foldl_cons, ih _ (V + Fixed.toInt (r i * 2 ^ frac)), List.map_cons,
        List.sum_cons, add_assoc]
      show v i + constWord w frac (r i) = _
      rw [h, Bits.ofInt_add]
      rfl
  exact gen qs _ _ rfl

/-- Sum and size of the inputs at one place. -/
theorem sum_toward {frac : ℕ} (l : List ℚ) :
    |((l.map fun q => Fixed.toInt (q * 2 ^ frac)).sum : ℚ)| ≤ (l.map (|·|)).sum * 2 ^ frac ∧
    |((l.map fun q => Fixed.toInt (q * 2 ^ frac)).sum : ℚ) - l.sum * 2 ^ frac| ≤ l.length := by
  induction l with
  | nil => simp
  | cons q l ih =>
    obtain ⟨a1, a2, -⟩ := Fixed.toInt_spec (q * 2 ^ frac)
    rw [abs_mul, abs_of_pos (show (0 : ℚ) < 2 ^ frac by positivity)] at a1
    simp only [List.map_cons, List.sum_cons, List.length_cons]
    rw [Int.cast_add, Nat.cast_add, Nat.cast_one]
    constructor
    · refine (abs_add_le _ _).trans ?_
      rw [add_mul]
      exact add_le_add a1 ih.1
    · have e : (Fixed.toInt (q * 2 ^ frac) : ℚ) + ((l.map fun q => Fixed.toInt (q * 2 ^ frac)).sum : ℚ)
          - (q + l.sum) * 2 ^ frac = ((Fixed.toInt (q * 2 ^ frac) : ℚ) - q * 2 ^ frac) +
            (((l.map fun q => Fixed.toInt (q * 2 ^ frac)).sum : ℚ) - l.sum * 2 ^ frac) := by ring
      rw [e]
      refine (abs_add_le _ _).trans ?_
      linarith [ih.2, a2.le]

/-- **C83** (ABY3, averages). Any number of owners share a tensor each; the sum of the tensors divided
by their number holds, for every sharing and draw, the average of the inputs to within `2 + Σ |q|` units
in the last place, and to within two units if the number of owners is a power of two. -/
theorem average_close {frac : ℕ} (hw : 2 * frac + 2 ≤ w) (qs : List (Fin n → ℚ)) (hne : qs ≠ [])
    (hm : (qs.length : ℚ) * 2 ^ (frac + 2) ≤ 2 ^ w)
    (h1 : ∀ i, (qs.map fun q => |q i|).sum * 2 ^ frac < 2 ^ (w - 2))
    (h2 : ∀ i, (qs.map fun q => |q i|).sum / qs.length * (2 ^ frac * 2 ^ frac) < 2 ^ (w - 2)) :
    ∃ p, average frac (qs.map fun q => (fun i => constWord w frac (q i) : T (.arith w n))) = .ok p ∧
      M.All (fun o => ∃ z : T (.arith w n), Holds z o ∧ ∀ i,
        |real frac (z i) - (qs.map fun q => q i).sum / qs.length| ≤
          (2 + (qs.map fun q => |q i|).sum) / 2 ^ frac ∧
        ((∃ a : ℕ, qs.length = 2 ^ a) →
          |real frac (z i) - (qs.map fun q => q i).sum / qs.length| ≤ 2 / 2 ^ frac)) p := by
  obtain ⟨q, qs, rfl⟩ := List.exists_cons_of_ne_nil hne
  have hN : (0 : ℚ) < 2 ^ frac := by positivity
  have hk0 : (0 : ℚ) < ((qs.length + 1 : ℕ) : ℚ) := by positivity
  have hk1 : (1 : ℚ) ≤ ((qs.length + 1 : ℕ) : ℚ) := by push_cast; linarith [Nat.cast_nonneg (α := ℚ) qs.length]
  obtain ⟨plan, hp⟩ := div_possible (w := w) (frac := frac) hw (y := ((qs.length + 1 : ℕ) : ℚ)) hk0.ne' (by
    intro a ha
    rw [List.length_cons, ha, ← pow_add] at hm
    have := (pow_le_pow_iff_right₀ (by norm_num : (1 : ℚ) < 2)).1 hm
    omega)
  set vs := qs.map fun q => (fun i => constWord w frac (q i) : T (.arith w n)) with hvs
  have hlen : vs.length = qs.length := by rw [hvs, List.length_map]
  obtain ⟨p, p', e, -, hs⟩ := average_sim (σ := 0) (frac := frac) (plan := plan)
    (v := fun i => constWord w frac (q i)) (v' := fun i => constWord w frac (q i)) (vs := vs) (vs' := vs) rfl
    (by rw [hlen]; exact hp)
  refine ⟨p, e, hs.left ?_⟩
  rintro o o' ⟨z, z', hz, -, -, ho⟩
  refine ⟨z, ho.1, fun i => ?_⟩
  have hzi := hz i
  rw [hvs, foldl_const] at hzi
  have hmap : Fixed.toInt (q i * 2 ^ frac) + (qs.map fun r => Fixed.toInt (r i * 2 ^ frac)).sum =
      (((q :: qs).map fun r => r i).map fun q => Fixed.toInt (q * 2 ^ frac)).sum := by
    simp [List.map_map, Function.comp_def]
  rw [hmap] at hzi
  obtain ⟨s1, s2⟩ := sum_toward (frac := frac) ((q :: qs).map fun r => r i)
  set V := (((q :: qs).map fun r => r i).map fun q => Fixed.toInt (q * 2 ^ frac)).sum with hV
  have hA : (((q :: qs).map (fun r => r i)).map (|·|)).sum = ((q :: qs).map fun r => |r i|).sum := by
    simp [List.map_map, Function.comp_def]
  rw [hA] at s1
  rw [List.length_map] at s2
  have g1 := h1 i
  have g2 := h2 i
  set A := ((q :: qs).map fun r => |r i|).sum with hAdef
  set S := ((q :: qs).map fun r => r i).sum with hS
  have hlc : (((q :: qs).length : ℕ) : ℚ) = ((qs.length + 1 : ℕ) : ℚ) := by rw [List.length_cons]
  rw [hlc] at s2 g2 ⊢
  set k : ℚ := ((qs.length + 1 : ℕ) : ℚ) with hk
  have hVA : |(V : ℚ) / 2 ^ frac| ≤ A := by
    rw [abs_div, abs_of_pos hN, div_le_iff₀ hN]
    exact s1
  have hA0 : 0 ≤ A := (abs_nonneg _).trans hVA
  have hp1 : (2 : ℚ) ^ (w - 1) = 2 * 2 ^ (w - 2) := by rw [← pow_succ']; congr 1; omega
  have hpos : (0 : ℚ) < 2 ^ (w - 2) := by positivity
  have hr : real frac (BitVec.ofInt w V) = (V : ℚ) / 2 ^ frac := by
    refine real_of_int (by omega) rfl ?_
    have := mul_le_mul_of_nonneg_right hVA hN.le
    linarith
  have hpk : divPlan w frac true k = .ok plan := hp
  obtain ⟨d1, d2⟩ := div_word (by omega) hpk hzi (by
      rw [hr]
      exact (mul_le_mul_of_nonneg_right hVA hN.le).trans_lt g1) (by
      rw [hr, abs_div, abs_of_pos hk0]
      refine lt_of_le_of_lt (mul_le_mul_of_nonneg_right ?_ (by positivity)) g2
      exact div_le_div_of_nonneg_right hVA hk0.le) (by
      rw [abs_div, abs_one, abs_of_pos hk0]
      have : 1 / k ≤ 1 := by rw [div_le_one hk0]; exact hk1
      have h3 : (2 : ℚ) ^ frac ≤ 2 ^ (w - 2) := pow_le_pow_right₀ (by norm_num) (by omega)
      have h4 := mul_le_mul_of_nonneg_right this hN.le
      linarith)
  rw [hr] at d1 d2
  have hsum : |(V : ℚ) / 2 ^ frac / k - S / k| ≤ 1 / 2 ^ frac := by
    have e1 : (V : ℚ) / 2 ^ frac / k - S / k = ((V : ℚ) - S * 2 ^ frac) / (k * 2 ^ frac) := by
      field_simp
    rw [e1, abs_div, abs_of_pos (mul_pos hk0 hN), div_le_div_iff₀ (mul_pos hk0 hN) hN, one_mul]
    exact mul_le_mul_of_nonneg_right s2 hN.le
  have tri : |real frac (z i) - S / k| ≤
      |real frac (z i) - (V : ℚ) / 2 ^ frac / k| + |(V : ℚ) / 2 ^ frac / k - S / k| :=
    abs_sub_le _ _ _
  constructor
  · have h5 : (1 + |(V : ℚ) / 2 ^ frac|) / 2 ^ frac ≤ (1 + A) / 2 ^ frac :=
      div_le_div_of_nonneg_right (by linarith) hN.le
    have h6 : (2 + A) / 2 ^ frac = (1 + A) / 2 ^ frac + 1 / 2 ^ frac := by ring
    rw [h6]
    linarith
  · rintro ⟨a, ha⟩
    have h7 := d2 ⟨a, by rw [hk, ← List.length_cons (a := q), ha]; push_cast; exact (zpow_natCast _ _).symm⟩
    have h6 : (2 : ℚ) / 2 ^ frac = 1 / 2 ^ frac + 1 / 2 ^ frac := by ring
    rw [h6]
    linarith

/-- The precision is lost in the constant `1 / m`: with more than `2^frac` owners, whose number is no
power of two, the constant is encoded as zero and the "average" is zero or one unit, whatever the
inputs are. -/
theorem average_false {frac : ℕ} (hw : 2 * frac + 2 ≤ w) (vs : List (T (.arith w n)))
    (hm : 2 ^ frac < vs.length) (h2 : ∀ a, vs.length ≠ 2 ^ a) :
    ∃ p, average frac vs = .ok p ∧
      M.All (fun o => ∃ z : T (.arith w n), Holds z o ∧ ∀ i, z i = 0 ∨ z i = 1) p := by
  obtain ⟨v, vs, rfl⟩ := List.exists_cons_of_ne_nil (l := vs) (by
    rintro rfl
    simp at hm)
  have hN : (0 : ℚ) < 2 ^ frac := by positivity
  have hm' : (2 : ℚ) ^ frac < ((vs.length + 1 : ℕ) : ℚ) := by
    rw [List.length_cons] at hm
    exact_mod_cast hm
  have hk0 : (0 : ℚ) < ((vs.length + 1 : ℕ) : ℚ) := hN.trans hm'
  have hl : log2? ((vs.length + 1 : ℕ) : ℚ) = none := by
    rcases log2?_natCast (vs.length + 1) with h | ⟨h, -⟩ | h
    · exact absurd (by
        have := log2?_eq h
        have h3 : ((vs.length + 1 : ℕ) : ℚ) = ((2 ^ Nat.log 2 (vs.length + 1) : ℕ) : ℚ) := by
          rw [this, zpow_natCast]
          push_cast
          rfl
        exact_mod_cast h3) (h2 (Nat.log 2 (vs.length + 1)))
    · exact h
    · omega
  obtain ⟨pl, hpl⟩ := mulPlan_ok (w := w) (frac := frac) (sx := true) (sy := true) (fun _ => by omega)
  have hc : constWord w frac (1 / ((vs.length + 1 : ℕ) : ℚ)) = 0 := by
    obtain ⟨a1, -, -⟩ := Fixed.toInt_spec (1 / ((vs.length + 1 : ℕ) : ℚ) * 2 ^ frac)
    have h1 : |1 / ((vs.length + 1 : ℕ) : ℚ) * 2 ^ frac| < 1 := by
      rw [abs_of_pos (by positivity), one_div_mul_eq_div, div_lt_one hk0]
      exact hm'
    have h3 : |Fixed.toInt (1 / ((vs.length + 1 : ℕ) : ℚ) * 2 ^ frac)| < 1 := by
      exact_mod_cast a1.trans_lt h1
    unfold constWord
    rw [Int.abs_lt_one_iff.1 h3]
    exact Bits.ofInt_natCast 0
  have hp : divPlan w frac true ((vs.length + 1 : ℕ) : ℚ) = .ok (.times pl 0) := by
    unfold divPlan
    rw [if_neg hk0.ne', hl, hpl]
    simp only [if_true, hc]
  obtain ⟨p, p', e, -, hs⟩ := average_sim (σ := 0) (v := v) (v' := v) (vs := vs) (vs' := vs) rfl hp
  refine ⟨p, e, hs.left ?_⟩
  rintro o o' ⟨z, z', hz, -, -, ho⟩
  refine ⟨z, ho.1, fun i => ?_⟩
  have hzi := hz i
  cases pl with
  | none =>
    left
    have : z i = _ * 0#w := hzi
    rw [this, BitVec.mul_zero]
    rfl
  | some q =>
    have : TruncOk .heuristic frac (_ * 0#w) (z i) := hzi
    rw [BitVec.mul_zero] at this
    have := this (by rw [BitVec.toInt_zero]; exact neg_nonpos.2 (by positivity))
      (by rw [BitVec.toInt_zero]; positivity)
    rw [BitVec.toInt_zero, Int.zero_ediv] at this
    rcases this with h | h
    · left; rw [h]; exact Bits.ofInt_natCast 0
    · right; rw [h]; exact Bits.ofInt_natCast 1

/-- An empty list of inputs raises. -/
theorem average_empty (frac : ℕ) : average frac ([] : List (T (.arith w n))) = .error .typeError := rfl

/-- **C83** (ABY3, secrecy). What a server sees of a division depends on nothing but the divisor. -/
theorem div_secrecy {frac : ℕ} {sc : Bool} {y : ℚ} {plan : DivPlan w}
    (hp : divPlan w frac sc y = .ok plan) (σ : Fin 3) (x x' : T (.arith w n)) :
    M.view σ (share x >>= divRun frac plan) = M.view σ (share x' >>= divRun frac plan) :=
  hides_of_sim fun _ _ h => divRun_sim hp h

/-- **C83** (ABY3, secrecy). What a server sees of an average depends on nothing but the number of
owners: for any two lists of tensors of the same length it is equally distributed. -/
theorem average_secrecy {frac : ℕ} (σ : Fin 3) {vs vs' : List (T (.arith w n))}
    (hl : vs.length = vs'.length) {p p' : M (Shares (T (.arith w n)))}
    (hp : average frac vs = .ok p) (hp' : average frac vs' = .ok p') :
    M.view σ p = M.view σ p' := by
  cases vs with
  | nil => cases hp
  | cons v vs =>
    cases vs' with
    | nil => cases hl
    | cons v' vs' =>
      cases hd : divPlan w frac true ((vs.length + 1 : ℕ) : ℚ) with
      | error e =>
        have : average frac (v :: vs) = .error e := by
          show (match divPlan w frac true ((vs.length + 1 : ℕ) : ℚ) with
            | .error e => Except.error e
            | .ok plan => _) = _
          rw [hd]
        rw [this] at hp
        cases hp
      | ok plan =>
        obtain ⟨q, q', e, e', hs⟩ := average_sim (σ := σ) (v := v) (v' := v') (vs := vs) (vs' := vs')
          (by simpa using hl) hd
        rw [e] at hp
        rw [e'] at hp'
        cases hp
        cases hp'
        exact hs.dist_eq

/-! ## Cases that meet the hypotheses -/

/-- Three owners with the inputs `1.5`, `-2` and `7`, in 64-bit words with 16 fractional bits: the
average is within `12.5` units of `13/6`. -/
example : ∃ p, average 16 (([fun _ => 3 / 2, fun _ => -2, fun _ => 7] : List (Fin 1 → ℚ)).map
      fun q => (fun i => constWord 64 16 (q i) : T (.arith 64 1))) = .ok p ∧
    M.All (fun o => ∃ z : T (.arith 64 1), Holds z o ∧
      |real 16 (z 0) - 13 / 6| ≤ 25 / 2 / 2 ^ 16) p := by
  obtain ⟨p, e, h⟩ := average_close (w := 64) (frac := 16) (n := 1) (by norm_num)
    [fun _ => 3 / 2, fun _ => -2, fun _ => 7] (by simp) (by norm_num)
    (fun i => by norm_num [abs_of_pos, abs_of_neg]) (fun i => by norm_num [abs_of_pos, abs_of_neg])
  refine ⟨p, e, h.mono ?_⟩
  rintro o ⟨z, hz, hb⟩
  refine ⟨z, hz, ?_⟩
  have := (hb 0).1
  norm_num [abs_of_pos, abs_of_neg] at this ⊢
  linarith

/-- `65537` owners who all hold `1`: their average is `1`, what comes out is at most `1 / 65536`. -/
example : ∃ p, average 16 (List.replicate 65537 (fun _ => constWord 64 16 1 : T (.arith 64 1))) = .ok p ∧
    M.All (fun o => ∃ z : T (.arith 64 1), Holds z o ∧ ∀ i, z i = 0 ∨ z i = 1) p := by
  refine average_false (by norm_num) _ (by rw [List.length_replicate]; norm_num) fun a => ?_
  rw [List.length_replicate]
  intro h
  have h1 : a < 17 := (Nat.pow_lt_pow_iff_right (a := 2) (by norm_num)).1 (by rw [← h]; norm_num)
  have h2 : 16 < a := (Nat.pow_lt_pow_iff_right (a := 2) (by norm_num)).1 (by rw [← h]; norm_num)
  omega

/-- A tensor of integers divided by `3` is zero. -/
example (x : T (.arith 64 2)) (X : Shares (T (.arith 64 2))) (hX : Holds x X) :
    ∃ plan, divPlan 64 16 false 3 = .ok plan ∧
      M.All (fun o => Holds (fun _ => 0 : T (.arith 64 2)) o) (divRun 16 plan X) := by
  refine div_unscaled_false (by norm_num [abs_of_pos]) ?_ hX
  have := log2?_natCast 3
  rcases this with h | ⟨h, -⟩ | h
  · have h2 := log2?_eq h
    rw [show Nat.log 2 3 = 1 by decide] at h2
    norm_num at h2
  · exact_mod_cast h
  · omega

end Verif.Aby3
