import Verif.Aby3.ExpLemmas
import Verif.Fixed.Lemmas
import Mathlib.Data.Rat.Floor

/-!
# C51: powers of two

`exp2` splits `x` into its floor and its fractional part, evaluates a polynomial at the fractional
part and multiplies by a power of two. For all tensors, sharings and draws: which polynomial is
evaluated and how closely, that the floor is treated exactly, and what happens outside the range.
-/

namespace Verif.Aby3

open Verif

variable {w n : ℕ}

/-- `Σ c_i q^i` for `i = 0 … D`, with the coefficients of the source. -/
def expPoly (D : ℕ) (q : ℚ) : ℚ := ∑ i ∈ Finset.range (D + 1), padeCoeffs.getD i 0 * q ^ i

/-- The degree of the polynomial that is evaluated. -/
def usedDegree (frac : ℕ) : ℕ := 1 + (padeDegree frac - 2)

/-- The rounding error of the polynomial. -/
def padeErr (frac : ℕ) : ℚ := 2 * (usedDegree frac * usedDegree frac) / 2 ^ frac

attribute [local irreducible] M.All M.Sim

/-! ## Degrees and coefficients -/

theorem padeDegree_le (frac : ℕ) : padeDegree frac ≤ 8 := by
  unfold padeDegree
  have : padeCoeffs.length = 9 := rfl
  omega

theorem usedDegree_le (frac : ℕ) : usedDegree frac ≤ 7 := by
  have := padeDegree_le frac
  unfold usedDegree
  omega

/-- The degree with 16 fractional bits (64-bit words) and with 32 (128-bit words). -/
theorem padeDegree_presets : padeDegree 16 = 6 ∧ padeDegree 32 = 8 := by decide +kernel

theorem used_small {frac : ℕ} (hf : 1 ≤ frac) :
    (usedDegree frac * usedDegree frac : ℚ) ≤ 2 ^ frac := by
  have key : usedDegree frac * usedDegree frac ≤ 2 ^ frac := by
    by_cases h : 6 ≤ frac
    · have h1 := usedDegree_le frac
      calc _ ≤ 7 * 7 := Nat.mul_le_mul h1 h1
        _ ≤ 2 ^ 6 := by norm_num
        _ ≤ _ := Nat.pow_le_pow_right (by norm_num) h
    · have : frac = 1 ∨ frac = 2 ∨ frac = 3 ∨ frac = 4 ∨ frac = 5 := by omega
      rcases this with rfl | rfl | rfl | rfl | rfl <;> decide +kernel
  exact_mod_cast key

theorem padeErr_le {frac : ℕ} (hf : 1 ≤ frac) : padeErr frac ≤ 2 := by
  unfold padeErr
  rw [div_le_iff₀ (by positivity)]
  have := used_small hf
  linarith

theorem padeErr_nonneg (frac : ℕ) : 0 ≤ padeErr frac := by unfold padeErr; positivity

theorem padeCoeffs_range : ∀ c ∈ padeCoeffs, 0 ≤ c ∧ c ≤ 1 := by decide +kernel

theorem constWord_real {frac : ℕ} (hw : frac + 2 ≤ w) {q : ℚ} (h0 : 0 ≤ q) (h1 : q ≤ 1) :
    |real frac (constWord w frac q)| ≤ 1 ∧ |real frac (constWord w frac q) - q| ≤ 1 / 2 ^ frac := by
  have hN : (0 : ℚ) < 2 ^ frac := by positivity
  obtain ⟨a1, a2, a3⟩ := Fixed.toInt_spec (q * 2 ^ frac)
  have hq : |q * 2 ^ frac| ≤ 2 ^ frac := by
    rw [abs_of_nonneg (by positivity)]
    nlinarith
  have hV : |(Fixed.toInt (q * 2 ^ frac) : ℚ)| ≤ 2 ^ frac := a1.trans hq
  have hVz : |Fixed.toInt (q * 2 ^ frac)| ≤ 2 ^ frac := by exact_mod_cast hV
  rw [abs_le] at hVz
  have hp : (2 : ℤ) ^ frac < 2 ^ (w - 1) := pow_lt_pow_right₀ (by norm_num) (by omega)
  have e : (constWord w frac q).toInt = Fixed.toInt (q * 2 ^ frac) := by
    unfold constWord
    rw [Bits.toInt_ofInt (by omega) (by omega) (by omega)]
  unfold real
  rw [e]
  constructor
  · rw [abs_div, abs_of_pos hN, div_le_one hN]
    exact hV
  · have : (Fixed.toInt (q * 2 ^ frac) : ℚ) / 2 ^ frac - q =
        ((Fixed.toInt (q * 2 ^ frac) : ℚ) - q * 2 ^ frac) / 2 ^ frac := by field_simp
    rw [this, abs_div, abs_of_pos hN]
    exact div_le_div_of_nonneg_right a2.le hN.le

theorem constWord_one {frac : ℕ} (hw : frac + 2 ≤ w) : real frac (constWord w frac 1) = 1 := by
  have e0 : Fixed.toInt (1 * 2 ^ frac : ℚ) = 2 ^ frac := by
    rw [one_mul]
    exact_mod_cast Fixed.toInt_intCast (2 ^ frac)
  have hp : (2 : ℤ) ^ frac < 2 ^ (w - 1) := pow_lt_pow_right₀ (by norm_num) (by omega)
  have h0 : (0 : ℤ) ≤ 2 ^ frac := by positivity
  unfold real constWord
  rw [e0, Bits.toInt_ofInt (by omega) (by omega) hp]
  push_cast
  exact div_self (by positivity)

theorem evalFrom_close {x δ : ℚ} (hx : |x| ≤ 1) (cs ds : List ℚ) (i : ℕ)
    (h : List.Forall₂ (fun c d => |c - d| ≤ δ) cs ds) :
    |evalFrom x i cs - evalFrom x i ds| ≤ cs.length * δ := by
  induction h generalizing i with
  | nil => simp [evalFrom]
  | @cons c d cs ds hcd _ ih =>
    simp only [evalFrom, List.length_cons]
    have e : c * x ^ i + evalFrom x (i + 1) cs - (d * x ^ i + evalFrom x (i + 1) ds) =
        (c - d) * x ^ i + (evalFrom x (i + 1) cs - evalFrom x (i + 1) ds) := by ring
    rw [e]
    have h1 : |(c - d) * x ^ i| ≤ δ := by
      rw [abs_mul, abs_pow]
      have : |x| ^ i ≤ 1 := pow_le_one₀ (abs_nonneg _) hx
      have h0 := abs_nonneg (c - d)
      calc _ ≤ |c - d| * 1 := mul_le_mul_of_nonneg_left this h0
        _ ≤ δ := by linarith
    have := (abs_add_le _ _).trans (add_le_add h1 (ih (i + 1)))
    push_cast
    linarith

theorem evalFrom_take (q : ℚ) (cs : List ℚ) (D i : ℕ) (hD : D ≤ cs.length) :
    evalFrom q i (cs.take D) = ∑ j ∈ Finset.range D, cs.getD j 0 * q ^ (i + j) := by
  induction cs generalizing D i with
  | nil =>
    obtain rfl : D = 0 := by simpa using hD
    simp [evalFrom]
  | cons c cs ih =>
    cases D with
    | zero => simp [evalFrom]
    | succ D =>
      rw [List.take_succ_cons, evalFrom, ih D (i + 1) (by simpa using hD), Finset.sum_range_succ']
      rw [add_comm]
      congr 1
      refine Finset.sum_congr rfl fun j _ => ?_
      rw [List.getD_cons_succ, show i + 1 + j = i + (j + 1) by omega]

theorem expPoly_eq (q : ℚ) (D : ℕ) (hD : D ≤ 8) :
    expPoly D q = 1 + evalFrom q 1 ((padeCoeffs.drop 1).take D) := by
  rw [evalFrom_take _ _ _ _ (by simpa [padeCoeffs] using hD), expPoly, Finset.sum_range_succ', add_comm]
  congr 1
  · simp [padeCoeffs]
  · refine Finset.sum_congr rfl fun j _ => ?_
    rw [add_comm 1 j]
    rfl

theorem usedCoeffs_length (frac : ℕ) : (usedCoeffs w frac).length = usedDegree frac := by
  have h := usedDegree_le frac
  unfold usedDegree at h
  unfold usedCoeffs usedDegree
  rw [List.length_take, List.length_map]
  have : (padeCoeffs.drop 1).length = 8 := rfl
  omega

theorem polyErr_one (frac : ℕ) (D : ℕ) :
    polyErr frac 1 2 D + D / 2 ^ frac = 2 * (D * D) / 2 ^ frac := by
  induction D with
  | zero => simp [polyErr_zero]
  | succ D ih =>
    rw [polyErr_succ]
    unfold prodErr
    push_cast
    have : polyErr frac 1 2 D = 2 * (D * D) / 2 ^ frac - D / 2 ^ frac := by linarith
    rw [this]
    simp only [one_pow, add_sub_cancel_right]
    ring

/-- Every possible value of the polynomial is close to the polynomial of degree `usedDegree`. -/
theorem PadeVal.close {frac : ℕ} (hf : 1 ≤ frac) (hw : 2 * frac + 5 ≤ w) {x u : T (.arith w n)}
    (h : PadeVal frac x u) (k : Fin n) (hx : |real frac (x k)| ≤ 1) :
    Close frac (u k) (expPoly (usedDegree frac) (real frac (x k))) (padeErr frac) := by
  have hL := usedCoeffs_length (w := w) frac
  have hfit : 2 * 2 * (1 : ℚ) ^ usedDegree frac * (2 ^ frac * 2 ^ frac) < 2 ^ (w - 2) := by
    rw [one_pow, mul_one, ← pow_add, show (2 * 2 : ℚ) = 2 ^ 2 by norm_num, ← pow_add]
    exact pow_lt_pow_right₀ (by norm_num) (by omega)
  have hmem : ∀ c ∈ (usedCoeffs w frac).map Coeff.word, |c.num frac| ≤ 2 := by
    intro c hc
    obtain ⟨v, hv, rfl⟩ := List.mem_map.1 hc
    obtain ⟨q, hq, rfl⟩ := List.mem_map.1 (List.mem_of_mem_take hv)
    obtain ⟨q0, q1⟩ := padeCoeffs_range q (List.mem_of_mem_drop hq)
    exact (constWord_real (by omega) q0 q1).1.trans (by norm_num)
  have key := PolyVal.close (by omega) (le_refl (1 : ℚ)) (le_refl (2 : ℚ)) (used_small hf) hfit h k hx hmem
    one_pos (by rw [List.length_map, hL]; omega) (q := real frac (constWord w frac 1))
    (by rw [Nat.sub_self, polyErr_zero]; exact Close.refl frac _)
  rw [Nat.sub_self, Nat.zero_add, List.length_map, hL, constWord_one (by omega), List.map_map] at key
  obtain ⟨V, e, hV⟩ := key
  refine ⟨V, e, ?_⟩
  rw [expPoly_eq _ _ ((usedDegree_le frac).trans (by norm_num))]
  have hcl := evalFrom_close (δ := 1 / 2 ^ frac) hx ((usedCoeffs w frac).map (Coeff.num frac ∘ Coeff.word))
    ((padeCoeffs.drop 1).take (usedDegree frac)) 1 (by
      unfold usedCoeffs
      rw [← List.map_take, List.map_map]
      show List.Forall₂ _ (((padeCoeffs.drop 1).take (usedDegree frac)).map _) _
      rw [List.forall₂_map_left_iff, List.forall₂_same]
      intro q hq
      obtain ⟨q0, q1⟩ := padeCoeffs_range q (List.mem_of_mem_drop (List.mem_of_mem_take hq))
      exact (constWord_real (by omega) q0 q1).2)
  rw [List.length_map, hL] at hcl
  have herr : padeErr frac = polyErr frac 1 2 (usedDegree frac) + usedDegree frac * (1 / 2 ^ frac) := by
    unfold padeErr
    rw [← polyErr_one]
    ring
  rw [herr]
  generalize evalFrom (real frac (x k)) 1 ((usedCoeffs w frac).map (Coeff.num frac ∘ Coeff.word)) = A at *
  generalize evalFrom (real frac (x k)) 1 ((padeCoeffs.drop 1).take (usedDegree frac)) = B at *
  have e1 : (V : ℚ) / 2 ^ frac - (1 + B) = ((V : ℚ) / 2 ^ frac - (1 + A)) + (A - B) := by ring
  rw [e1]
  exact (abs_add_le _ _).trans (add_le_add hV hcl)

theorem expPoly_range {D : ℕ} (hD : D ≤ 8) {q : ℚ} (h0 : 0 ≤ q) (h1 : q ≤ 1) :
    0 ≤ expPoly D q ∧ expPoly D q ≤ 2 := by
  have hnn : ∀ i, 0 ≤ padeCoeffs.getD i 0 := by
    intro i
    by_cases hi : i < padeCoeffs.length
    · rw [List.getD_eq_getElem _ _ hi]
      exact (padeCoeffs_range _ (List.getElem_mem hi)).1
    · rw [List.getD_eq_default _ _ (by omega)]
  constructor
  · exact Finset.sum_nonneg fun i _ => mul_nonneg (hnn i) (pow_nonneg h0 i)
  · calc expPoly D q ≤ ∑ i ∈ Finset.range (8 + 1), padeCoeffs.getD i 0 * q ^ i :=
        Finset.sum_le_sum_of_subset_of_nonneg (Finset.range_mono (by omega))
          fun i _ _ => mul_nonneg (hnn i) (pow_nonneg h0 i)
      _ ≤ ∑ i ∈ Finset.range (8 + 1), padeCoeffs.getD i 0 :=
        Finset.sum_le_sum fun i _ => mul_le_of_le_one_right (hnn i) (pow_le_one₀ h0 h1)
      _ ≤ 2 := by decide +kernel

/-! ## The polynomial -/

/-- **C51** (part). `exp2_pade` at numbers between 0 and 1 is within `padeErr` of the polynomial with
the coefficients of the source, up to degree `usedDegree`. What is missing from the claim is the
leading term: see `exp2_pade_false`. -/
theorem exp2_pade_partial {frac : ℕ} (hf : 1 ≤ frac) (hw : 2 * frac + 5 ≤ w) {x : T (.arith w n)}
    {X : Shares (T (.arith w n))} (hx : Holds x X)
    (hr : ∀ i, 0 ≤ real frac (x i) ∧ real frac (x i) ≤ 1) (hd : padeDegree frac ≠ 0) :
    ∃ m, exp2Pade frac X = .ok m ∧ M.All (fun o => ∃ z : T (.arith w n), BodyHolds z o ∧ ∀ i,
      |real frac (z i) - expPoly (usedDegree frac) (real frac (x i))| ≤ padeErr frac) m := by
  obtain ⟨plan, hp⟩ := mulPlan_ok (sx := true) (sy := true) (frac := frac) (w := w)
    fun _ => by omega
  refine ⟨_, by simp only [exp2Pade, if_neg hd, hp]; rfl, ?_⟩
  refine (padeRun_sim hp (hx.alike 0)).left ?_
  rintro o o' ⟨u, u', hu, -, h⟩
  refine ⟨u, h.holds, fun i => ?_⟩
  obtain ⟨h0, h1⟩ := hr i
  have habs : |real frac (x i)| ≤ 1 := by rw [abs_of_nonneg h0]; exact h1
  refine (hu.close hf hw i habs).value (by omega) ?_
  obtain ⟨p0, p1⟩ := expPoly_range ((usedDegree_le frac).trans (by norm_num)) h0 h1
  have := padeErr_le hf
  rw [abs_of_nonneg p0]
  calc _ ≤ (2 + 2) * (2 : ℚ) ^ frac := mul_le_mul_of_nonneg_right (by linarith) (by positivity)
    _ = 2 ^ (frac + 2) := by rw [pow_add]; ring
    _ < 2 ^ (w - 1) := pow_lt_pow_right₀ (by norm_num) (by omega)

/-- With no fractional bits `exp2_pade` raises `IndexError`. -/
theorem exp2_pade_raises (X : Shares (T (.arith w n))) : exp2Pade 0 X = .error .indexError := by
  have : padeDegree 0 = 0 := by decide +kernel
  simp only [exp2Pade, if_pos this]

/-- From degree 2 on the polynomial that is evaluated has one degree less than the code determines:
the loop over the powers stops one short. -/
theorem usedDegree_short {frac : ℕ} (h : 2 ≤ padeDegree frac) : usedDegree frac + 1 = padeDegree frac := by
  unfold usedDegree
  omega

/-- **C51** is false as stated: the leading coefficient does not take part. With 32 fractional bits
(the 128-bit configuration) the polynomial should have degree 8; at the largest fraction every run of
the protocol gives a result more than 7800 units in the last place below it, eighty times the
rounding error. -/
theorem exp2_pade_false {X : Shares (T (.arith 128 1))}
    (hx : Holds (s := .arith 128 1) (fun _ => BitVec.ofInt 128 (2 ^ 32 - 1)) X) :
    ∃ m, exp2Pade 32 X = .ok m ∧ M.All (fun o => ∃ z : T (.arith 128 1), BodyHolds z o ∧
      real 32 (z 0) < expPoly (padeDegree 32) (1 - 1 / 2 ^ 32) - 7800 / 2 ^ 32) m ∧
      padeErr 32 < 100 / 2 ^ 32 := by
  have hreal : real 32 (BitVec.ofInt 128 (2 ^ 32 - 1)) = 1 - 1 / 2 ^ 32 := by
    unfold real
    rw [Bits.toInt_ofInt (by norm_num) (by norm_num) (by norm_num)]
    norm_num
  have hu : usedDegree 32 = 7 := by decide +kernel
  have hd : padeDegree 32 = 8 := padeDegree_presets.2
  have herr : padeErr 32 < 100 / 2 ^ 32 := by
    unfold padeErr
    rw [hu]
    norm_num
  obtain ⟨m, hm, hall⟩ := exp2_pade_partial (frac := 32) (by norm_num) (by norm_num) hx
    (fun i => by rw [hreal]; norm_num) (by rw [hd]; norm_num)
  refine ⟨m, hm, hall.mono ?_, herr⟩
  rintro o ⟨z, hz, hcl⟩
  refine ⟨z, hz, ?_⟩
  have h := (abs_le.1 (hcl 0)).2
  rw [hreal, hu] at h
  rw [hd]
  have step : expPoly 8 (1 - 1 / 2 ^ 32) = expPoly 7 (1 - 1 / 2 ^ 32) +
      18633 / 10000000000 * (1 - 1 / 2 ^ 32) ^ 8 := by
    unfold expPoly
    rw [Finset.sum_range_succ _ 8]
    rfl
  rw [step]
  have : (7900 : ℚ) / 2 ^ 32 < 18633 / 10000000000 * (1 - 1 / 2 ^ 32) ^ 8 := by norm_num
  have e : (7900 : ℚ) / 2 ^ 32 = 7800 / 2 ^ 32 + 100 / 2 ^ 32 := by norm_num
  linarith

/-! ## Floor and fractional part -/

theorem floor_real (frac : ℕ) (v : BitVec w) : ⌊real frac v⌋ = v.toInt / 2 ^ frac := by
  unfold real
  have := Rat.floor_intCast_div_natCast v.toInt (2 ^ frac)
  push_cast at this
  exact this

theorem toNat_mod {k : ℕ} (hk : k ≤ w) (v : BitVec w) : ((v.toNat % 2 ^ k : ℕ) : ℤ) = v.toInt % 2 ^ k := by
  have hd : (2 : ℤ) ^ k ∣ 2 ^ w := pow_dvd_pow _ hk
  rw [BitVec.toInt_eq_toNat_cond]
  push_cast
  split
  · rfl
  · obtain ⟨c, hc⟩ := hd
    rw [hc, Int.sub_mul_emod_self_left]

theorem toNat_div {frac k : ℕ} (hk : frac + k ≤ w) (v : BitVec w) :
    ((v.toNat / 2 ^ frac % 2 ^ k : ℕ) : ℤ) = v.toInt / 2 ^ frac % 2 ^ k := by
  have hd : (2 : ℤ) ^ (frac + k) ∣ 2 ^ w := pow_dvd_pow _ hk
  rw [BitVec.toInt_eq_toNat_cond]
  push_cast
  split
  · rfl
  · obtain ⟨c, hc⟩ := hd
    rw [show (2 : ℤ) ^ w = 2 ^ frac * (2 ^ k * c) by rw [hc, pow_add]; ring,
      Int.sub_mul_ediv_left _ _ (by positivity), Int.sub_mul_emod_self_left]

theorem fracWord_real {frac : ℕ} (hw : frac + 2 ≤ w) (x : T (.arith w n)) (i : Fin n) :
    real frac (fracWord frac x i) = Int.fract (real frac (x i)) := by
  have hN : (0 : ℚ) < 2 ^ frac := by positivity
  have hlt : (x i).toNat % 2 ^ frac < 2 ^ frac := Nat.mod_lt _ (by positivity)
  have e : (fracWord frac x i).toInt = (x i).toInt % 2 ^ frac := by
    unfold fracWord
    rw [← toNat_mod (by omega), ← Bits.ofInt_natCast, Bits.toInt_ofInt (by omega)]
    · have : (0 : ℤ) ≤ 2 ^ (w - 1) := by positivity
      omega
    · have h2 : 2 ^ frac ≤ 2 ^ (w - 1) := Nat.pow_le_pow_right (by norm_num) (by omega)
      have : (x i).toNat % 2 ^ frac < 2 ^ (w - 1) := by omega
      exact_mod_cast this
  rw [Int.fract, floor_real]
  unfold real
  rw [e, Int.emod_def]
  push_cast
  field_simp

theorem twoPow_toInt {k : ℕ} (hk : k + 2 ≤ w) : (BitVec.ofNat w (2 ^ k)).toInt = 2 ^ k := by
  rw [← Bits.ofInt_natCast, Bits.toInt_ofInt (by omega)]
  · push_cast; rfl
  · have : (0 : ℤ) ≤ 2 ^ (w - 1) := by positivity
    have h2 : (0 : ℤ) ≤ ((2 ^ k : ℕ) : ℤ) := by positivity
    omega
  · push_cast
    exact pow_lt_pow_right₀ (by norm_num) (by omega)

/-- The product with the power of two, before the choice. -/
theorem expWord_close {frac : ℕ} (hf : 1 ≤ frac) (hw : 2 * frac + 5 ≤ w) (hw32 : frac + 36 ≤ w)
    {x u : T (.arith w n)} (h : PadeVal frac (fracWord frac x) u) (i : Fin n) {k : ℕ}
    (hk : (k : ℤ) = ⌊real frac (x i)⌋ % 32) :
    Close frac (expWord frac x u i)
      (2 ^ k * expPoly (usedDegree frac) (Int.fract (real frac (x i)))) (2 ^ k * padeErr frac) ∧
    (|2 ^ k * expPoly (usedDegree frac) (Int.fract (real frac (x i)))| + 2 ^ k * padeErr frac) *
      2 ^ frac < 2 ^ (w - 2) := by
  have e : (x i).toNat / 2 ^ frac % 2 ^ 5 = k := by
    have := toNat_div (frac := frac) (k := 5) (by omega) (x i)
    rw [← floor_real] at this
    have h2 : (((x i).toNat / 2 ^ frac % 2 ^ 5 : ℕ) : ℤ) = k := this.trans hk.symm
    exact_mod_cast h2
  have hk31 : k ≤ 31 := by omega
  have hfr := fracWord_real (frac := frac) (by omega) x i
  have f0 := Int.fract_nonneg (real frac (x i))
  have f1 := (Int.fract_lt_one (real frac (x i))).le
  have hcl := h.close hf hw i (by rw [hfr, abs_of_nonneg f0]; exact f1)
  rw [hfr] at hcl
  have hmul := hcl.int_mul (BitVec.ofNat w (2 ^ k))
  rw [twoPow_toInt (by omega)] at hmul
  have hpos : (0 : ℚ) < 2 ^ k := by positivity
  push_cast at hmul
  rw [abs_of_pos hpos] at hmul
  refine ⟨?_, ?_⟩
  · unfold expWord
    rw [e, mul_comm (u i)]
    exact hmul
  · obtain ⟨p0, p1⟩ := expPoly_range ((usedDegree_le frac).trans (by norm_num)) f0 f1
    have := padeErr_le hf
    rw [abs_of_nonneg (mul_nonneg hpos.le p0)]
    have h31 : (2 : ℚ) ^ k ≤ 2 ^ 31 := pow_le_pow_right₀ (by norm_num) hk31
    calc _ ≤ (2 ^ 31 * 2 + 2 ^ 31 * 2) * (2 : ℚ) ^ frac := by
          refine mul_le_mul_of_nonneg_right (add_le_add ?_ ?_) (by positivity)
          · exact mul_le_mul h31 p1 p0 (by positivity)
          · exact mul_le_mul h31 this (padeErr_nonneg _) (by positivity)
      _ = 2 ^ (frac + 33) := by rw [pow_add]; ring
      _ < 2 ^ (w - 2) := pow_lt_pow_right₀ (by norm_num) (by omega)

theorem outOfRange_iff {frac : ℕ} (hf : frac + frac + 2 ≤ w) {v : BitVec w}
    (hv : real frac v < 2 ^ (w - 1 - frac) - frac) :
    (v - BitVec.ofInt w (-(frac * 2 ^ frac))).msb = true ↔ real frac v < -frac := by
  have hN : (0 : ℚ) < 2 ^ frac := by positivity
  have hNz : (0 : ℤ) < 2 ^ frac := by positivity
  obtain ⟨r0, r1⟩ := Bits.toInt_range v
  have hup : v.toInt + frac * 2 ^ frac < 2 ^ (w - 1) := by
    unfold real at hv
    rw [div_lt_iff₀ hN, sub_mul, ← pow_add, show w - 1 - frac + frac = w - 1 by omega] at hv
    have : (v.toInt : ℚ) + frac * 2 ^ frac < 2 ^ (w - 1) := by linarith
    exact_mod_cast this
  have e : (v - BitVec.ofInt w (-(frac * 2 ^ frac))) = BitVec.ofInt w (v.toInt + frac * 2 ^ frac) := by
    conv_lhs => rw [← BitVec.ofInt_toInt (x := v), ← Bits.ofInt_sub]
    rw [sub_neg_eq_add]
  have hnn : (0 : ℤ) ≤ frac * 2 ^ frac := by positivity
  rw [e, BitVec.msb_eq_toInt, Bits.toInt_ofInt (by omega) (by omega) hup, decide_eq_true_iff]
  unfold real
  rw [div_lt_iff₀ hN]
  constructor
  · intro h
    have : (v.toInt : ℚ) + frac * 2 ^ frac < 0 := by exact_mod_cast h
    linarith
  · intro h
    have : (v.toInt : ℚ) + frac * 2 ^ frac < 0 := by linarith
    exact_mod_cast this

theorem msb_iff_real {frac : ℕ} {v : BitVec w} : v.msb = true ↔ real frac v < 0 := by
  have hN : (0 : ℚ) < 2 ^ frac := by positivity
  rw [BitVec.msb_eq_toInt, decide_eq_true_iff]
  unfold real
  rw [div_lt_iff₀ hN, zero_mul]
  exact_mod_cast Iff.rfl

/-! ## `exp2` -/

/-- The elements of what `exp2` returns. -/
theorem exp2_val {e : ℕ} (he : 0 < e) (he7 : e ≤ 7) {frac : ℕ} (hd : padeDegree frac ≠ 0)
    (hw : 2 * frac + 5 ≤ 2 ^ e) (hw32 : frac + 36 ≤ 2 ^ e) (sign : SignArg)
    {x : T (.arith (2 ^ e) n)} {X : Shares (T (.arith (2 ^ e) n))} (hx : Holds x X) :
    ∃ m, exp2 frac sign X = .ok m ∧
      M.All (fun o => ∃ z : T (.arith (2 ^ e) n), Holds z o ∧ Exp2Val frac sign x z) m := by
  obtain ⟨F, hF, hs⟩ := exp2_sim (n := n) he he7 hd (by omega) (by omega) sign
  refine ⟨_, hF X, (hs (hx.alike 0)).left ?_⟩
  rintro o o' ⟨z, z', hz, -, h⟩
  exact ⟨z, h.1, hz⟩

/-- What `exp2` computes for one element, by cases. -/
structure Exp2Spec (frac : ℕ) (sign : SignArg) (x z : ℚ) : Prop where
  /-- For numbers that are not negative: two to the floor modulo 32, times the polynomial at the
  fraction, with the same relative error as the polynomial. -/
  nonneg : sign ≠ .neg → 0 ≤ x → ∀ k : ℕ, (k : ℤ) = ⌊x⌋ % 32 →
    |z - 2 ^ k * expPoly (usedDegree frac) (Int.fract x)| ≤ 2 ^ k * padeErr frac
  /-- For negative numbers down to `-frac`: the same with a negative exponent, and one rounding. -/
  neg : sign ≠ .pos → x < 0 → -frac ≤ x → frac ≤ 32 →
    |z - 2 ^ ⌊x⌋ * expPoly (usedDegree frac) (Int.fract x)| ≤ 2 ^ ⌊x⌋ * padeErr frac + 1 / 2 ^ frac
  /-- Below that: zero. -/
  tiny : sign ≠ .pos → x < -frac → z = 0

theorem degree_pos {frac : ℕ} (hd : padeDegree frac ≠ 0) : 1 ≤ frac := by
  rcases Nat.eq_zero_or_pos frac with rfl | h
  · exact absurd (show padeDegree 0 = 0 by decide +kernel) hd
  · exact h

theorem Exp2Val.spec {frac : ℕ} (hd : padeDegree frac ≠ 0) (hw : 2 * frac + 5 ≤ w)
    (hw32 : frac + 36 ≤ w) {sign : SignArg} {x z : T (.arith w n)} (h : Exp2Val frac sign x z)
    (i : Fin n) (hx : real frac (x i) < 2 ^ (w - 1 - frac) - frac) :
    Exp2Spec frac sign (real frac (x i)) (real frac (z i)) := by
  have hf := degree_pos hd
  obtain ⟨u, small, hu, hs, rfl⟩ := h
  have hmsb := msb_iff_real (frac := frac) (v := x i)
  have hoor := outOfRange_iff (by omega) hx
  have wlt : (2 : ℚ) ^ (w - 2) < 2 ^ (w - 1) := pow_lt_pow_right₀ (by norm_num) (by omega)
  refine ⟨fun hsg h0 k hk => ?_, fun hsg h0 h1 hf32 => ?_, fun hsg h1 => ?_⟩
  · obtain ⟨hcl, hr⟩ := expWord_close hf hw hw32 hu i hk
    have e : chooseWord frac sign x (expWord frac x u) small i = expWord frac x u i := by
      unfold chooseWord
      have n1 : ¬ (x i).msb = true := fun h => absurd (hmsb.1 h) (not_lt.2 h0)
      have n2 : ¬ (x i - BitVec.ofInt w (-(frac * 2 ^ frac))).msb = true := fun h => by
        have := hoor.1 h
        have : (0 : ℚ) ≤ frac := Nat.cast_nonneg _
        linarith
      cases sign with
      | pos => rfl
      | neg => exact absurd rfl hsg
      | unknown => simp only [if_neg n1, if_neg n2]
    rw [e]
    exact hcl.value (by omega) (hr.trans wlt)
  · have hfl0 : ⌊real frac (x i)⌋ < 0 := Int.floor_lt.2 (by exact_mod_cast h0)
    have hfl1 : -(frac : ℤ) ≤ ⌊real frac (x i)⌋ := Int.le_floor.2 (by push_cast; exact h1)
    obtain ⟨k, hk⟩ : ∃ k : ℕ, (k : ℤ) = ⌊real frac (x i)⌋ + 32 :=
      ⟨(⌊real frac (x i)⌋ + 32).toNat, by omega⟩
    obtain ⟨hcl, hr⟩ := expWord_close hf hw hw32 hu i (k := k) (by omega)
    have e : chooseWord frac sign x (expWord frac x u) small i = small i := by
      unfold chooseWord
      have n1 : (x i).msb = true := hmsb.2 h0
      have n2 : ¬ (x i - BitVec.ofInt w (-(frac * 2 ^ frac))).msb = true :=
        fun h => absurd (hoor.1 h) (not_lt.2 h1)
      cases sign with
      | pos => exact absurd rfl hsg
      | neg => simp only [if_neg n2]
      | unknown => simp only [if_pos n1, if_neg n2]
    rw [e]
    have hsm := hcl.shift (by omega) hr (hs i)
    have ek : (2 : ℚ) ^ ⌊real frac (x i)⌋ = 1 / 2 ^ (2 ^ 5) * 2 ^ k := by
      have : ⌊real frac (x i)⌋ = (k : ℤ) - 32 := by omega
      rw [this, zpow_sub₀ (by norm_num), zpow_natCast]
      norm_num
      ring
    rw [ek, mul_assoc, mul_assoc]
    refine hsm.value (by omega) ?_
    rw [abs_mul, abs_of_pos (by positivity : (0 : ℚ) < 1 / 2 ^ (2 ^ 5))]
    have hP := abs_nonneg (2 ^ k * expPoly (usedDegree frac) (Int.fract (real frac (x i))))
    have hE : 0 ≤ 2 ^ k * padeErr frac := mul_nonneg (by positivity) (padeErr_nonneg _)
    generalize |2 ^ k * expPoly (usedDegree frac) (Int.fract (real frac (x i)))| = P at *
    generalize 2 ^ k * padeErr frac = E at *
    have hN : (0 : ℚ) < 2 ^ frac := by positivity
    have h32 : (1 : ℚ) / 2 ^ (2 ^ 5) ≤ 1 := by norm_num
    have a1 : 1 / 2 ^ (2 ^ 5) * P ≤ P := mul_le_of_le_one_left hP h32
    have a2 : 1 / 2 ^ (2 ^ 5) * E ≤ E := mul_le_of_le_one_left hE h32
    calc _ ≤ (P + (E + 1 / 2 ^ frac)) * 2 ^ frac :=
          mul_le_mul_of_nonneg_right (by linarith) hN.le
      _ = (P + E) * 2 ^ frac + 1 := by
        rw [← add_assoc, add_mul (P + E), one_div, inv_mul_cancel₀ hN.ne']
      _ < 2 ^ (w - 2) + 2 ^ (w - 2) := add_lt_add_of_lt_of_le hr (one_le_pow₀ (by norm_num))
      _ = 2 ^ (w - 1) := by rw [show w - 1 = (w - 2) + 1 by omega, pow_succ]; ring
  · have n2 := hoor.2 h1
    have e : chooseWord frac sign x (expWord frac x u) small i = 0 := by
      unfold chooseWord
      cases sign with
      | pos => exact absurd rfl hsg
      | neg => simp only [if_pos n2]
      | unknown => simp only [if_pos n2]
    rw [e]
    simp [real]

/-- **C51** (part). For every tensor of numbers below `2^(w-1-frac) - frac`: if not negative, the
result is two to the floor (modulo 32), exactly, times the polynomial at the fraction; if negative,
the same with one rounding more, and zero below `-frac`. The polynomial lacks its leading term, see
`exp2_pade_false`; the exponent is taken modulo 32, see `exp2_wraps_false`. -/
theorem exp2_partial {e : ℕ} (he : 0 < e) (he7 : e ≤ 7) {frac : ℕ} (hd : padeDegree frac ≠ 0)
    (hw : 2 * frac + 5 ≤ 2 ^ e) (hw32 : frac + 36 ≤ 2 ^ e) (sign : SignArg)
    {x : T (.arith (2 ^ e) n)} {X : Shares (T (.arith (2 ^ e) n))} (hx : Holds x X)
    (hr : ∀ i, real frac (x i) < 2 ^ (2 ^ e - 1 - frac) - frac) :
    ∃ m, exp2 frac sign X = .ok m ∧ M.All (fun o => ∃ z : T (.arith (2 ^ e) n), Holds z o ∧
      ∀ i, Exp2Spec frac sign (real frac (x i)) (real frac (z i))) m := by
  obtain ⟨m, hm, hall⟩ := exp2_val he he7 hd hw hw32 sign hx
  refine ⟨m, hm, hall.mono ?_⟩
  rintro o ⟨z, hz, hv⟩
  exact ⟨z, hz, fun i => hv.spec hd hw hw32 i (hr i)⟩

/-- Both presets of ABY3 meet the conditions. -/
example : (padeDegree 16 ≠ 0 ∧ 2 * 16 + 5 ≤ 2 ^ 6 ∧ 16 + 36 ≤ 2 ^ 6) ∧
    (padeDegree 32 ≠ 0 ∧ 2 * 32 + 5 ≤ 2 ^ 7 ∧ 32 + 36 ≤ 2 ^ 7) := by
  rw [padeDegree_presets.1, padeDegree_presets.2]
  norm_num

/-- From 32 on the result is wrong: two to the 32 comes out as one, although a 64-bit word with 16
fractional bits (and every larger one) holds the right result. -/
theorem exp2_wraps_false {X : Shares (T (.arith (2 ^ 6) 1))}
    (hx : Holds (s := .arith (2 ^ 6) 1) (fun _ => BitVec.ofInt (2 ^ 6) (32 * 2 ^ 16)) X) :
    ∃ m, exp2 16 .unknown X = .ok m ∧ M.All (fun o => ∃ z : T (.arith (2 ^ 6) 1), Holds z o ∧
      |real 16 (z 0) - 1| ≤ 1 / 1000) m := by
  have hreal : real 16 (BitVec.ofInt (2 ^ 6) (32 * 2 ^ 16)) = 32 := by
    unfold real
    rw [Bits.toInt_ofInt (by norm_num) (by norm_num) (by norm_num)]
    norm_num
  obtain ⟨m, hm, hall⟩ := exp2_partial (e := 6) (by norm_num) (by norm_num) (frac := 16)
    (by rw [padeDegree_presets.1]; norm_num) (by norm_num) (by norm_num) .unknown hx
    (fun i => by rw [hreal]; norm_num)
  refine ⟨m, hm, hall.mono ?_⟩
  rintro o ⟨z, hz, hspec⟩
  refine ⟨z, hz, ?_⟩
  have h := (hspec 0).nonneg (by decide) (by rw [hreal]; norm_num) 0 (by rw [hreal]; decide +kernel)
  rw [hreal] at h
  have hu : usedDegree 16 = 5 := by decide +kernel
  have hp : expPoly 5 (Int.fract (32 : ℚ)) = 1 := by
    rw [show (32 : ℚ) = ((32 : ℤ) : ℚ) by norm_num, Int.fract_intCast]
    decide +kernel
  have herr : padeErr 16 ≤ 1 / 1000 := by
    unfold padeErr
    rw [hu]
    norm_num
  rw [hu, hp, pow_zero, one_mul, one_mul] at h
  exact h.trans herr

/-- **C07** for `exp2`: what any one server sees does not depend on the tensor. -/
theorem exp2_secrecy {e : ℕ} (he : 0 < e) (he7 : e ≤ 7) {frac : ℕ} (hd : padeDegree frac ≠ 0)
    (hw : frac + frac + 2 ≤ 2 ^ e) (hw32 : frac + 34 ≤ 2 ^ e) (sign : SignArg) (σ : Fin 3)
    (x x' : T (.arith (2 ^ e) n)) :
    ∃ F : Shares (T (.arith (2 ^ e) n)) → M (Shares (T (.arith (2 ^ e) n))),
      (∀ X, exp2 frac sign X = .ok (F X)) ∧
        M.view σ (share x >>= F) = M.view σ (share x' >>= F) := by
  obtain ⟨F, hF, hs⟩ := exp2_sim (n := n) he he7 hd hw (by omega) sign
  exact ⟨F, hF, hides_of_sim fun _ _ h => hs h⟩

end Verif.Aby3
