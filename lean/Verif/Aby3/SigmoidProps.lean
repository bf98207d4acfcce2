import Verif.Aby3.Sigmoid
import Verif.Aby3.SigmoidReal
import Verif.Aby3.PolyProps
import Verif.Aby3.RecipProps

/-!
# C63: distance from the logistic function
-/

namespace Verif.Aby3

open Verif

variable {w n : ℕ}

attribute [local irreducible] M.All M.Sim

/-- A number with a finite binary expansion is encoded exactly. -/
theorem const_exact {frac k : ℕ} (hw : frac + k + 1 ≤ w) {q : ℚ} (V : ℤ) (hV : q * 2 ^ frac = V)
    (hq : |q| < 2 ^ k) : real frac (constWord w frac q) = q := by
  have hN : (0 : ℚ) < 2 ^ frac := by positivity
  have e : (V : ℚ) / 2 ^ frac = q := by rw [← hV]; field_simp
  rw [real_of_int (z := constWord w frac q) (V := V) (by omega) (by
    unfold constWord
    rw [hV, Fixed.toInt_intCast]), e]
  rw [e]
  calc |q| * 2 ^ frac < 2 ^ k * 2 ^ frac := mul_lt_mul_of_pos_right hq hN
    _ = 2 ^ (k + frac) := by rw [pow_add]
    _ ≤ 2 ^ (w - 1) := pow_le_pow_right₀ (by norm_num) (by omega)

theorem real_le_iff {frac : ℕ} {u v : BitVec w} : real frac u ≤ real frac v ↔ u.toInt ≤ v.toInt := by
  unfold real
  rw [div_le_div_iff_of_pos_right (by positivity)]
  exact_mod_cast Iff.rfl

theorem piece_real {frac m : ℕ} {c : Fin m → ℚ} {x : BitVec w}
    (hc : ∀ i, real frac (constWord w frac (c i)) = c i) {j : Fin (m + 1)}
    (h : InPiece (fun i => constWord w frac (c i)) x j) :
    (∀ hj : j.1 < m, real frac x ≤ c ⟨j.1, hj⟩) ∧ ∀ hj : 0 < j.1, c ⟨j.1 - 1, by omega⟩ ≤ real frac x :=
  ⟨fun hj => by rw [← hc]; exact real_le_iff.2 (h.1 hj),
    fun hj => by rw [← hc]; exact real_le_iff.2 (h.2 hj).le⟩

/-- What `sigmoid` computes with pieces of degree one: within one unit of the line through the encoded
coefficients. -/
theorem lines_value {e m : ℕ} (he : 0 < e) {frac : ℕ} (h1 : 1 ≤ frac) (hw : 2 * frac + 5 ≤ 2 ^ e)
    {c : Fin m → ℚ} {c₀ c₁ : Fin (m + 1) → ℚ} (hc : ∀ i, ∃ V : ℤ, c i * 2 = V) (hc4 : ∀ i, |c i| ≤ 4)
    (hm : ∀ i j, i ≤ j → c i ≤ c j) (h0 : ∀ j, |c₀ j| ≤ 1) (h1' : ∀ j, |c₁ j| ≤ 1)
    {x : T (.arith (2 ^ e) n)} {X : Shares (T (.arith (2 ^ e) n))} (hX : Holds x X)
    (hx : ∀ i, |real frac (x i)| ≤ 2 ^ (2 ^ e - 5 - 2 * frac)) :
    ∃ p, piecewise frac true X (fun i => constWord (2 ^ e) frac (c i)) (fun j => constWord (2 ^ e) frac (c₀ j))
        [fun j => constWord (2 ^ e) frac (c₁ j)] = .ok p ∧
      M.All (fun o => ∃ z : T (.arith (2 ^ e) n), Holds z o ∧ ∀ i, ∃ j : Fin (m + 1),
        (∀ hj : j.1 < m, real frac (x i) ≤ c ⟨j.1, hj⟩) ∧
        (∀ hj : 0 < j.1, c ⟨j.1 - 1, by omega⟩ ≤ real frac (x i)) ∧
        |real frac (z i) - (real frac (constWord (2 ^ e) frac (c₀ j)) +
          real frac (constWord (2 ^ e) frac (c₁ j)) * real frac (x i))| ≤ 1 / 2 ^ frac) p := by
  have hN : (0 : ℚ) < 2 ^ frac := by positivity
  have hN2 : (2 : ℚ) ≤ 2 ^ frac := by
    calc (2 : ℚ) = 2 ^ 1 := by norm_num
      _ ≤ 2 ^ frac := pow_le_pow_right₀ (by norm_num) h1
  have hu : (1 : ℚ) / 2 ^ frac ≤ 1 := by rw [div_le_one hN]; linarith
  have hex : ∀ i, real frac (constWord (2 ^ e) frac (c i)) = c i := by
    intro i
    obtain ⟨V, hV⟩ := hc i
    refine const_exact (k := 3) (by omega) (V * 2 ^ (frac - 1)) ?_ (lt_of_le_of_lt (hc4 i) (by norm_num))
    push_cast
    rw [← hV, show (2 : ℚ) ^ frac = 2 * 2 ^ (frac - 1) by rw [← pow_succ']; congr 1; omega]
    ring
  have hB1 : (1 : ℚ) ≤ 2 ^ (2 ^ e - 5 - 2 * frac) := one_le_pow₀ (by norm_num)
  have hBN : (2 : ℚ) ^ (2 ^ e - 5 - 2 * frac) * (2 ^ frac * 2 ^ frac) * 2 ^ 5 = 2 ^ (2 ^ e) := by
    rw [← pow_add, ← pow_add, ← pow_add]; congr 1; omega
  have hw2 : (2 : ℚ) ^ (2 ^ e) = 2 ^ (2 ^ e - 2) * 4 := by
    rw [show (4 : ℚ) = 2 ^ 2 by norm_num, ← pow_add]; congr 1; omega
  have hw1 : (2 : ℚ) ^ (2 ^ e) = 2 ^ (2 ^ e - 1) * 2 := by
    rw [← pow_succ]; congr 1; omega
  have hws : (2 : ℚ) ^ (2 ^ e - 1) = 2 ^ (2 ^ e - 2) * 2 := by linarith
  have hNN : (2 : ℚ) ^ frac ≤ 2 ^ frac * 2 ^ frac := by nlinarith
  generalize hB : (2 : ℚ) ^ (2 ^ e - 5 - 2 * frac) = B at *
  have hBN' : B * 2 ^ frac * 2 ^ 5 ≤ 2 ^ (2 ^ e) := by
    rw [← hBN]
    have := mul_le_mul_of_nonneg_left hNN (show (0 : ℚ) ≤ B by linarith)
    linarith
  have hBp : (0 : ℚ) < B * 2 ^ frac := by positivity
  have hsm : ∀ {v : BitVec (2 ^ e)}, |real frac v| ≤ 4 * B →
      -2 ^ (2 ^ e - 2) ≤ v.toInt ∧ v.toInt < 2 ^ (2 ^ e - 2) := by
    intro v hv
    have h2 : |((v.toInt : ℤ) : ℚ)| < 2 ^ (2 ^ e - 2) := by
      rw [real, abs_div, abs_of_pos hN, div_le_iff₀ hN] at hv
      linarith
    have h3 : |v.toInt| < 2 ^ (2 ^ e - 2) := by exact_mod_cast h2
    have := abs_lt.1 h3
    exact ⟨this.1.le, this.2⟩
  have hk0 : ∀ j, |real frac (constWord (2 ^ e) frac (c₀ j))| ≤ 2 := by
    intro j
    have h := const_real (w := 2 ^ e) (frac := frac) (k := 1) (by omega) (q := c₀ j)
      (lt_of_le_of_lt (h0 j) (by norm_num))
    have := abs_sub_abs_le_abs_sub (real frac (constWord (2 ^ e) frac (c₀ j))) (c₀ j)
    linarith [h0 j]
  have hk1 : ∀ j, |real frac (constWord (2 ^ e) frac (c₁ j))| ≤ 2 := by
    intro j
    have h := const_real (w := 2 ^ e) (frac := frac) (k := 1) (by omega) (q := c₁ j)
      (lt_of_le_of_lt (h1' j) (by norm_num))
    have := abs_sub_abs_le_abs_sub (real frac (constWord (2 ^ e) frac (c₁ j))) (c₁ j)
    linarith [h1' j]
  have hpe : polyErr frac B 2 1 = 1 / 2 ^ frac := by
    simp [polyErr]
  have hmw : ∀ i j, i ≤ j → (constWord (2 ^ e) frac (c i)).toInt ≤ (constWord (2 ^ e) frac (c j)).toInt :=
    fun i j hij => (real_le_iff (frac := frac)).1 (by rw [hex, hex]; exact hm i j hij)
  obtain ⟨p, hp, hall⟩ := piecewise_scaled he (frac := frac) (B := B) (C := 2) hB1 le_rfl hmw
    (fun j => constWord (2 ^ e) frac (c₀ j)) (cs := [fun j => constWord (2 ^ e) frac (c₁ j)])
    (by simp only [List.length_singleton]; push_cast; linarith)
    (by simp only [List.length_singleton, pow_one]; linarith) (by omega)
    (by intro d hd j; rw [List.mem_singleton.1 hd]; exact hk1 j) hX hx
    (fun i k => comparable_of_small he (hsm (by rw [hex]; linarith [hc4 k])) (hsm (by linarith [hx i])))
    (by
      intro i j _
      simp only [List.length_singleton, List.map_cons, List.map_nil, evalFrom, pow_one, add_zero, hpe]
      have t := abs_add_le (real frac (constWord (2 ^ e) frac (c₀ j)))
        (real frac (constWord (2 ^ e) frac (c₁ j)) * real frac (x i))
      rw [abs_mul] at t
      have t2 := mul_le_mul (hk1 j) (hx i) (abs_nonneg _) (by norm_num)
      calc _ ≤ (2 + 2 * B + 1) * 2 ^ frac := mul_le_mul_of_nonneg_right (by linarith [hk0 j]) hN.le
        _ ≤ (5 * B) * 2 ^ frac := mul_le_mul_of_nonneg_right (by linarith) hN.le
        _ < _ := by linarith)
  refine ⟨p, hp, hall.mono ?_⟩
  rintro o ⟨z, hz, h⟩
  refine ⟨z, hz, fun i => ?_⟩
  obtain ⟨j, hj, -⟩ := piece_unique hmw (x i)
  have h2 := h i j hj
  simp only [List.length_singleton, List.map_cons, List.map_nil, evalFrom, pow_one, add_zero, hpe] at h2
  obtain ⟨a1, a2⟩ := piece_real hex hj
  exact ⟨j, a1, a2, h2⟩

/-- From the line through the encoded coefficients to the line through the coefficients. -/
theorem line_real {frac : ℕ} (hw : frac + 2 ≤ w) {c₀ c₁ q z B : ℚ} (h0 : |c₀| < 2) (h1 : |c₁| < 2) (hq : |q| ≤ B)
    (h : |z - (real frac (constWord w frac c₀) + real frac (constWord w frac c₁) * q)| ≤ 1 / 2 ^ frac) :
    |z - (c₀ + c₁ * q)| ≤ (2 + B) * (1 / 2 ^ frac) := by
  have k0 := const_real (w := w) (frac := frac) (k := 1) (by omega) (q := c₀) (by rwa [pow_one])
  have k1 := const_real (w := w) (frac := frac) (k := 1) (by omega) (q := c₁) (by rwa [pow_one])
  generalize real frac (constWord w frac c₀) = a at *
  generalize real frac (constWord w frac c₁) = b at *
  have k2 := mul_le_mul k1 hq (abs_nonneg _) ((abs_nonneg _).trans k1)
  rw [← abs_mul] at k2
  have e : z - (c₀ + c₁ * q) = (z - (a + b * q)) + ((a - c₀) + (b - c₁) * q) := by ring
  rw [e]
  have t1 := abs_add_le (z - (a + b * q)) ((a - c₀) + (b - c₁) * q)
  have t2 := abs_add_le (a - c₀) ((b - c₁) * q)
  linarith

/-- The same on a piece without slope, whatever the size of the number. -/
theorem flat_real {frac : ℕ} (hw : frac + 2 ≤ w) {c₀ q z : ℚ} (h0 : |c₀| < 2)
    (h : |z - (real frac (constWord w frac c₀) + real frac (constWord w frac 0) * q)| ≤ 1 / 2 ^ frac) :
    |z - c₀| ≤ 2 * (1 / 2 ^ frac) := by
  have k0 := const_real (w := w) (frac := frac) (k := 1) (by omega) (q := c₀) (by rwa [pow_one])
  rw [const_exact (q := 0) (k := 0) (by omega) 0 (by simp) (by simp), zero_mul, add_zero] at h
  have t := abs_add_le (z - real frac (constWord w frac c₀)) (real frac (constWord w frac c₀) - c₀)
  rw [sub_add_sub_cancel] at t
  linarith

theorem cast_abs_le {a b : ℚ} (h : |a| ≤ b) : |(a : ℝ)| ≤ b := by exact_mod_cast h

theorem outer_words {frac : ℕ} (h14 : 14 ≤ frac) (hw : frac + 2 ≤ w) :
    1 / 2 ^ frac ≤ real frac (constWord w frac (1 / 10 ^ 4)) ∧
      real frac (constWord w frac (1 - 1 / 10 ^ 4)) ≤ 1 - 1 / 2 ^ frac := by
  have hN : (0 : ℚ) < 2 ^ frac := by positivity
  have hN14 : (16384 : ℚ) ≤ 2 ^ frac := by
    rw [show (16384 : ℚ) = 2 ^ 14 by norm_num]
    exact pow_le_pow_right₀ (by norm_num) h14
  have key : ∀ q : ℚ, |q| ≤ 1 → real frac (constWord w frac q) = (Fixed.toInt (q * 2 ^ frac) : ℚ) / 2 ^ frac := by
    intro q hq
    refine real_of_int (by omega) rfl ?_
    rw [abs_div, abs_of_pos hN, div_mul_cancel₀ _ hN.ne']
    have h := (Fixed.toInt_spec (q * 2 ^ frac)).1
    rw [abs_mul, abs_of_pos hN] at h
    calc _ ≤ |q| * 2 ^ frac := h
      _ ≤ 1 * 2 ^ frac := mul_le_mul_of_nonneg_right hq hN.le
      _ < 2 ^ (w - 1) := by rw [one_mul]; exact pow_lt_pow_right₀ (by norm_num) (by omega)
  constructor
  · rw [key _ (by rw [abs_le]; constructor <;> norm_num)]
    refine div_le_div_of_nonneg_right ?_ hN.le
    have h := (abs_lt.1 (Fixed.toInt_spec (1 / 10 ^ 4 * 2 ^ frac)).2.1).1
    have : (0 : ℚ) < Fixed.toInt (1 / 10 ^ 4 * 2 ^ frac) := by linarith
    have : (0 : ℤ) < Fixed.toInt (1 / 10 ^ 4 * 2 ^ frac) := by exact_mod_cast this
    exact_mod_cast this
  · rw [key _ (by rw [abs_le]; constructor <;> norm_num), div_le_iff₀ hN]
    have h := (abs_lt.1 (Fixed.toInt_spec ((1 - 1 / 10 ^ 4) * 2 ^ frac)).2.1).2
    have h2 : ((Fixed.toInt ((1 - 1 / 10 ^ 4) * 2 ^ frac) : ℤ) : ℚ) < ((2 ^ frac : ℤ) : ℚ) := by
      push_cast
      linarith
    have h3 : Fixed.toInt ((1 - 1 / 10 ^ 4) * 2 ^ frac) < 2 ^ frac := by exact_mod_cast h2
    have h4 : ((Fixed.toInt ((1 - 1 / 10 ^ 4) * 2 ^ frac) : ℤ) : ℚ) ≤ ((2 ^ frac - 1 : ℤ) : ℚ) := by
      exact_mod_cast (by omega : Fixed.toInt ((1 - 1 / 10 ^ 4) * 2 ^ frac) ≤ 2 ^ frac - 1)
    push_cast at h4
    have e : (1 - 1 / 2 ^ frac) * (2 : ℚ) ^ frac = 2 ^ frac - 1 := by field_simp
    rw [e]
    exact h4

/-- **C63** (the default, five pieces): for every tensor of numbers the words can hold with room for a
product, every sharing and every randomness, the result is within 0.042, plus six units of the last
place, of the logistic function. -/
theorem sigmoid_close {e : ℕ} (he : 0 < e) {frac : ℕ} (h1 : 1 ≤ frac) (hw : 2 * frac + 5 ≤ 2 ^ e)
    {x : T (.arith (2 ^ e) n)} {X : Shares (T (.arith (2 ^ e) n))} (hX : Holds x X)
    (hx : ∀ i, |real frac (x i)| ≤ 2 ^ (2 ^ e - 5 - 2 * frac)) :
    ∃ p, sigmoid frac X .five = .ok p ∧ M.All (fun o => ∃ z : T (.arith (2 ^ e) n), Holds z o ∧ ∀ i,
      |((real frac (z i) : ℚ) : ℝ) - logistic (real frac (x i) : ℚ)| ≤ 0.042 + 6 * (1 / 2 ^ frac) ∧
      (14 ≤ frac → 0 ≤ real frac (z i) ∧ real frac (z i) ≤ 1)) p := by
  obtain ⟨p, hp, hall⟩ := lines_value he h1 hw (c := breaks5) (c₀ := consts5) (c₁ := slopes5)
    (by
      intro i
      fin_cases i
      · exact ⟨-8, by norm_num [breaks5]⟩
      · exact ⟨-3, by norm_num [breaks5]⟩
      · exact ⟨3, by norm_num [breaks5]⟩
      · exact ⟨8, by norm_num [breaks5]⟩)
    (by decide +kernel) (by decide +kernel) (by decide +kernel) (by decide +kernel) hX hx
  refine ⟨p, hp, hall.mono ?_⟩
  rintro o ⟨z, hz, h⟩
  refine ⟨z, hz, fun i => ?_⟩
  obtain ⟨j, a1, a2, a3⟩ := h i
  have hu : (0 : ℚ) < 1 / 2 ^ frac := by positivity
  have huR : (0 : ℝ) < 1 / 2 ^ frac := by positivity
  have hu14 : 14 ≤ frac → (1 : ℚ) / 2 ^ frac ≤ 1 / 16384 := fun h => by
    rw [show (16384 : ℚ) = 2 ^ 14 by norm_num]
    exact div_le_div_of_nonneg_left (by norm_num) (by norm_num) (pow_le_pow_right₀ (by norm_num) h)
  generalize real frac (x i) = q at *
  -- combine the two errors
  have comb : ∀ {L : ℚ} {B : ℚ}, B ≤ 6 → |real frac (z i) - L| ≤ B * (1 / 2 ^ frac) →
      |((L : ℚ) : ℝ) - logistic (q : ℚ)| ≤ 0.042 →
      |((real frac (z i) : ℚ) : ℝ) - logistic (q : ℚ)| ≤ 0.042 + 6 * (1 / 2 ^ frac) := by
    intro L B hB k1 k2
    have k3 := cast_abs_le (k1.trans (mul_le_mul_of_nonneg_right hB hu.le))
    push_cast at k3
    have t := abs_add_le (((real frac (z i) : ℚ) : ℝ) - L) ((L : ℝ) - logistic (q : ℚ))
    rw [sub_add_sub_cancel] at t
    linarith
  have cst : ∀ {a b : ℚ}, a ≤ b → (a : ℝ) ≤ b := fun h => by exact_mod_cast h
  fin_cases j
  · -- below -4
    have b1 : q ≤ -4 := by
      have := a1 (by norm_num)
      simpa [breaks5] using this
    have a3 : |real frac (z i) - (real frac (constWord (2 ^ e) frac (1 / 10 ^ 4)) +
      real frac (constWord (2 ^ e) frac 0) * q)| ≤ 1 / 2 ^ frac := a3
    refine ⟨comb (B := 2) (by norm_num) (flat_real (by omega) (by norm_num [abs_lt]) a3) ?_, fun h14 => ?_⟩
    · have := five_outer (x := -((q : ℚ) : ℝ)) (by have := cst b1; push_cast at this; linarith)
      rw [logistic_neg, ← abs_neg] at this
      convert this using 2
      push_cast
      ring
    · have k := (outer_words (w := 2 ^ e) h14 (by omega)).1
      have k2 := flat_real (by omega) (by norm_num [abs_lt]) a3
      rw [const_exact (q := 0) (k := 0) (by omega) 0 (by simp) (by simp), zero_mul, add_zero] at a3
      have := abs_le.1 a3
      have := abs_le.1 k2
      have := hu14 h14
      constructor <;> linarith
  · have b1 : q ≤ -3 / 2 := by
      have h := a1 (by norm_num)
      norm_num [breaks3, breaks5] at h
      linarith
    have b2 : -4 ≤ q := by
      have h := a2 (by norm_num)
      norm_num [breaks3, breaks5] at h
      linarith
    have a3 : |real frac (z i) - (real frac (constWord (2 ^ e) frac (281 / 1000)) +
      real frac (constWord (2 ^ e) frac (66 / 1000)) * q)| ≤ 1 / 2 ^ frac := a3
    have k := line_real (B := 4) (by omega) (by norm_num [abs_lt]) (by norm_num [abs_lt])
      (by rw [abs_le]; constructor <;> linarith) a3
    refine ⟨comb (by norm_num) k ?_, fun h14 => ?_⟩
    · have c1 := cst b1
      have c2 := cst b2
      push_cast at c1 c2
      have := five_side (x := -((q : ℚ) : ℝ)) (by linarith) (by linarith)
      rw [logistic_neg, ← abs_neg] at this
      convert this using 2
      push_cast
      ring
    · have := abs_le.1 k
      have := hu14 h14
      constructor <;> linarith
  · have b1 : q ≤ 3 / 2 := by
      have h := a1 (by norm_num)
      norm_num [breaks3, breaks5] at h
      linarith
    have b2 : -3 / 2 ≤ q := by
      have h := a2 (by norm_num)
      norm_num [breaks3, breaks5] at h
      linarith
    have a3 : |real frac (z i) - (real frac (constWord (2 ^ e) frac (5 / 10)) +
      real frac (constWord (2 ^ e) frac (212 / 1000)) * q)| ≤ 1 / 2 ^ frac := a3
    have hq : |q| ≤ 3 / 2 := by rw [abs_le]; constructor <;> linarith
    have k := line_real (B := 3 / 2) (by omega) (by norm_num [abs_lt]) (by norm_num [abs_lt]) hq a3
    refine ⟨comb (by norm_num) k ?_, fun h14 => ?_⟩
    · have := five_middle (x := ((q : ℚ) : ℝ)) (by have := cast_abs_le hq; push_cast at this; exact this)
      convert this using 2
      push_cast
      ring
    · have := abs_le.1 k
      have := hu14 h14
      constructor <;> linarith
  · have b1 : q ≤ 4 := by
      have h := a1 (by norm_num)
      norm_num [breaks3, breaks5] at h
      linarith
    have b2 : 3 / 2 ≤ q := by
      have h := a2 (by norm_num)
      norm_num [breaks3, breaks5] at h
      linarith
    have a3 : |real frac (z i) - (real frac (constWord (2 ^ e) frac (719 / 1000)) +
      real frac (constWord (2 ^ e) frac (66 / 1000)) * q)| ≤ 1 / 2 ^ frac := a3
    have k := line_real (B := 4) (by omega) (by norm_num [abs_lt]) (by norm_num [abs_lt])
      (by rw [abs_le]; constructor <;> linarith) a3
    refine ⟨comb (by norm_num) k ?_, fun h14 => ?_⟩
    · have c1 := cst b1
      have c2 := cst b2
      push_cast at c1 c2
      have := five_side (x := ((q : ℚ) : ℝ)) (by linarith) (by linarith)
      convert this using 2
      push_cast
      ring
    · have := abs_le.1 k
      have := hu14 h14
      constructor <;> linarith
  · have b2 : 4 ≤ q := by
      have h := a2 (by norm_num)
      norm_num [breaks3, breaks5] at h
      linarith
    have a3 : |real frac (z i) - (real frac (constWord (2 ^ e) frac (1 - 1 / 10 ^ 4)) +
      real frac (constWord (2 ^ e) frac 0) * q)| ≤ 1 / 2 ^ frac := a3
    refine ⟨comb (B := 2) (by norm_num) (flat_real (by omega) (by norm_num [abs_lt]) a3) ?_, fun h14 => ?_⟩
    · have := five_outer (x := ((q : ℚ) : ℝ)) (by have := cst b2; push_cast at this; linarith)
      convert this using 2
      push_cast
      ring
    · have k := (outer_words (w := 2 ^ e) h14 (by omega)).2
      have k2 := flat_real (by omega) (by norm_num [abs_lt]) a3
      rw [const_exact (q := 0) (k := 0) (by omega) 0 (by simp) (by simp), zero_mul, add_zero] at a3
      have := abs_le.1 a3
      have := abs_le.1 k2
      have := hu14 h14
      constructor <;> linarith

/-- **C63** (three pieces): within 0.076, plus five units of the last place. -/
theorem sigmoid_three_close {e : ℕ} (he : 0 < e) {frac : ℕ} (h1 : 1 ≤ frac) (hw : 2 * frac + 5 ≤ 2 ^ e)
    {x : T (.arith (2 ^ e) n)} {X : Shares (T (.arith (2 ^ e) n))} (hX : Holds x X)
    (hx : ∀ i, |real frac (x i)| ≤ 2 ^ (2 ^ e - 5 - 2 * frac)) :
    ∃ p, sigmoid frac X .three = .ok p ∧ M.All (fun o => ∃ z : T (.arith (2 ^ e) n), Holds z o ∧ ∀ i,
      |((real frac (z i) : ℚ) : ℝ) - logistic (real frac (x i) : ℚ)| ≤ 0.076 + 5 * (1 / 2 ^ frac) ∧
      (14 ≤ frac → 0 ≤ real frac (z i) ∧ real frac (z i) ≤ 1)) p := by
  obtain ⟨p, hp, hall⟩ := lines_value he h1 hw (c := breaks3) (c₀ := consts3) (c₁ := slopes3)
    (by
      intro i
      fin_cases i
      · exact ⟨-5, by norm_num [breaks3]⟩
      · exact ⟨5, by norm_num [breaks3]⟩)
    (by decide +kernel) (by decide +kernel) (by decide +kernel) (by decide +kernel) hX hx
  refine ⟨p, hp, hall.mono ?_⟩
  rintro o ⟨z, hz, h⟩
  refine ⟨z, hz, fun i => ?_⟩
  obtain ⟨j, a1, a2, a3⟩ := h i
  have hu : (0 : ℚ) < 1 / 2 ^ frac := by positivity
  have huR : (0 : ℝ) < 1 / 2 ^ frac := by positivity
  have hu14 : 14 ≤ frac → (1 : ℚ) / 2 ^ frac ≤ 1 / 16384 := fun h => by
    rw [show (16384 : ℚ) = 2 ^ 14 by norm_num]
    exact div_le_div_of_nonneg_left (by norm_num) (by norm_num) (pow_le_pow_right₀ (by norm_num) h)
  generalize real frac (x i) = q at *
  have comb : ∀ {L : ℚ} {B : ℚ}, B ≤ 5 → |real frac (z i) - L| ≤ B * (1 / 2 ^ frac) →
      |((L : ℚ) : ℝ) - logistic (q : ℚ)| ≤ 0.076 →
      |((real frac (z i) : ℚ) : ℝ) - logistic (q : ℚ)| ≤ 0.076 + 5 * (1 / 2 ^ frac) := by
    intro L B hB k1 k2
    have k3 := cast_abs_le (k1.trans (mul_le_mul_of_nonneg_right hB hu.le))
    push_cast at k3
    have t := abs_add_le (((real frac (z i) : ℚ) : ℝ) - L) ((L : ℝ) - logistic (q : ℚ))
    rw [sub_add_sub_cancel] at t
    linarith
  have cst : ∀ {a b : ℚ}, a ≤ b → (a : ℝ) ≤ b := fun h => by exact_mod_cast h
  fin_cases j
  · have b1 : q ≤ -5 / 2 := by
      have h := a1 (by norm_num)
      norm_num [breaks3, breaks5] at h
      linarith
    have a3 : |real frac (z i) - (real frac (constWord (2 ^ e) frac (1 / 10 ^ 4)) +
      real frac (constWord (2 ^ e) frac 0) * q)| ≤ 1 / 2 ^ frac := a3
    refine ⟨comb (B := 2) (by norm_num) (flat_real (by omega) (by norm_num [abs_lt]) a3) ?_, fun h14 => ?_⟩
    · have := three_outer (x := -((q : ℚ) : ℝ)) (by have := cst b1; push_cast at this; linarith)
      rw [logistic_neg, ← abs_neg] at this
      convert this using 2
      push_cast
      ring
    · have k := (outer_words (w := 2 ^ e) h14 (by omega)).1
      have k2 := flat_real (by omega) (by norm_num [abs_lt]) a3
      rw [const_exact (q := 0) (k := 0) (by omega) 0 (by simp) (by simp), zero_mul, add_zero] at a3
      have := abs_le.1 a3
      have := abs_le.1 k2
      have := hu14 h14
      constructor <;> linarith
  · have b1 : q ≤ 5 / 2 := by
      have h := a1 (by norm_num)
      norm_num [breaks3, breaks5] at h
      linarith
    have b2 : -5 / 2 ≤ q := by
      have h := a2 (by norm_num)
      norm_num [breaks3, breaks5] at h
      linarith
    have a3 : |real frac (z i) - (real frac (constWord (2 ^ e) frac (50 / 100)) +
      real frac (constWord (2 ^ e) frac (17 / 100)) * q)| ≤ 1 / 2 ^ frac := a3
    have hq : |q| ≤ 5 / 2 := by rw [abs_le]; constructor <;> linarith
    have k := line_real (B := 5 / 2) (by omega) (by norm_num [abs_lt]) (by norm_num [abs_lt]) hq a3
    refine ⟨comb (by norm_num) k ?_, fun h14 => ?_⟩
    · have := three_middle (x := ((q : ℚ) : ℝ)) (by have := cast_abs_le hq; push_cast at this; exact this)
      convert this using 2
      push_cast
      ring
    · have := abs_le.1 k
      have := hu14 h14
      constructor <;> linarith
  · have b2 : 5 / 2 ≤ q := by
      have h := a2 (by norm_num)
      norm_num [breaks3, breaks5] at h
      linarith
    have a3 : |real frac (z i) - (real frac (constWord (2 ^ e) frac (1 - 1 / 10 ^ 4)) +
      real frac (constWord (2 ^ e) frac 0) * q)| ≤ 1 / 2 ^ frac := a3
    refine ⟨comb (B := 2) (by norm_num) (flat_real (by omega) (by norm_num [abs_lt]) a3) ?_, fun h14 => ?_⟩
    · have := three_outer (x := ((q : ℚ) : ℝ)) (by have := cst b2; push_cast at this; linarith)
      convert this using 2
      push_cast
      ring
    · have k := (outer_words (w := 2 ^ e) h14 (by omega)).2
      have k2 := flat_real (by omega) (by norm_num [abs_lt]) a3
      rw [const_exact (q := 0) (k := 0) (by omega) 0 (by simp) (by simp), zero_mul, add_zero] at a3
      have := abs_le.1 a3
      have := abs_le.1 k2
      have := hu14 h14
      constructor <;> linarith

/-- No other approximation is offered. -/
theorem sigmoid_other_raises {frac : ℕ} (X : Shares (T (.arith w n))) :
    sigmoid frac X .other = .error .notImplemented := rfl

/-- **C63**, secrecy. -/
theorem sigmoid_secrecy {e : ℕ} (he : 0 < e) {frac : ℕ} (hw : 2 * frac + 2 ≤ 2 ^ e) {k : Pieces} (hk : k ≠ .other)
    (σ : Fin 3) (x x' : T (.arith (2 ^ e) n)) :
    ∃ F : Shares (T (.arith (2 ^ e) n)) → M (Shares (T (.arith (2 ^ e) n))),
      (∀ X, sigmoid frac X k = .ok (F X)) ∧ M.view σ (share x >>= F) = M.view σ (share x' >>= F) := by
  cases k with
  | other => exact absurd rfl hk
  | three => exact piecewise_secrecy he (fun _ => by omega) _ _ _ σ x x'
  | five => exact piecewise_secrecy he (fun _ => by omega) _ _ _ σ x x'

/-- The default 64-bit and 128-bit settings; numbers up to 2^27 in size in the first. -/
example : 2 * 16 + 5 ≤ 2 ^ 6 ∧ 2 * 32 + 5 ≤ 2 ^ 7 ∧ 2 ^ 6 - 5 - 2 * 16 = 27 ∧
    ∀ i : Fin 3, |real 16 ((![BitVec.ofInt 64 (-98304), 0, 1441792] : Fin 3 → BitVec 64) i)| ≤ 2 ^ 27 := by
  decide +kernel

end Verif.Aby3
