import Verif.Aby3.TrainSpec
import Verif.Aby3.TrainLemmas

/-!
# What the steps of a private training compute
-/

namespace Verif.Aby3

open Verif

variable {w p k m a b n : ℕ} {σ : Fin 3}

attribute [local irreducible] M.All M.Sim

/-! ## Words -/

theorem tap_close {frac : ℕ} (hw : 2 ≤ w) {taps : Fin m → List (Fin a × Fin b)} {x : T (.arith w a)}
    {y : T (.arith w b)} {j : Fin m} {z : BitVec w} (hz : TruncOk .heuristic frac (tapT taps x y j) z)
    (hr : |((taps j).map fun st => real frac (x st.1) * real frac (y st.2)).sum| * (2 ^ frac * 2 ^ frac) <
      2 ^ (w - 2)) :
    Close frac z ((taps j).map fun st => real frac (x st.1) * real frac (y st.2)).sum (1 / 2 ^ frac) := by
  obtain ⟨S, e, hS⟩ := taps_close (frac := frac) (δ := 0) (X := x) (V := y) (x := fun s => real frac (x s))
    (E := fun _ => 0) (v := fun t => real frac (y t)) (fun t => Close.refl _ _) (fun t => Close.refl _ _) (taps j)
  have h0 : ((taps j).map fun st => (0 : ℚ) * (|real frac (y st.2)| + 0) + |real frac (x st.1)| * 0).sum = 0 := by
    simp
  rw [h0] at hS
  have := round_close hw (y := tapT taps x y j) e hS (by rw [add_zero]; exact hr) hz
  rwa [zero_add] at this

theorem finRange_sum (f : Fin n → ℚ) : ((List.finRange n).map f).sum = ∑ t, f t := by
  rw [Fin.sum_univ_def]

theorem sum_le_card {f : Fin n → ℚ} {c : ℚ} (h : ∀ i, |f i| ≤ c) : |∑ i, f i| ≤ n * c := by
  refine (Finset.abs_sum_le_sum_abs _ _).trans ?_
  refine (Finset.sum_le_sum fun i _ => h i).trans (le_of_eq ?_)
  simp

/-- A sum of words. -/
theorem list_close {frac : ℕ} (d : Fin n → BitVec w) (L : List (Fin n)) :
    Close frac (L.map fun i => d i).sum (L.map fun i => real frac (d i)).sum 0 := by
  induction L with
  | nil => exact ⟨0, by simp, by simp⟩
  | cons i L ih =>
    have := (Close.refl frac (d i)).add ih
    rw [add_zero] at this
    rw [List.map_cons, List.sum_cons, List.map_cons, List.sum_cons]
    exact this

namespace Roomy

variable {e frac : ℕ} {lr mom A B : ℚ} (h : Roomy e frac p k lr mom A B)
include h

theorem pA : (1 : ℚ) ≤ p * A := by
  have : (1 : ℚ) ≤ p := by exact_mod_cast h.size
  nlinarith [h.A1]

theorem N1 : (1 : ℚ) ≤ 2 ^ frac := one_le_pow₀ (by norm_num)

theorem big : (k * A * B + B + 1) * (2 ^ frac * 2 ^ frac) * 8 ≤ 2 ^ (2 ^ e - 2) := by
  have hb := h.bits
  have : (2 : ℚ) ^ (2 ^ e - 5 - 2 * frac) * (2 ^ frac * 2 ^ frac) * 8 = 2 ^ (2 ^ e - 2) := by
    rw [show (8 : ℚ) = 2 ^ 3 by norm_num, ← pow_add, ← pow_add, ← pow_add]
    congr 1
    omega
  rw [← this]
  have hN : (0 : ℚ) < 2 ^ frac := by positivity
  exact mul_le_mul_of_nonneg_right (mul_le_mul_of_nonneg_right h.logit (by positivity)) (by norm_num)

theorem kAB : (0 : ℚ) ≤ k * A * B := by
  have := h.A1
  have := h.B0
  positivity

theorem weights : (B + 1) * (2 ^ frac * 2 ^ frac) * 8 ≤ 2 ^ (2 ^ e - 2) := by
  refine le_trans ?_ h.big
  have := h.kAB
  exact mul_le_mul_of_nonneg_right (mul_le_mul_of_nonneg_right (by linarith) (by positivity)) (by norm_num)

theorem NN : (2 : ℚ) ^ frac ≤ 2 ^ frac * 2 ^ frac := by nlinarith [h.N1]

theorem sums : (2 * p * A + 4) * 2 * (2 ^ frac * 2 ^ frac) < 2 ^ (2 ^ e - 2) := by
  refine lt_of_le_of_lt ?_ h.step
  have := h.pA
  have := h.lr0
  refine mul_le_mul_of_nonneg_right ?_ (by positivity)
  nlinarith

theorem half : (2 : ℚ) ^ (2 ^ e - 1) = 2 * 2 ^ (2 ^ e - 2) := by
  have := h.bits
  rw [← pow_succ']
  congr 1
  omega

theorem w2 : 2 ≤ 2 ^ e := by have := h.bits; omega

/-- The logit of a sample. -/
theorem logit_close {X : T (.arith (2 ^ e) (p * k))} {W : T (.arith (2 ^ e) k)} {C : T (.arith (2 ^ e) 1)}
    {z : T (.arith (2 ^ e) p)} (hX : ∀ j, |real frac (X j)| ≤ A) (hW : ∀ t, |real frac (W t)| ≤ B)
    (hC : |real frac (C 0)| ≤ B) (hz : ∀ i, TruncOk .heuristic frac (tapT (fwdTaps p k) X W i) (z i)) (i : Fin p) :
    |real frac ((z + spreadBias p C : T (.arith (2 ^ e) p)) i) -
        (∑ t, real frac (X (finProdFinEquiv (i, t))) * real frac (W t) + real frac (C 0))| ≤ 1 / 2 ^ frac ∧
      |real frac ((z + spreadBias p C : T (.arith (2 ^ e) p)) i)| ≤ 2 ^ (2 ^ e - 5 - 2 * frac) := by
  have hN : (0 : ℚ) < 2 ^ frac := by positivity
  have hu : (1 : ℚ) / 2 ^ frac ≤ 1 := by rw [div_le_one hN]; exact h.N1
  have eQ : ((fwdTaps p k i).map fun st => real frac (X st.1) * real frac (W st.2)).sum =
      ∑ t, real frac (X (finProdFinEquiv (i, t))) * real frac (W t) := by
    unfold fwdTaps
    rw [List.map_map, ← finRange_sum]
    rfl
  have hQ : |∑ t, real frac (X (finProdFinEquiv (i, t))) * real frac (W t)| ≤ k * A * B := by
    rw [mul_assoc]
    refine sum_le_card fun t => ?_
    rw [abs_mul]
    exact mul_le_mul (hX _) (hW t) (abs_nonneg _) (by linarith [h.A1])
  set Q := ∑ t, real frac (X (finProdFinEquiv (i, t))) * real frac (W t) with hQd
  have hbig := h.big
  have hB := h.B0
  have hNN := h.NN
  have hc := tap_close h.w2 (hz i) (by
    rw [eQ]
    have : |Q| * (2 ^ frac * 2 ^ frac) ≤ k * A * B * (2 ^ frac * 2 ^ frac) :=
      mul_le_mul_of_nonneg_right hQ (by positivity)
    nlinarith [h.kAB])
  rw [eQ] at hc
  have hadd := hc.add (Close.refl frac (C 0))
  rw [add_zero] at hadd
  have hsum : |Q + real frac (C 0)| ≤ k * A * B + B := (abs_add_le _ _).trans (add_le_add hQ hC)
  have hv := hadd.value (by have := h.w2; omega) (by
    show (|Q + real frac (C 0)| + 1 / 2 ^ frac) * 2 ^ frac < _
    rw [h.half]
    have : (|Q + real frac (C 0)| + 1 / 2 ^ frac) * 2 ^ frac ≤ (k * A * B + B + 1) * (2 ^ frac * 2 ^ frac) := by
      refine mul_le_mul (by linarith) hNN hN.le ?_
      have := h.kAB
      linarith
    have h0 : (0 : ℚ) < 2 ^ (2 ^ e - 2) := by positivity
    nlinarith [h.kAB])
  have hv' : |real frac ((z + spreadBias p C : T (.arith (2 ^ e) p)) i) - (Q + real frac (C 0))| ≤ 1 / 2 ^ frac := hv
  refine ⟨hv', ?_⟩
  have := abs_sub_abs_le_abs_sub (real frac ((z + spreadBias p C : T (.arith (2 ^ e) p)) i)) (Q + real frac (C 0))
  linarith [h.logit]

/-- The mean after a sum: `g` is within one unit of the sum `S`. -/
theorem mean_close {plan : DivPlan (2 ^ e)} (hp : divPlan (2 ^ e) frac true (p : ℚ) = .ok plan)
    {g g' : BitVec (2 ^ e)} (hg : DivVal frac plan g g') {S : ℚ} (hS : |S| ≤ p * A)
    (hc : Close frac g S (1 / 2 ^ frac)) :
    |real frac g' - S / p| ≤ (3 + p * A) / 2 ^ frac ∧ |real frac g'| ≤ 2 * p * A + 3 := by
  have hN : (0 : ℚ) < 2 ^ frac := by positivity
  have hu : (1 : ℚ) / 2 ^ frac ≤ 1 := by rw [div_le_one hN]; exact h.N1
  have hu0 : (0 : ℚ) ≤ 1 / 2 ^ frac := by positivity
  have hp1 : (1 : ℚ) ≤ p := by exact_mod_cast h.size
  have hpA := h.pA
  have hs := h.sums
  have hNN := h.NN
  have hpos : (0 : ℚ) < 2 ^ (2 ^ e - 2) := by positivity
  have hv : |real frac g - S| ≤ 1 / 2 ^ frac := hc.value (by have := h.w2; omega) (by
    rw [h.half]
    have : (|S| + 1 / 2 ^ frac) * 2 ^ frac ≤ (2 * p * A + 4) * (2 ^ frac * 2 ^ frac) :=
      mul_le_mul (by linarith) hNN hN.le (by linarith)
    nlinarith)
  have hg1 : |real frac g| ≤ p * A + 1 / 2 ^ frac := by
    have := abs_sub_abs_le_abs_sub (real frac g) S
    linarith
  have hgp : |real frac g / p| ≤ |real frac g| := by
    rw [abs_div, abs_of_pos (show (0 : ℚ) < p by linarith)]
    exact div_le_self (abs_nonneg _) hp1
  obtain ⟨d, -⟩ := div_word (by have := h.w2; omega) hp hg (by
      have : |real frac g| * 2 ^ frac ≤ (2 * p * A + 4) * (2 ^ frac * 2 ^ frac) :=
        mul_le_mul (by linarith) hNN hN.le (by linarith)
      nlinarith) (by
      have : |real frac g / p| * (2 ^ frac * 2 ^ frac) ≤ (2 * p * A + 4) * (2 ^ frac * 2 ^ frac) :=
        mul_le_mul_of_nonneg_right (by linarith) (by positivity)
      nlinarith) (by
      rw [h.half, abs_of_nonneg (by positivity)]
      have : (1 : ℚ) / p * 2 ^ frac ≤ (2 * p * A + 4) * (2 ^ frac * 2 ^ frac) := by
        refine mul_le_mul ?_ hNN hN.le (by linarith)
        have : (1 : ℚ) / p ≤ 1 := by rw [div_le_one (by linarith)]; exact hp1
        linarith
      nlinarith)
  have h2 : |real frac g / p - S / p| ≤ 1 / 2 ^ frac := by
    rw [← sub_div, abs_div, abs_of_pos (show (0 : ℚ) < p by linarith)]
    refine (div_le_self (abs_nonneg _) hp1).trans hv
  have hd : (1 + |real frac g|) / 2 ^ frac ≤ (2 + p * A) / 2 ^ frac :=
    div_le_div_of_nonneg_right (by linarith) hN.le
  have h3 : |real frac g' - S / p| ≤ (3 + p * A) / 2 ^ frac := by
    have := abs_sub_le (real frac g') (real frac g / p) (S / p)
    have e1 : (3 + p * A) / 2 ^ frac = (2 + p * A) / 2 ^ frac + 1 / 2 ^ frac := by ring
    rw [e1]
    linarith
  refine ⟨h3, ?_⟩
  have hSp : |S / p| ≤ p * A := by
    rw [abs_div, abs_of_pos (show (0 : ℚ) < p by linarith)]
    exact (div_le_self (abs_nonneg _) hp1).trans hS
  have h4 : (3 + p * A) / 2 ^ frac ≤ 3 + p * A := div_le_self (by linarith) h.N1
  have := abs_sub_abs_le_abs_sub (real frac g') (S / p)
  linarith

/-- One weight. -/
theorem sgd_close {pm pr : DivPlan (2 ^ e)} (hm : numPlan (2 ^ e) frac mom = .ok pm)
    (hr : numPlan (2 ^ e) frac lr = .ok pr) {W V G W' V' : T (.arith (2 ^ e) n)} (hs : SgdVal frac pm pr W V G W' V')
    {i : Fin n} (hW : |real frac (W i)| ≤ B) (hV : |real frac (V i)| ≤ B)
    (hG : |real frac (G i)| ≤ 2 * p * A + 3) :
    |real frac (V' i) - (mom * real frac (V i) + lr * real frac (G i))| ≤ (2 * p * A + B + 5) / 2 ^ frac ∧
      real frac (W' i) = real frac (W i) - real frac (V' i) := by
  have hN : (0 : ℚ) < 2 ^ frac := by positivity
  have hN1 := h.N1
  have hu : (1 : ℚ) / 2 ^ frac ≤ 1 := by rw [div_le_one hN]; exact hN1
  have hu0 : (0 : ℚ) ≤ 1 / 2 ^ frac := by positivity
  have hNN := h.NN
  have hw := h.weights
  have hB := h.B0
  have hpA := h.pA
  have hl := h.lr0
  have hst := h.step
  have hpos : (0 : ℚ) < 2 ^ (2 ^ e - 2) := by positivity
  have hw2 := h.w2
  obtain ⟨d, g, hd, hg, rfl, rfl⟩ := hs
  have c1 := num_close hw2 hm (hd i) (Close.refl frac (V i)) (by
      rw [abs_of_nonneg h.mom0, h.half]
      have : mom * 2 ^ frac ≤ (B + 1) * (2 ^ frac * 2 ^ frac) :=
        mul_le_mul (by linarith [h.mom1]) hNN hN.le (by linarith)
      nlinarith) (by
      rw [add_zero, abs_of_nonneg h.mom0]
      have : |real frac (V i)| * (mom + 1 / 2 ^ frac) ≤ (B + 1) * 2 :=
        mul_le_mul (by linarith) (by linarith [h.mom1]) (by linarith [h.mom0]) (by linarith)
      have := mul_le_mul_of_nonneg_right this (show (0 : ℚ) ≤ 2 ^ frac * 2 ^ frac by positivity)
      change |real frac (V i)| * (mom + 1 / 2 ^ frac) * (2 ^ frac * 2 ^ frac) < _
      nlinarith)
  have c2 := num_close hw2 hr (hg i) (Close.refl frac (G i)) (by
      rw [abs_of_nonneg hl, h.half]
      have : lr * 2 ^ frac ≤ (2 * p * A + 4) * (lr + 2) * (2 ^ frac * 2 ^ frac) :=
        mul_le_mul (by nlinarith) hNN hN.le (by nlinarith)
      linarith) (by
      rw [add_zero, abs_of_nonneg hl]
      have : |real frac (G i)| * (lr + 1 / 2 ^ frac) ≤ (2 * p * A + 4) * (lr + 2) :=
        mul_le_mul (by linarith) (by linarith) (by linarith) (by linarith)
      have := mul_le_mul_of_nonneg_right this (show (0 : ℚ) ≤ 2 ^ frac * 2 ^ frac by positivity)
      change |real frac (G i)| * (lr + 1 / 2 ^ frac) * (2 ^ frac * 2 ^ frac) < _
      linarith)
  rw [mul_zero, add_zero, zero_add] at c1 c2
  have c3 := c1.add c2
  change Close frac _ (mom * real frac (V i) + lr * real frac (G i))
    ((|real frac (V i)| + 1) / 2 ^ frac + (|real frac (G i)| + 1) / 2 ^ frac) at c3
  have herr : (|real frac (V i)| + 1) / 2 ^ frac + (|real frac (G i)| + 1) / 2 ^ frac ≤
      (2 * p * A + B + 5) / 2 ^ frac := by
    rw [← add_div]
    exact div_le_div_of_nonneg_right (by linarith) hN.le
  have herr1 : (|real frac (V i)| + 1) / 2 ^ frac + (|real frac (G i)| + 1) / 2 ^ frac ≤ 2 * p * A + B + 5 :=
    herr.trans (div_le_self (by linarith) hN1)
  have hb1 : |mom * real frac (V i) + lr * real frac (G i)| ≤ B + lr * (2 * p * A + 3) := by
    refine (abs_add_le _ _).trans (add_le_add ?_ ?_)
    · rw [abs_mul, abs_of_nonneg h.mom0]
      exact (mul_le_of_le_one_left (abs_nonneg _) h.mom1).trans hV
    · rw [abs_mul, abs_of_nonneg hl]
      exact mul_le_mul_of_nonneg_left hG hl
  -- everything is below half of the ring, with room for the weight
  have hroom : (B + (B + lr * (2 * p * A + 3)) + (2 * p * A + B + 5)) * 2 ^ frac < 2 ^ (2 ^ e - 1) := by
    rw [h.half]
    have t1 : (3 * B + 1) * 2 ^ frac ≤ (B + 1) * 3 * (2 ^ frac * 2 ^ frac) :=
      mul_le_mul (by linarith) hNN hN.le (by linarith)
    have t2 : (lr * (2 * p * A + 3) + (2 * p * A + 4)) * 2 ^ frac ≤
        (2 * p * A + 4) * (lr + 2) * (2 ^ frac * 2 ^ frac) :=
      mul_le_mul (by nlinarith) hNN hN.le (by nlinarith)
    nlinarith
  have hval : |real frac ((d + g : T (.arith (2 ^ e) n)) i) - (mom * real frac (V i) + lr * real frac (G i))| ≤
      (|real frac (V i)| + 1) / 2 ^ frac + (|real frac (G i)| + 1) / 2 ^ frac :=
    c3.value (by omega) (by
      refine lt_of_le_of_lt (mul_le_mul_of_nonneg_right ?_ hN.le) hroom
      linarith)
  refine ⟨hval.trans herr, ?_⟩
  refine sub_real (by omega) (lt_of_le_of_lt (mul_le_mul_of_nonneg_right ?_ hN.le) hroom)
  have t3 := abs_sub_abs_le_abs_sub (real frac ((d + g : T (.arith (2 ^ e) n)) i))
    (mom * real frac (V i) + lr * real frac (G i))
  have t4 : |real frac (W i) - real frac ((d + g : T (.arith (2 ^ e) n)) i)| ≤
      |real frac (W i)| + |real frac ((d + g : T (.arith (2 ^ e) n)) i)| := abs_sub _ _
  refine t4.trans ?_
  linarith

end Roomy

end Verif.Aby3
