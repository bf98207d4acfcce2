import Verif.Aby3.TrainClose
import Mathlib.Analysis.SpecialFunctions.Log.Deriv
import Mathlib.Analysis.SpecialFunctions.ExpDeriv
import Mathlib.Algebra.BigOperators.Field

/-!
# C90: private training of a logistic regression
-/

namespace Verif.Aby3

open Verif

variable {p k : ℕ} {σ : Fin 3}

attribute [local irreducible] M.All M.Sim

/-! ## Real numbers -/

/-- The logistic function does not stretch distances. -/
theorem logistic_lipschitz (x y : ℝ) : |logistic x - logistic y| ≤ |x - y| := by
  have main : ∀ x y : ℝ, y ≤ x → logistic x - logistic y ≤ x - y := by
    intro x y h
    unfold logistic
    have e1 := Real.exp_pos (-x)
    have e2 := Real.exp_pos (-y)
    have e3 : Real.exp (-x) = Real.exp (-y) * Real.exp (-(x - y)) := by
      rw [← Real.exp_add]; congr 1; ring
    have e4 : 1 - (x - y) ≤ Real.exp (-(x - y)) := by
      have := Real.add_one_le_exp (-(x - y)); linarith
    rw [div_sub_div _ _ (by positivity) (by positivity), div_le_iff₀ (by positivity)]
    have h5 : Real.exp (-y) - Real.exp (-x) ≤ Real.exp (-y) * (x - y) := by
      rw [e3]; nlinarith
    have h6 : Real.exp (-y) * (x - y) ≤ (x - y) * ((1 + Real.exp (-x)) * (1 + Real.exp (-y))) := by
      nlinarith [mul_nonneg (sub_nonneg.2 h) (mul_pos e1 e2).le, mul_nonneg (sub_nonneg.2 h) e1.le]
    linarith
  rcases le_total y x with h | h
  · rw [abs_of_nonneg (sub_nonneg.2 (logistic_mono h)), abs_of_nonneg (sub_nonneg.2 h)]
    exact main x y h
  · rw [abs_sub_comm, abs_sub_comm x, abs_of_nonneg (sub_nonneg.2 (logistic_mono h)), abs_of_nonneg (sub_nonneg.2 h)]
    exact main y x h

theorem abs_sum_le {n : ℕ} {f : Fin n → ℝ} {c : ℝ} (h : ∀ i, |f i| ≤ c) : |∑ i, f i| ≤ n * c := by
  refine (Finset.abs_sum_le_sum_abs _ _).trans ?_
  refine (Finset.sum_le_sum fun i _ => h i).trans (le_of_eq ?_)
  simp

theorem mean_le (hp : 0 < p) {f g : Fin p → ℝ} {c : ℝ} (h : ∀ i, |f i - g i| ≤ c) :
    |(∑ i, f i) / p - (∑ i, g i) / p| ≤ c := by
  have hp' : (0 : ℝ) < p := by exact_mod_cast hp
  rw [← sub_div, ← Finset.sum_sub_distrib, abs_div, abs_of_pos hp', div_le_iff₀ hp', mul_comm]
  exact abs_sum_le h

/-- How much one step can stretch the distance of two states. -/
def stretch (k : ℕ) (lr mom A : ℝ) : ℝ := 1 + mom + lr * (A * (k * A + 1))

theorem prob_lipschitz {s s' : RegState k} {r A : ℝ} {x : Fin k → ℝ} (hA : 0 ≤ A) (hr : Within r s s')
    (hx : ∀ t, |x t| ≤ A) : |prob s x - prob s' x| ≤ (k * A + 1) * r := by
  refine (logistic_lipschitz _ _).trans ?_
  have : ∑ t, x t * s.θ t + s.β - (∑ t, x t * s'.θ t + s'.β) =
      ∑ t, x t * (s.θ t - s'.θ t) + (s.β - s'.β) := by
    rw [show (fun t => x t * (s.θ t - s'.θ t)) = fun t => x t * s.θ t - x t * s'.θ t from
      funext fun t => mul_sub _ _ _, Finset.sum_sub_distrib]
    ring
  rw [this]
  have h1 : |∑ t, x t * (s.θ t - s'.θ t)| ≤ k * (A * r) :=
    abs_sum_le fun t => by
      rw [abs_mul]
      exact mul_le_mul (hx t) (hr.1 t) (abs_nonneg _) hA
  have := abs_add_le (∑ t, x t * (s.θ t - s'.θ t)) (s.β - s'.β)
  nlinarith [hr.2.1]

/-- A step of gradient descent stretches distances at most by `stretch`. -/
theorem descent_lipschitz (hp : 0 < p) {lr mom A r : ℝ} (hl : 0 ≤ lr) (hm : 0 ≤ mom) (hA : 1 ≤ A) {d : RegBatch p k}
    (hd : d.Tame A) {s s' : RegState k} (hr : Within r s s') :
    Within (stretch k lr mom A * r) (descent lr mom d s) (descent lr mom d s') := by
  have hr0 : 0 ≤ r := (abs_nonneg _).trans hr.2.1
  have hpr : ∀ i, |(prob s (d.x i) - d.y i) - (prob s' (d.x i) - d.y i)| ≤ (k * A + 1) * r := fun i => by
    rw [sub_sub_sub_cancel_right]
    exact prob_lipschitz (by linarith) hr (hd.1 i)
  have hkr : 0 ≤ (k * A + 1) * r := by positivity
  have gθ : ∀ t, |gradθ d s t - gradθ d s' t| ≤ A * ((k * A + 1) * r) := fun t =>
    mean_le hp fun i => by
      rw [← mul_sub, abs_mul]
      exact mul_le_mul (hd.1 i t) (hpr i) (abs_nonneg _) (by linarith)
  have gβ : |gradβ d s - gradβ d s'| ≤ A * ((k * A + 1) * r) :=
    mean_le hp fun i => (hpr i).trans (by nlinarith)
  have key : ∀ {a a' g g' : ℝ}, |a - a'| ≤ r → |g - g'| ≤ A * ((k * A + 1) * r) →
      |mom * a + lr * g - (mom * a' + lr * g')| ≤ mom * r + lr * (A * ((k * A + 1) * r)) := by
    intro a a' g g' h1 h2
    rw [show mom * a + lr * g - (mom * a' + lr * g') = mom * (a - a') + lr * (g - g') by ring]
    refine (abs_add_le _ _).trans (add_le_add ?_ ?_)
    · rw [abs_mul, abs_of_nonneg hm]; exact mul_le_mul_of_nonneg_left h1 hm
    · rw [abs_mul, abs_of_nonneg hl]; exact mul_le_mul_of_nonneg_left h2 hl
  have e : stretch k lr mom A * r = r + (mom * r + lr * (A * ((k * A + 1) * r))) := by unfold stretch; ring
  rw [e]
  have key' : ∀ {b b' a a' g g' : ℝ}, |b - b'| ≤ r → |a - a'| ≤ r → |g - g'| ≤ A * ((k * A + 1) * r) →
      |b - (mom * a + lr * g) - (b' - (mom * a' + lr * g'))| ≤ r + (mom * r + lr * (A * ((k * A + 1) * r))) := by
    intro b b' a a' g g' h0 h1 h2
    have := key h1 h2
    rw [show b - (mom * a + lr * g) - (b' - (mom * a' + lr * g')) =
      (b - b') - (mom * a + lr * g - (mom * a' + lr * g')) by ring]
    refine (abs_sub _ _).trans ?_
    linarith
  refine ⟨fun t => key' (hr.1 t) (hr.2.2.1 t) (gθ t), key' hr.2.1 hr.2.2.2 gβ,
    fun t => (key (hr.2.2.1 t) (gθ t)).trans ?_, (key hr.2.2.2 gβ).trans ?_⟩ <;> linarith

theorem Within.trans {r r' : ℝ} {s s' s'' : RegState k} (h : Within r s s') (h' : Within r' s' s'') :
    Within (r + r') s s'' :=
  ⟨fun t => (abs_sub_le _ _ _).trans (add_le_add (h.1 t) (h'.1 t)), (abs_sub_le _ _ _).trans (add_le_add h.2.1 h'.2.1),
    fun t => (abs_sub_le _ _ _).trans (add_le_add (h.2.2.1 t) (h'.2.2.1 t)),
    (abs_sub_le _ _ _).trans (add_le_add h.2.2.2 h'.2.2.2)⟩

theorem Within.small {r B : ℝ} {s s' : RegState k} (h : Within r s s') (hs : Small (B - r) s') : Small B s := by
  have key : ∀ {a b : ℝ}, |a - b| ≤ r → |b| ≤ B - r → |a| ≤ B := fun {a b} h1 h2 => by
    have := abs_sub_abs_le_abs_sub a b
    linarith
  exact ⟨fun t => key (h.1 t) (hs.1 t), key h.2.1 hs.2.1, fun t => key (h.2.2.1 t) (hs.2.2.1 t), key h.2.2.2 hs.2.2.2⟩

theorem Small.mono {B B' : ℝ} (h : B ≤ B') {s : RegState k} (hs : Small B s) : Small B' s :=
  ⟨fun t => (hs.1 t).trans h, hs.2.1.trans h, fun t => (hs.2.2.1 t).trans h, hs.2.2.2.trans h⟩

/-- The loss whose gradient the training follows: the mean cross entropy. -/
noncomputable def crossEntropy (d : RegBatch p k) (s : RegState k) : ℝ :=
  (∑ i, -(d.y i * Real.log (prob s (d.x i)) + (1 - d.y i) * Real.log (1 - prob s (d.x i)))) / p

/-- The state moved along a direction. -/
def RegState.along (s : RegState k) (η : Fin k → ℝ) (κ r : ℝ) : RegState k :=
  { s with θ := fun t => s.θ t + r * η t, β := s.β + r * κ }

theorem crossEntropy_one (y z : ℝ) :
    -(y * Real.log (logistic z) + (1 - y) * Real.log (1 - logistic z)) =
      Real.log (1 + Real.exp (-z)) + (1 - y) * z := by
  have e1 := Real.exp_pos (-z)
  have h1 : Real.log (logistic z) = -Real.log (1 + Real.exp (-z)) := by
    unfold logistic; rw [one_div, Real.log_inv]
  have h2 : Real.log (1 - logistic z) = -z - Real.log (1 + Real.exp (-z)) := by
    have : 1 - logistic z = Real.exp (-z) / (1 + Real.exp (-z)) := by
      unfold logistic; field_simp; ring
    rw [this, Real.log_div e1.ne' (by positivity), Real.log_exp]
  rw [h1, h2]; ring

theorem crossEntropy_deriv (y z : ℝ) :
    HasDerivAt (fun z => Real.log (1 + Real.exp (-z)) + (1 - y) * z) (logistic z - y) z := by
  have e1 := Real.exp_pos (-z)
  have h1 : HasDerivAt (fun z : ℝ => Real.exp (-z)) (-Real.exp (-z)) z := by
    have := (Real.hasDerivAt_exp (-z)).comp z (hasDerivAt_neg z)
    refine this.congr_deriv ?_
    ring
  have h2 := ((h1.const_add 1).log (by positivity)).add ((hasDerivAt_id z).const_mul (1 - y))
  refine h2.congr_deriv ?_
  unfold logistic
  field_simp
  ring

/-- **C90** (specification). `gradθ` and `gradβ` are the gradient of the mean cross entropy: its derivative in
every direction. -/
theorem grad_crossEntropy (d : RegBatch p k) (s : RegState k) (η : Fin k → ℝ) (κ : ℝ) :
    HasDerivAt (fun r => crossEntropy d (s.along η κ r)) (∑ t, gradθ d s t * η t + gradβ d s * κ) 0 := by
  have hline : ∀ i, HasDerivAt (fun r => ∑ t, d.x i t * (s.θ t + r * η t) + (s.β + r * κ))
      (∑ t, d.x i t * η t + κ) 0 := fun i => by
    have h1 : ∀ t : Fin k, HasDerivAt (fun r : ℝ => d.x i t * (s.θ t + r * η t)) (d.x i t * η t) 0 := fun t => by
      have := (((hasDerivAt_id (0 : ℝ)).mul_const (η t)).const_add (s.θ t)).const_mul (d.x i t)
      exact this.congr_deriv (by ring)
    have h2 : HasDerivAt (fun r : ℝ => s.β + r * κ) κ 0 :=
      (((hasDerivAt_id (0 : ℝ)).mul_const κ).const_add s.β).congr_deriv (by ring)
    exact (HasDerivAt.fun_sum fun t _ => h1 t).add h2
  have hone : ∀ i, HasDerivAt (fun r => -(d.y i * Real.log (prob (s.along η κ r) (d.x i)) +
      (1 - d.y i) * Real.log (1 - prob (s.along η κ r) (d.x i))))
      ((prob s (d.x i) - d.y i) * (∑ t, d.x i t * η t + κ)) 0 := fun i => by
    have e : (fun r => -(d.y i * Real.log (prob (s.along η κ r) (d.x i)) +
        (1 - d.y i) * Real.log (1 - prob (s.along η κ r) (d.x i)))) =
        (fun z => Real.log (1 + Real.exp (-z)) + (1 - d.y i) * z) ∘
          fun r => ∑ t, d.x i t * (s.θ t + r * η t) + (s.β + r * κ) :=
      funext fun r => crossEntropy_one _ _
    rw [e]
    have := (crossEntropy_deriv (d.y i) (∑ t, d.x i t * (s.θ t + 0 * η t) + (s.β + 0 * κ))).comp (0 : ℝ) (hline i)
    refine this.congr_deriv ?_
    simp only [zero_mul, add_zero]
    rfl
  have := (HasDerivAt.fun_sum (u := Finset.univ) fun i _ => hone i).div_const (p : ℝ)
  refine this.congr_deriv ?_
  unfold gradθ gradβ
  simp only [div_mul_eq_mul_div, ← Finset.sum_div, ← add_div, Finset.sum_mul]
  rw [Finset.sum_comm, ← Finset.sum_add_distrib]
  congr 1
  refine Finset.sum_congr rfl fun i _ => ?_
  rw [mul_add, Finset.mul_sum]
  congr 1
  exact Finset.sum_congr rfl fun t _ => by ring

/-! ## What the words stand for -/

variable {e frac : ℕ} {lr mom A B : ℚ}

/-- The state that the words of the weights and of the momentum terms stand for. -/
noncomputable def stateOf (frac : ℕ) (W V : T (.arith (2 ^ e) k)) (C U : T (.arith (2 ^ e) 1)) : RegState k where
  θ := fun t => ((real frac (W t) : ℚ) : ℝ)
  β := ((real frac (C 0) : ℚ) : ℝ)
  v := fun t => ((real frac (V t) : ℚ) : ℝ)
  u := ((real frac (U 0) : ℚ) : ℝ)

/-- The samples that the words of a batch stand for. -/
noncomputable def batchOf (frac : ℕ) (D : Batch (2 ^ e) p k) : RegBatch p k where
  x := fun i t => ((real frac (D.1 (finProdFinEquiv (i, t))) : ℚ) : ℝ)
  y := fun i => ((real frac (D.2 i) : ℚ) : ℝ)

/-- The error that one step adds: `0.042` is the distance between the five line segments and the logistic
function, the rest is rounding. -/
noncomputable def noise (frac p : ℕ) (lr A B : ℝ) : ℝ :=
  lr * (A * (0.042 + 7 * (1 / 2 ^ frac)) + (3 + p * A) / 2 ^ frac) + (2 * p * A + B + 5) / 2 ^ frac

theorem cast_le_iff {x y : ℚ} : ((x : ℚ) : ℝ) ≤ ((y : ℚ) : ℝ) ↔ x ≤ y := Rat.cast_le

theorem Roomy.batch (h : Roomy e frac p k lr mom A B) {plan : TrainPlan (2 ^ e)} (hp : PlanOk frac p lr mom plan)
    {D : Batch (2 ^ e) p k} (hD : (batchOf frac D).Tame A) {W V W' V' : T (.arith (2 ^ e) k)}
    {C U C' U' : T (.arith (2 ^ e) 1)} (hs : Small B (stateOf frac W V C U))
    (hb : BatchVal frac plan D W V C U W' V' C' U') :
    Within (noise frac p lr A B) (stateOf frac W' V' C' U')
      (descent lr mom (batchOf frac D) (stateOf frac W V C U)) := by
  obtain ⟨z, y, g, g', q, hz, hy, hg, hg', hq, hW, hC⟩ := hb
  have hN : (0 : ℚ) < 2 ^ frac := by positivity
  have hNr : (0 : ℝ) < 2 ^ frac := by positivity
  have absq : ∀ {x y : ℚ}, |((x : ℚ) : ℝ)| ≤ ((y : ℚ) : ℝ) → |x| ≤ y := fun {x y} h => by
    rw [← Rat.cast_abs] at h; exact cast_le_iff.1 h
  have hX : ∀ j, |real frac (D.1 j)| ≤ A := fun j => by
    have := absq (hD.1 (finProdFinEquiv.symm j).1 (finProdFinEquiv.symm j).2)
    rwa [Prod.mk.eta, Equiv.apply_symm_apply] at this
  have hY : ∀ i, 0 ≤ real frac (D.2 i) ∧ real frac (D.2 i) ≤ 1 := fun i => by
    have := hD.2 i
    have h0 : ((0 : ℚ) : ℝ) ≤ ((real frac (D.2 i) : ℚ) : ℝ) := by rw [Rat.cast_zero]; exact this.1
    have h1 : ((real frac (D.2 i) : ℚ) : ℝ) ≤ ((1 : ℚ) : ℝ) := by rw [Rat.cast_one]; exact this.2
    exact ⟨cast_le_iff.1 h0, cast_le_iff.1 h1⟩
  have hWB : ∀ t, |real frac (W t)| ≤ B := fun t => absq (hs.1 t)
  have hVB : ∀ t, |real frac (V t)| ≤ B := fun t => absq (hs.2.2.1 t)
  have hCB : |real frac (C 0)| ≤ B := absq hs.2.1
  have hUB : |real frac (U 0)| ≤ B := absq hs.2.2.2
  have hlog := fun i => h.logit_close hX hWB hCB hz i
  have hsig := hy fun i => (hlog i).2
  have hA := h.A1
  have hpA := h.pA
  have hsum := h.sums
  have hNN := h.NN
  have hpos : (0 : ℚ) < 2 ^ (2 ^ e - 2) := by positivity
  have hw2 := h.w2
  -- the error of the predictions
  have hdi : ∀ i, |real frac (y i) - real frac (D.2 i)| ≤ 1 := fun i => by
    have h1 := (hsig i).2 h.digits
    have h2 := hY i
    rw [abs_le]
    constructor <;> linarith [h1.1, h1.2, h2.1, h2.2]
  have hd : ∀ i, real frac ((y - D.2 : T (.arith (2 ^ e) p)) i) = real frac (y i) - real frac (D.2 i) := fun i => by
    refine sub_real (by omega) ?_
    rw [h.half]
    have h1 : |real frac (y i) - real frac (D.2 i)| * 2 ^ frac ≤ (2 * p * A + 4) * (2 ^ frac * 2 ^ frac) :=
      mul_le_mul ((hdi i).trans (by linarith)) hNN hN.le (by linarith)
    exact lt_of_le_of_lt h1 (by nlinarith)
  have hpe : ∀ i, |((real frac (y i) : ℚ) : ℝ) - prob (stateOf frac W V C U) ((batchOf frac D).x i)| ≤
      0.042 + 7 * (1 / 2 ^ frac) := fun i => by
    have h1 := (hsig i).1
    have h2 : |logistic ((real frac ((z + spreadBias p C : T (.arith (2 ^ e) p)) i) : ℚ)) -
        prob (stateOf frac W V C U) ((batchOf frac D).x i)| ≤ 1 / 2 ^ frac := by
      refine (logistic_lipschitz _ _).trans ?_
      have := cast_le_iff.2 (hlog i).1
      push_cast at this
      exact this
    have := abs_sub_le ((real frac (y i) : ℚ) : ℝ)
      (logistic ((real frac ((z + spreadBias p C : T (.arith (2 ^ e) p)) i) : ℚ)))
      (prob (stateOf frac W V C U) ((batchOf frac D).x i))
    linarith
  have hu0 : (0 : ℝ) ≤ 1 / 2 ^ frac := by positivity
  have hAr : (1 : ℝ) ≤ A := by exact_mod_cast hA
  have hpAr : (1 : ℝ) ≤ p * A := by exact_mod_cast hpA
  -- the gradients
  have hgt : ∀ t, |((real frac (g' t) : ℚ) : ℝ) - gradθ (batchOf frac D) (stateOf frac W V C U) t| ≤
      A * (0.042 + 7 * (1 / 2 ^ frac)) + (3 + p * A) / 2 ^ frac ∧ |real frac (g' t)| ≤ 2 * p * A + 3 := fun t => by
    have eQ : ((bwdTaps p k t).map fun st =>
        real frac (D.1 st.1) * real frac ((y - D.2 : T (.arith (2 ^ e) p)) st.2)).sum =
        ∑ i, real frac (D.1 (finProdFinEquiv (i, t))) * (real frac (y i) - real frac (D.2 i)) := by
      unfold bwdTaps
      rw [List.map_map, ← finRange_sum]
      congr 1
      refine List.map_congr_left fun i _ => ?_
      show _ * _ = _
      rw [hd i]
    have hQ : |∑ i, real frac (D.1 (finProdFinEquiv (i, t))) * (real frac (y i) - real frac (D.2 i))| ≤ p * A :=
      sum_le_card fun i => by
        rw [abs_mul]
        exact (mul_le_mul (hX _) (hdi i) (abs_nonneg _) (by linarith)).trans (by rw [mul_one])
    have hc := tap_close hw2 (hg t) (by
      rw [eQ]
      have : |∑ i, real frac (D.1 (finProdFinEquiv (i, t))) * (real frac (y i) - real frac (D.2 i))| *
          (2 ^ frac * 2 ^ frac) ≤ (2 * p * A + 4) * (2 ^ frac * 2 ^ frac) :=
        mul_le_mul_of_nonneg_right (by linarith) (by positivity)
      exact lt_of_le_of_lt this (by nlinarith))
    rw [eQ] at hc
    obtain ⟨m1, m2⟩ := h.mean_close hp.div (hg' t) hQ hc
    refine ⟨?_, m2⟩
    have m1' := cast_le_iff.2 m1
    push_cast at m1'
    have m3 : |(∑ i, ((real frac (D.1 (finProdFinEquiv (i, t))) : ℚ) : ℝ) *
        (((real frac (y i) : ℚ) : ℝ) - ((real frac (D.2 i) : ℚ) : ℝ))) / p -
        gradθ (batchOf frac D) (stateOf frac W V C U) t| ≤ A * (0.042 + 7 * (1 / 2 ^ frac)) := by
      refine mean_le h.size fun i => ?_
      show |_ * _ - ((real frac (D.1 (finProdFinEquiv (i, t))) : ℚ) : ℝ) *
        (_ - ((real frac (D.2 i) : ℚ) : ℝ))| ≤ _
      rw [← mul_sub, sub_sub_sub_cancel_right, abs_mul]
      exact mul_le_mul (hD.1 i t) (hpe i) (abs_nonneg _) (by linarith)
    have := abs_sub_le ((real frac (g' t) : ℚ) : ℝ) ((∑ i, ((real frac (D.1 (finProdFinEquiv (i, t))) : ℚ) : ℝ) *
        (((real frac (y i) : ℚ) : ℝ) - ((real frac (D.2 i) : ℚ) : ℝ))) / p)
        (gradθ (batchOf frac D) (stateOf frac W V C U) t)
    linarith
  have hqt : |((real frac (q 0) : ℚ) : ℝ) - gradβ (batchOf frac D) (stateOf frac W V C U)| ≤
      A * (0.042 + 7 * (1 / 2 ^ frac)) + (3 + p * A) / 2 ^ frac ∧ |real frac (q 0)| ≤ 2 * p * A + 3 := by
    have eQ : ((List.finRange p).map fun i => real frac ((y - D.2 : T (.arith (2 ^ e) p)) i)).sum =
        ∑ i, (real frac (y i) - real frac (D.2 i)) := by
      rw [← finRange_sum]
      congr 1
      exact List.map_congr_left fun i _ => hd i
    have hQ : |∑ i, (real frac (y i) - real frac (D.2 i))| ≤ p * A := by
      refine (sum_le_card hdi).trans ?_
      have : (0 : ℚ) ≤ p := by positivity
      nlinarith
    have hc := list_close (frac := frac) (fun i => ((y - D.2 : T (.arith (2 ^ e) p)) i : BitVec (2 ^ e)))
      (List.finRange p)
    rw [eQ] at hc
    obtain ⟨m1, m2⟩ := h.mean_close hp.div (hq 0) hQ (hc.mono (by positivity))
    refine ⟨?_, m2⟩
    have m1' := cast_le_iff.2 m1
    push_cast at m1'
    have m3 : |(∑ i, (((real frac (y i) : ℚ) : ℝ) - ((real frac (D.2 i) : ℚ) : ℝ))) / p -
        gradβ (batchOf frac D) (stateOf frac W V C U)| ≤ A * (0.042 + 7 * (1 / 2 ^ frac)) := by
      refine mean_le h.size fun i => ?_
      show |_ - (_ - ((real frac (D.2 i) : ℚ) : ℝ))| ≤ _
      rw [sub_sub_sub_cancel_right]
      exact (hpe i).trans (by nlinarith)
    rw [Finset.sum_sub_distrib] at m1' m3
    have := abs_sub_le ((real frac (q 0) : ℚ) : ℝ) ((∑ i, ((real frac (y i) : ℚ) : ℝ) -
        ∑ i, ((real frac (D.2 i) : ℚ) : ℝ)) / p) (gradβ (batchOf frac D) (stateOf frac W V C U))
    linarith
  -- the update
  have hl0 : (0 : ℝ) ≤ lr := by exact_mod_cast h.lr0
  have key : ∀ {v' v G w' w₀ : ℚ} {γ : ℝ}, |v' - (mom * v + lr * G)| ≤ (2 * p * A + B + 5) / 2 ^ frac ∧ w' = w₀ - v' →
      |((G : ℚ) : ℝ) - γ| ≤ A * (0.042 + 7 * (1 / 2 ^ frac)) + (3 + p * A) / 2 ^ frac →
      |((w' : ℚ) : ℝ) - (w₀ - (mom * v + lr * γ))| ≤ noise frac p lr A B ∧
        |((v' : ℚ) : ℝ) - (mom * v + lr * γ)| ≤ noise frac p lr A B := by
    rintro v' v G _ w₀ γ ⟨h1, rfl⟩ h2
    have h1' := cast_le_iff.2 h1
    push_cast at h1'
    have h3 : |((v' : ℚ) : ℝ) - (mom * v + lr * γ)| ≤ noise frac p lr A B := by
      have : ((v' : ℚ) : ℝ) - (mom * v + lr * γ) = (v' - (mom * v + lr * G)) + lr * (G - γ) := by ring
      rw [this]
      refine (abs_add_le _ _).trans ?_
      have h4 : |(lr : ℝ) * (G - γ)| ≤ lr * (A * (0.042 + 7 * (1 / 2 ^ frac)) + (3 + p * A) / 2 ^ frac) := by
        rw [abs_mul, abs_of_nonneg hl0]
        exact mul_le_mul_of_nonneg_left h2 hl0
      unfold noise
      linarith
    refine ⟨?_, h3⟩
    push_cast
    rw [show (w₀ : ℝ) - v' - (w₀ - (mom * v + lr * γ)) = -(v' - (mom * v + lr * γ)) by ring, abs_neg]
    exact h3
  have kW := fun t => key (h.sgd_close hp.mom hp.rate hW (hWB t) (hVB t) (hgt t).2) (hgt t).1
  have kC := key (h.sgd_close hp.mom hp.rate hC hCB hUB hqt.2) hqt.1
  exact ⟨fun t => (kW t).1, kC.1, fun t => (kW t).2, kC.2⟩

/-! ## Many steps -/

/-- The distance after `n` steps that start with the distance `r`. -/
noncomputable def drift (K ν r : ℝ) (n : ℕ) : ℝ := K ^ n * r + ν * ∑ i ∈ Finset.range n, K ^ i

theorem drift_succ (K ν r : ℝ) (n : ℕ) : drift K ν r (n + 1) = drift K ν (K * r + ν) n := by
  unfold drift
  rw [Finset.sum_range_succ]
  ring

theorem drift_ge {K ν r : ℝ} (hK : 1 ≤ K) (hν : 0 ≤ ν) (hr : 0 ≤ r) (n : ℕ) : r ≤ drift K ν r n := by
  unfold drift
  have h1 : 1 ≤ K ^ n := one_le_pow₀ hK
  have h2 : 0 ≤ ν * ∑ i ∈ Finset.range n, K ^ i :=
    mul_nonneg hν (Finset.sum_nonneg fun i _ => by positivity)
  nlinarith

theorem fit_within (h : Roomy e frac p k lr mom A B) {plan : TrainPlan (2 ^ e)} (hp : PlanOk frac p lr mom plan)
    {Ds : List (Batch (2 ^ e) p k)} (hD : ∀ D ∈ Ds, (batchOf frac D).Tame A) {W V W' V' : T (.arith (2 ^ e) k)}
    {C U C' U' : T (.arith (2 ^ e) 1)} (hf : FitVal frac plan Ds W V C U W' V' C' U') {r : ℝ} {s : RegState k}
    (hr : Within r (stateOf frac W V C U) s)
    (hs : ∀ j, Small (B - drift (stretch k lr mom A) (noise frac p lr A B) r Ds.length)
      (descentAll lr mom ((Ds.map (batchOf frac)).take j) s)) :
    Within (drift (stretch k lr mom A) (noise frac p lr A B) r Ds.length) (stateOf frac W' V' C' U')
      (descentAll lr mom (Ds.map (batchOf frac)) s) := by
  have hl0 : (0 : ℝ) ≤ lr := by exact_mod_cast h.lr0
  have hm0 : (0 : ℝ) ≤ mom := by exact_mod_cast h.mom0
  have hA1 : (1 : ℝ) ≤ A := by exact_mod_cast h.A1
  have hB0 : (0 : ℝ) ≤ B := by exact_mod_cast h.B0
  have hK : 1 ≤ stretch k lr mom A := by
    have : 0 ≤ (lr : ℝ) * (A * (k * A + 1)) := by positivity
    unfold stretch; linarith
  have hν : 0 ≤ noise frac p lr A B := by unfold noise; positivity
  induction Ds generalizing W V C U r s with
  | nil =>
    obtain ⟨rfl, rfl, rfl, rfl⟩ := hf
    simpa [drift, descentAll] using hr
  | cons D Ds ih =>
    obtain ⟨W₁, V₁, C₁, U₁, hb, hf⟩ := hf
    have hr0 : 0 ≤ r := (abs_nonneg _).trans hr.2.1
    have hsm : Small (B : ℝ) (stateOf frac W V C U) := by
      refine hr.small ((hs 0).mono ?_)
      linarith [drift_ge hK hν hr0 (D :: Ds).length]
    have h1 := h.batch hp (hD D (by simp)) hsm hb
    have h2 := descent_lipschitz h.size hl0 hm0 hA1 (hD D (by simp)) hr
    have h3 := h1.trans h2
    rw [add_comm] at h3
    have := ih (fun D' hD' => hD D' (by simp [hD'])) hf h3 (fun j => by
      have := hs (j + 1)
      rw [List.length_cons, drift_succ] at this
      exact this)
    rw [List.length_cons, drift_succ]
    exact this

/-! ## C90 -/

/-- **C90** (accuracy). A private training of a logistic regression follows gradient descent with momentum on
the mean cross entropy: as long as the exact descent keeps its weights inside the range of the words, the
weights, the bias and the momentum terms that the servers hold after `n` batches, for all random choices,
differ from the exact ones at most by `noise · (1 + K + … + K^(n-1))` with `K = stretch`. -/
theorem training_descends (he : 0 < e) (h : Roomy e frac p k lr mom A B) {Ds : List (Batch (2 ^ e) p k)}
    (hD : ∀ D ∈ Ds, (batchOf frac D).Tame A) (W : T (.arith (2 ^ e) k)) (C : T (.arith (2 ^ e) 1))
    (hs : ∀ j, Small (B - noise frac p lr A B * ∑ i ∈ Finset.range Ds.length, stretch k lr mom A ^ i)
      (descentAll lr mom ((Ds.map (batchOf frac)).take j) (stateOf frac W 0 C 0)))
    {P : M (Except Err (LogReg (2 ^ e) k))} (hP : train frac .five lr mom Ds W C = .ok P) :
    M.All (fun o => ∃ W' V' C' U' s, o = .ok s ∧ Holds W' s.kernel ∧ Holds V' s.vKernel ∧ Holds C' s.bias ∧
        Holds U' s.vBias ∧
        Within (noise frac p lr A B * ∑ i ∈ Finset.range Ds.length, stretch k lr mom A ^ i)
          (stateOf frac W' V' C' U') (descentAll lr mom (Ds.map (batchOf frac)) (stateOf frac W 0 C 0))) P := by
  cases hpl : trainPlan (2 ^ e) frac p lr mom with
  | error err =>
    unfold train at hP
    rw [hpl] at hP
    cases hP
  | ok plan =>
    obtain ⟨Q, Q', hQ, -, hsim⟩ := train_sim (σ := 0) he (by have := h.digits; omega) h.bits hpl
      (rfl : Ds.length = Ds.length) W W C C
    rw [hP] at hQ
    cases hQ
    refine hsim.left ?_
    rintro o _ ⟨W₁, _, V₁, _, C₁, _, U₁, _, s₁, _, rfl, -, hf, -, hr⟩
    refine ⟨W₁, V₁, C₁, U₁, s₁, rfl, hr.kernel.1, hr.vKernel.1, hr.bias.1, hr.vBias.1, ?_⟩
    have e0 : ∀ n, drift (stretch k lr mom A) (noise frac p lr A B) 0 n =
        noise frac p lr A B * ∑ i ∈ Finset.range n, stretch k lr mom A ^ i := fun n => by
      unfold drift; ring
    have := fit_within h (trainPlan_ok hpl) hD hf (r := 0) (s := stateOf frac W 0 C 0)
      ⟨by simp, by simp, by simp, by simp⟩ (by rw [e0]; exact hs)
    rwa [e0] at this

theorem prob_label {s : RegState k} {x : Fin k → ℝ} {y : ℝ} (hy : 0 ≤ y ∧ y ≤ 1) : |prob s x - y| ≤ 1 := by
  have h1 := logistic_pos (∑ t, x t * s.θ t + s.β)
  have h2 := logistic_lt_one (∑ t, x t * s.θ t + s.β)
  unfold prob
  rw [abs_le]
  constructor <;> linarith [hy.1, hy.2]

/-- How far gradient descent can go. -/
theorem descent_reach (hp : 0 < p) {lr mom A a c : ℝ} (hl : 0 ≤ lr) (hm : 0 ≤ mom) (hm1 : mom ≤ 1) (hA : 1 ≤ A)
    {ds : List (RegBatch p k)} (hd : ∀ d ∈ ds, d.Tame A) {s : RegState k} (hθ : ∀ t, |s.θ t| ≤ a) (hβ : |s.β| ≤ a)
    (hv : ∀ t, |s.v t| ≤ c) (hu : |s.u| ≤ c) (j : ℕ) :
    let s' := descentAll lr mom (ds.take j) s
    (∀ t, |s'.θ t| ≤ a + ds.length * c + ds.length ^ 2 * (lr * A)) ∧
      |s'.β| ≤ a + ds.length * c + ds.length ^ 2 * (lr * A) ∧ (∀ t, |s'.v t| ≤ c + ds.length * (lr * A)) ∧
      |s'.u| ≤ c + ds.length * (lr * A) := by
  have hlA : 0 ≤ lr * A := by positivity
  have hc : 0 ≤ c := (abs_nonneg _).trans hu
  induction ds generalizing s a c j with
  | nil => simpa [descentAll] using ⟨hθ, hβ, hv, hu⟩
  | cons d ds ih =>
    have hn : (0 : ℝ) ≤ ds.length := by positivity
    have e : (((d :: ds).length : ℕ) : ℝ) = ds.length + 1 := by push_cast [List.length_cons]; rfl
    cases j with
    | zero =>
      rw [e]
      have h1 : 0 ≤ (ds.length + 1 : ℝ) * c + (ds.length + 1 : ℝ) ^ 2 * (lr * A) := by positivity
      have h2 : 0 ≤ (ds.length + 1 : ℝ) * (lr * A) := by positivity
      simp only [List.take_zero, descentAll]
      exact ⟨fun t => (hθ t).trans (by linarith), hβ.trans (by linarith), fun t => (hv t).trans (by linarith),
        hu.trans (by linarith)⟩
    | succ j =>
      have hd0 := hd d (by simp)
      have hp' : (0 : ℝ) < p := by exact_mod_cast hp
      have gθ : ∀ t, |gradθ d s t| ≤ A := fun t => by
        have := mean_le hp (f := fun i => d.x i t * (prob s (d.x i) - d.y i)) (g := fun _ => 0) (c := A) fun i => by
          rw [sub_zero, abs_mul]
          exact (mul_le_mul (hd0.1 i t) (prob_label (hd0.2 i)) (abs_nonneg _) (by linarith)).trans (by rw [mul_one])
        rw [Finset.sum_const_zero, zero_div, sub_zero] at this
        exact this
      have gβ : |gradβ d s| ≤ A := by
        have := mean_le hp (f := fun i => prob s (d.x i) - d.y i) (g := fun _ => 0) (c := A) fun i => by
          rw [sub_zero]
          exact (prob_label (hd0.2 i)).trans hA
        rw [Finset.sum_const_zero, zero_div, sub_zero] at this
        exact this
      have key : ∀ {v g : ℝ}, |v| ≤ c → |g| ≤ A → |mom * v + lr * g| ≤ c + lr * A := fun {v g} h1 h2 => by
        refine (abs_add_le _ _).trans (add_le_add ?_ ?_)
        · rw [abs_mul, abs_of_nonneg hm]
          exact (mul_le_of_le_one_left (abs_nonneg _) hm1).trans h1
        · rw [abs_mul, abs_of_nonneg hl]
          exact mul_le_mul_of_nonneg_left h2 hl
      have key' : ∀ {b v g : ℝ}, |b| ≤ a → |v| ≤ c → |g| ≤ A → |b - (mom * v + lr * g)| ≤ a + (c + lr * A) :=
        fun h0 h1 h2 => (abs_sub _ _).trans (add_le_add h0 (key h1 h2))
      have := ih (fun d' hd' => hd d' (by simp [hd'])) (s := descent lr mom d s) (a := a + (c + lr * A))
        (c := c + lr * A) (fun t => key' (hθ t) (hv t) (gθ t)) (key' hβ hu gβ) (fun t => key (hv t) (gθ t))
        (key hu gβ) (j := j) (by linarith)
      rw [e]
      obtain ⟨t1, t2, t3, t4⟩ := this
      have b1 : a + (c + lr * A) + ds.length * (c + lr * A) + (ds.length : ℝ) ^ 2 * (lr * A) ≤
          a + (ds.length + 1) * c + (ds.length + 1 : ℝ) ^ 2 * (lr * A) := by
        have : 0 ≤ (ds.length : ℝ) * (lr * A) := by positivity
        nlinarith
      have b2 : c + lr * A + ds.length * (lr * A) ≤ c + (ds.length + 1) * (lr * A) := by linarith
      exact ⟨fun t => (t1 t).trans b1, t2.trans b1, fun t => (t3 t).trans b2, t4.trans b2⟩

/-- **C90** (accuracy, from the inputs alone). The same when only the samples, the labels and the weights at the
start are known to be small: `B` has to leave room for what the steps can add. -/
theorem training_close (he : 0 < e) (h : Roomy e frac p k lr mom A B) {Ds : List (Batch (2 ^ e) p k)}
    (hD : ∀ D ∈ Ds, (batchOf frac D).Tame A) {W : T (.arith (2 ^ e) k)} {C : T (.arith (2 ^ e) 1)} {a : ℝ}
    (hW : ∀ t, |((real frac (W t) : ℚ) : ℝ)| ≤ a) (hC : |((real frac (C 0) : ℚ) : ℝ)| ≤ a)
    (hB : a + Ds.length ^ 2 * (lr * A) +
      noise frac p lr A B * ∑ i ∈ Finset.range Ds.length, stretch k lr mom A ^ i ≤ B)
    {P : M (Except Err (LogReg (2 ^ e) k))} (hP : train frac .five lr mom Ds W C = .ok P) :
    M.All (fun o => ∃ W' V' C' U' s, o = .ok s ∧ Holds W' s.kernel ∧ Holds V' s.vKernel ∧ Holds C' s.bias ∧
        Holds U' s.vBias ∧
        Within (noise frac p lr A B * ∑ i ∈ Finset.range Ds.length, stretch k lr mom A ^ i)
          (stateOf frac W' V' C' U') (descentAll lr mom (Ds.map (batchOf frac)) (stateOf frac W 0 C 0))) P := by
  refine training_descends he h hD W C (fun j => ?_) hP
  have hl0 : (0 : ℝ) ≤ lr := by exact_mod_cast h.lr0
  have hA1 : (1 : ℝ) ≤ A := by exact_mod_cast h.A1
  have h0 : ((real frac (0 : BitVec (2 ^ e)) : ℚ) : ℝ) = 0 := by simp [real]
  have hm0 : (0 : ℝ) ≤ mom := by exact_mod_cast h.mom0
  have hm1 : (mom : ℝ) ≤ 1 := by exact_mod_cast h.mom1
  have hr := descent_reach h.size hl0 hm0 hm1 hA1
    (ds := Ds.map (batchOf frac)) (fun d hd => by
      obtain ⟨D, hD', rfl⟩ := List.mem_map.1 hd
      exact hD D hD') (s := stateOf frac W 0 C 0) hW hC (c := 0)
    (fun t => (congrArg abs h0).le.trans (by simp)) ((congrArg abs h0).le.trans (by simp)) j
  rw [List.length_map, mul_zero, add_zero, zero_add] at hr
  have ha : 0 ≤ a := (abs_nonneg _).trans hC
  have hlA : 0 ≤ (lr : ℝ) * A := by positivity
  have hsq : (Ds.length : ℝ) ≤ (Ds.length : ℝ) ^ 2 := by
    have : Ds.length ≤ Ds.length ^ 2 := Nat.le_self_pow (by norm_num) _
    exact_mod_cast this
  have b1 : a + (Ds.length : ℝ) ^ 2 * (lr * A) ≤
      B - noise frac p lr A B * ∑ i ∈ Finset.range Ds.length, stretch k lr mom A ^ i := by linarith
  have b2 : (Ds.length : ℝ) * (lr * A) ≤ a + (Ds.length : ℝ) ^ 2 * (lr * A) := by nlinarith
  exact ⟨fun t => (hr.1 t).trans b1, hr.2.1.trans b1, fun t => (hr.2.2.1 t).trans (b2.trans b1),
    hr.2.2.2.trans (b2.trans b1)⟩

/-- **C90** (secrecy). What a server sees of a training depends on nothing but the number of batches: neither on
the samples and labels, nor on the weights at the start. -/
theorem training_secrecy (σ : Fin 3) (he : 0 < e) (h1 : 1 ≤ frac) (hw : 2 * frac + 5 ≤ 2 ^ e)
    {Ds Ds' : List (Batch (2 ^ e) p k)} (hl : Ds.length = Ds'.length) (W W' : T (.arith (2 ^ e) k))
    (C C' : T (.arith (2 ^ e) 1)) :
    (∃ err, train frac .five lr mom Ds W C = .error err ∧ train frac .five lr mom Ds' W' C' = .error err) ∨
      ∃ P P', train frac .five lr mom Ds W C = .ok P ∧ train frac .five lr mom Ds' W' C' = .ok P' ∧
        M.view σ P = M.view σ P' := by
  cases hpl : trainPlan (2 ^ e) frac p lr mom with
  | error err =>
    left
    refine ⟨err, ?_, ?_⟩ <;> (unfold train; rw [hpl])
  | ok plan =>
    obtain ⟨P, P', hP, hP', hsim⟩ := train_sim (σ := σ) he h1 hw hpl hl W W' C C'
    exact .inr ⟨P, P', hP, hP', hsim.dist_eq⟩

/-- **C90** (which trainings start). Batches that are not empty, with a learning rate and a momentum that are
zero or at least the unit of the words, start to train. -/
theorem training_possible (h : Roomy e frac p k lr mom A B) (hl : lr = 0 ∨ 1 / 2 ^ frac ≤ lr)
    (hm : mom = 0 ∨ 1 / 2 ^ frac ≤ mom) (Ds : List (Batch (2 ^ e) p k)) (W : T (.arith (2 ^ e) k))
    (C : T (.arith (2 ^ e) 1)) : ∃ P, train frac .five lr mom Ds W C = .ok P := by
  have hb := h.bits
  have num : ∀ c : ℚ, (c = 0 ∨ 1 / 2 ^ frac ≤ c) → ∃ plan, numPlan (2 ^ e) frac c = .ok plan := by
    intro c hc
    unfold numPlan
    split
    · exact ⟨_, rfl⟩
    · exact ⟨_, rfl⟩
    · rename_i a hlog
      have hca : c = 1 / 2 ^ (a + 1) := by rw [log2?_eq hlog, zpow_negSucc, one_div]
      have : frac + (a + 1) + 2 ≤ 2 ^ e := by
        rcases hc with rfl | hc
        · have : (0 : ℚ) < 1 / 2 ^ (a + 1) := by positivity
          linarith
        · rw [hca, one_div_le_one_div (by positivity) (by positivity)] at hc
          have := (pow_le_pow_iff_right₀ (by norm_num : (1 : ℚ) < 2)).1 hc
          omega
      rw [heurPlan_ok this]
      exact ⟨_, rfl⟩
    · obtain ⟨plan, hmul⟩ := mulPlan_ok (w := 2 ^ e) (frac := frac) (sx := true) (sy := true) fun _ => by omega
      rw [hmul]
      exact ⟨_, rfl⟩
  obtain ⟨a, hmul⟩ := mulPlan_ok (w := 2 ^ e) (frac := frac) (sx := true) (sy := true) fun _ => by omega
  obtain ⟨b, hdiv⟩ := div_possible (w := 2 ^ e) (frac := frac) (by omega) (y := (p : ℚ))
    (by exact_mod_cast h.size.ne') fun a ha => by
      by_contra hlt
      have h1 := h.sums
      have h2 := h.A1
      rw [ha] at h1
      have h3 : (2 : ℚ) ^ (2 ^ e - 2) ≤ 2 ^ a * (2 ^ frac * 2 ^ frac) := by
        rw [← pow_add, ← pow_add]
        exact pow_le_pow_right₀ (by norm_num) (by omega)
      have h4 : (0 : ℚ) < 2 ^ a := by positivity
      have h5 : (2 : ℚ) ^ a ≤ (2 * 2 ^ a * A + 4) * 2 := by nlinarith
      have := mul_le_mul_of_nonneg_right h5 (show (0 : ℚ) ≤ 2 ^ frac * 2 ^ frac by positivity)
      linarith
  obtain ⟨c, hc⟩ := num mom hm
  obtain ⟨d, hd⟩ := num lr hl
  unfold train trainPlan
  rw [hmul, hdiv, hc, hd]
  exact ⟨_, rfl⟩

/-- Two samples with two features a batch, learning rate `1/100`, momentum `9/10`, with the default words of
ABY3: features up to 2 and weights up to 10 fit. -/
theorem roomy_default : Roomy 6 16 2 2 (1 / 100) (9 / 10) 2 10 where
  digits := by norm_num
  bits := by norm_num
  size := by norm_num
  A1 := by norm_num
  B0 := by norm_num
  lr0 := by norm_num
  mom0 := by norm_num
  mom1 := by norm_num
  logit := by norm_num
  step := by norm_num

/-- The hypotheses of `training_close` are met by a training over three batches with these numbers, whatever
the batches are, and the bound on the error is below 0.02. -/
example {Ds : List (Batch (2 ^ 6) 2 2)} (hn : Ds.length = 3) (hD : ∀ D ∈ Ds, (batchOf 16 D).Tame ((2 : ℚ) : ℝ))
    {W : T (.arith (2 ^ 6) 2)} {C : T (.arith (2 ^ 6) 1)} (hW : ∀ t, |((real 16 (W t) : ℚ) : ℝ)| ≤ 5)
    (hC : |((real 16 (C 0) : ℚ) : ℝ)| ≤ 5) :
    ∃ P, train 16 .five (1 / 100) (9 / 10) Ds W C = .ok P ∧
      M.All (fun o => ∃ W' V' C' U' s, o = .ok s ∧ Holds W' s.kernel ∧ Holds V' s.vKernel ∧ Holds C' s.bias ∧
        Holds U' s.vBias ∧ Within 0.02 (stateOf 16 W' V' C' U')
          (descentAll ((1 / 100 : ℚ) : ℝ) ((9 / 10 : ℚ) : ℝ) (Ds.map (batchOf 16)) (stateOf 16 W 0 C 0))) P := by
  have hnu : noise 16 2 ((1 / 100 : ℚ) : ℝ) ((2 : ℚ) : ℝ) ((10 : ℚ) : ℝ) *
      ∑ i ∈ Finset.range Ds.length, stretch 2 ((1 / 100 : ℚ) : ℝ) ((9 / 10 : ℚ) : ℝ) ((2 : ℚ) : ℝ) ^ i ≤ 0.02 := by
    rw [hn]
    unfold noise stretch
    simp only [Finset.sum_range_succ, Finset.sum_range_zero]
    push_cast
    norm_num
  obtain ⟨P, hP⟩ := training_possible roomy_default
    (.inr (by norm_num)) (.inr (by norm_num)) Ds W C
  refine ⟨P, hP, ?_⟩
  have := training_close (by norm_num) roomy_default hD hW hC (by
    rw [hn] at hnu ⊢
    push_cast at hnu ⊢
    linarith) hP
  refine M.All.mono this ?_
  rintro o ⟨W', V', C', U', s, h0, h1, h2, h3, h4, h5⟩
  exact ⟨W', V', C', U', s, h0, h1, h2, h3, h4, fun t => (h5.1 t).trans hnu, h5.2.1.trans hnu,
    fun t => (h5.2.2.1 t).trans hnu, h5.2.2.2.trans hnu⟩

end Verif.Aby3
