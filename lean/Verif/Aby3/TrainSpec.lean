import Verif.Aby3.SigmoidReal
import Mathlib.Algebra.BigOperators.Fin

/-!
# Gradient descent with momentum for logistic regression

The specification of C90, over the real numbers.
-/

namespace Verif.Aby3

/-- The weights and the momentum terms. -/
@[ext] structure RegState (k : ℕ) where
  /-- weights of the features -/
  θ : Fin k → ℝ
  /-- bias -/
  β : ℝ
  /-- momentum term of the weights -/
  v : Fin k → ℝ
  /-- momentum term of the bias -/
  u : ℝ

/-- A batch of `p` samples with their labels. -/
structure RegBatch (p k : ℕ) where
  /-- the features -/
  x : Fin p → Fin k → ℝ
  /-- the labels -/
  y : Fin p → ℝ

variable {p k : ℕ}

/-- The probability that the model gives to a sample. -/
noncomputable def prob (s : RegState k) (x : Fin k → ℝ) : ℝ := logistic (∑ t, x t * s.θ t + s.β)

/-- The gradient of the mean cross entropy with respect to the weights. -/
noncomputable def gradθ (d : RegBatch p k) (s : RegState k) (t : Fin k) : ℝ :=
  (∑ i, d.x i t * (prob s (d.x i) - d.y i)) / p

/-- The gradient with respect to the bias. -/
noncomputable def gradβ (d : RegBatch p k) (s : RegState k) : ℝ :=
  (∑ i, (prob s (d.x i) - d.y i)) / p

/-- One step of gradient descent with learning rate `lr` and momentum `mom`. -/
noncomputable def descent (lr mom : ℝ) (d : RegBatch p k) (s : RegState k) : RegState k where
  v := fun t => mom * s.v t + lr * gradθ d s t
  u := mom * s.u + lr * gradβ d s
  θ := fun t => s.θ t - (mom * s.v t + lr * gradθ d s t)
  β := s.β - (mom * s.u + lr * gradβ d s)

/-- Gradient descent over a list of batches. -/
noncomputable def descentAll (lr mom : ℝ) : List (RegBatch p k) → RegState k → RegState k
  | [], s => s
  | d :: ds, s => descentAll lr mom ds (descent lr mom d s)

/-- Two states differ by at most `r` in every entry. -/
def Within (r : ℝ) (s s' : RegState k) : Prop :=
  (∀ t, |s.θ t - s'.θ t| ≤ r) ∧ |s.β - s'.β| ≤ r ∧ (∀ t, |s.v t - s'.v t| ≤ r) ∧ |s.u - s'.u| ≤ r

/-- All entries of a state are at most `B`. -/
def Small (B : ℝ) (s : RegState k) : Prop :=
  (∀ t, |s.θ t| ≤ B) ∧ |s.β| ≤ B ∧ (∀ t, |s.v t| ≤ B) ∧ |s.u| ≤ B

/-- The features are at most `A`, the labels between 0 and 1. -/
def RegBatch.Tame (A : ℝ) (d : RegBatch p k) : Prop :=
  (∀ i t, |d.x i t| ≤ A) ∧ ∀ i, 0 ≤ d.y i ∧ d.y i ≤ 1

/-- The numbers of a training that fit into the words: features up to `A`, weights up to `B`. -/
structure Roomy (e frac p k : ℕ) (lr mom A B : ℚ) : Prop where
  digits : 14 ≤ frac
  bits : 2 * frac + 5 ≤ 2 ^ e
  size : 0 < p
  A1 : 1 ≤ A
  B0 : 0 ≤ B
  lr0 : 0 ≤ lr
  mom0 : 0 ≤ mom
  mom1 : mom ≤ 1
  logit : k * A * B + B + 1 ≤ 2 ^ (2 ^ e - 5 - 2 * frac)
  step : (2 * p * A + 4) * (lr + 2) * (2 ^ frac * 2 ^ frac) < 2 ^ (2 ^ e - 2)

end Verif.Aby3
