import Verif.Keras.Layers

/-!
# What a gradient is

A small specification of gradients, independent of the layers: a function of a tensor has gradient `g`
at `x` if along every differentiable curve through `x` it changes at the rate `⟨g, x'⟩`. This gives all
partial derivatives (`Gradient.partial`), and unlike them it composes.
-/

namespace Verif.Keras

variable {ι κ μ : Type} [Fintype ι] [Fintype κ] [Fintype μ]

/-- At time `t` the curve `γ` has the velocity `v`. -/
def Moves (γ : ℝ → ι → ℝ) (v : ι → ℝ) (t : ℝ) : Prop := ∀ i, HasDerivAt (fun s => γ s i) (v i) t

/-- `g` is the gradient of `f` at `x`. -/
def Gradient (f : (ι → ℝ) → ℝ) (g x : ι → ℝ) : Prop :=
  ∀ (γ : ℝ → ι → ℝ) (v : ι → ℝ) (t : ℝ), γ t = x → Moves γ v t → HasDerivAt (fun s => f (γ s)) (∑ i, g i * v i) t

/-- A gradient consists of the partial derivatives. -/
theorem Gradient.partial [DecidableEq ι] {f : (ι → ℝ) → ℝ} {g x : ι → ℝ} (h : Gradient f g x) (i : ι) :
    HasDerivAt (fun s => f (Function.update x i s)) (g i) (x i) := by
  have hm : Moves (fun s => Function.update x i s) (Pi.single i 1) (x i) := by
    intro j
    by_cases hj : j = i
    · subst hj
      simp only [Function.update_self, Pi.single_eq_same]
      exact hasDerivAt_id _
    · simp only [Function.update_of_ne hj, Pi.single_eq_of_ne hj]
      exact hasDerivAt_const _ _
  have := h _ _ _ (Function.update_eq_self i x) hm
  have e : (∑ j, g j * (Pi.single i 1 : ι → ℝ) j) = g i := by
    rw [Finset.sum_eq_single i]
    · rw [Pi.single_eq_same, mul_one]
    · intro j _ hj
      rw [Pi.single_eq_of_ne hj, mul_zero]
    · intro h; exact absurd (Finset.mem_univ i) h
  rwa [e] at this

/-- The gradient is unique. -/
theorem Gradient.unique {f : (ι → ℝ) → ℝ} {g g' x : ι → ℝ} (h : Gradient f g x) (h' : Gradient f g' x) : g = g' := by
  classical
  funext i
  exact (h.partial i).unique (h'.partial i)

/-- A layer's `backward` is exact at weights `w` and input `x`: along all curves of weights and inputs
the output moves, and the gradient handed in, times the output's velocity, is the sum of the gradients
handed out times the velocities of the weights and of the input. -/
def Layer.Exact (l : Layer ι κ) (w : l.W → ℝ) (x : ι → ℝ) : Prop :=
  ∀ (d : κ → ℝ) (gw : l.W → ℝ) (gx : ι → ℝ), l.backward false w x d = .ok (gw, gx) →
    ∀ (γ : ℝ → l.W → ℝ) (v : l.W → ℝ) (χ : ℝ → ι → ℝ) (u : ι → ℝ) (t : ℝ),
      γ t = w → Moves γ v t → χ t = x → Moves χ u t →
      ∃ y, Moves (fun s => l.call (γ s) (χ s)) y t ∧
        ∑ j, d j * y j = ∑ i, gw i * v i + ∑ i, gx i * u i

end Verif.Keras
