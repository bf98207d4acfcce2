import Verif.Core.Rand
import Mathlib.Topology.Instances.ENNReal.Lemmas

/-!
# Expected values of randomised computations

`ex m g` is the expected value of `g` at the result of `m`; with an indicator function it is a
probability. Used to compare distributions that are close but not equal.
-/

namespace Verif.RandM

open scoped ENNReal

variable {S : Type} {T : S → Type} {α β : Type} [∀ s, Fintype (T s)] [∀ s, Nonempty (T s)]

/-- The expected value of `g` at the result of `m`. -/
noncomputable def ex (m : RandM T α) (g : α → ℝ≥0∞) : ℝ≥0∞ := ∑' a, m.dist a * g a

theorem dist_bind_ex (m : RandM T α) (f : α → RandM T β) :
    (m.bind f).dist = m.dist.bind fun a => (f a).dist := by
  induction m with
  | pure a => simp [dist, PMF.pure_bind]
  | sample s k ih => simp [dist, PMF.bind_bind, ih]
  | coin k ih => simp only [bind_coin, dist, PMF.bind_bind, ih]

theorem tsum_pmf_bind (μ : PMF α) (f : α → PMF β) (g : β → ℝ≥0∞) :
    ∑' b, (μ.bind f) b * g b = ∑' a, μ a * ∑' b, f a b * g b := by
  simp only [PMF.bind_apply, ← ENNReal.tsum_mul_right, ← ENNReal.tsum_mul_left]
  rw [ENNReal.tsum_comm]
  simp only [mul_assoc]

theorem ex_bind (m : RandM T α) (f : α → RandM T β) (g : β → ℝ≥0∞) :
    ex (m.bind f) g = ex m fun a => ex (f a) g := by
  unfold ex
  rw [dist_bind_ex, tsum_pmf_bind]

theorem tsum_pmf_pure (a : α) (g : α → ℝ≥0∞) : ∑' b, (PMF.pure a) b * g b = g a := by
  classical
  rw [tsum_eq_single a]
  · simp
  · intro b hb
    simp [PMF.pure_apply, hb]

@[simp] theorem ex_pure (a : α) (g : α → ℝ≥0∞) : ex (.pure a : RandM T α) g = g a :=
  tsum_pmf_pure a g

theorem ex_coin (k : Bool → RandM T α) (g : α → ℝ≥0∞) :
    ex (.coin k) g = (ex (k false) g + ex (k true) g) / 2 := by
  unfold ex
  simp only [dist]
  rw [tsum_pmf_bind]
  rw [tsum_bool]
  simp only [PMF.uniformOfFintype_apply, Fintype.card_bool, Nat.cast_ofNat]
  rw [← mul_add, ENNReal.div_eq_inv_mul]

theorem ex_le_one (m : RandM T α) {g : α → ℝ≥0∞} (hg : ∀ a, g a ≤ 1) : ex m g ≤ 1 := by
  unfold ex
  calc _ ≤ ∑' a, m.dist a := ENNReal.tsum_le_tsum fun a => by
        simpa using mul_le_mul_right (hg a) (m.dist a)
    _ = 1 := PMF.tsum_coe _

theorem ex_mono (m : RandM T α) {g h : α → ℝ≥0∞} (hg : ∀ a, g a ≤ h a) : ex m g ≤ ex m h :=
  ENNReal.tsum_le_tsum fun a => mul_le_mul_right (hg a) (m.dist a)

theorem ex_add_const (m : RandM T α) (g : α → ℝ≥0∞) (ε : ℝ≥0∞) : ex m (fun a => g a + ε) = ex m g + ε := by
  unfold ex
  simp only [mul_add, ENNReal.tsum_add, ENNReal.tsum_mul_right, PMF.tsum_coe, one_mul]

/-- A probability is the expected value of an indicator. -/
theorem prob_eq_ex (m : RandM T α) (u : α → β) (A : Set β) :
    (m.dist.map u).toOuterMeasure A = ex m fun a => A.indicator 1 (u a) := by
  rw [PMF.toOuterMeasure_map_apply, PMF.toOuterMeasure_apply]
  unfold ex
  refine tsum_congr fun a => ?_
  by_cases h : u a ∈ A
  · simp [h]
  · simp [h]

end Verif.RandM
