import Mathlib.Data.Real.Basic
import Mathlib.Tactic.Linarith
import Mathlib.Tactic.Ring
import Mathlib.Tactic.Positivity
import Mathlib.Tactic.FieldSimp
import Mathlib.Tactic.NormNum

/-!
# Bounds of polynomials on intervals

A polynomial with rational coefficients is expanded around the middle of an interval; the sum of the
absolute values of the terms bounds it. If the bound is not good enough the interval is cut in half.
-/

namespace Verif.Aby3.PolyBound

/-- The value of the polynomial with the given coefficients, lowest first. -/
def eval {α : Type} [Semiring α] : List α → α → α
  | [], _ => 0
  | a :: p, x => a + x * eval p x

/-- Add a constant. -/
def addConst (a : ℚ) : List ℚ → List ℚ
  | [] => [a]
  | b :: p => (a + b) :: p

/-- Multiply by `x + m` and add `a`. -/
def step (m a : ℚ) (p : List ℚ) : List ℚ :=
  addConst a (go 0 p)
where
  /-- `carry` is the coefficient below. -/
  go (carry : ℚ) : List ℚ → List ℚ
    | [] => [carry]
    | b :: p => (carry + m * b) :: go b p

/-- The coefficients around `m`. -/
def shift (m : ℚ) : List ℚ → List ℚ
  | [] => []
  | a :: p => step m a (shift m p)

/-- The sum of the absolute values of the terms at `r`. -/
def size (r : ℚ) : List ℚ → ℚ
  | [] => 0
  | a :: p => |a| + r * size r p

/-- Is the polynomial at most `M` in absolute value on `[a, b]`? -/
def check (p : List ℚ) (M : ℚ) : ℕ → ℚ → ℚ → Bool
  | 0, a, b => decide (size ((b - a) / 2) (shift ((a + b) / 2) p) ≤ M)
  | k + 1, a, b => decide (size ((b - a) / 2) (shift ((a + b) / 2) p) ≤ M) ||
      (check p M k a ((a + b) / 2) && check p M k ((a + b) / 2) b)

/-- The real polynomial. -/
def evalR (p : List ℚ) (x : ℝ) : ℝ := eval (p.map fun q => (q : ℝ)) x

theorem evalR_nil (x : ℝ) : evalR [] x = 0 := rfl

theorem evalR_cons (a : ℚ) (p : List ℚ) (x : ℝ) : evalR (a :: p) x = a + x * evalR p x := rfl

theorem addConst_eval (a : ℚ) (p : List ℚ) (x : ℝ) : evalR (addConst a p) x = a + evalR p x := by
  cases p with
  | nil => simp [addConst, evalR_cons, evalR_nil]
  | cons b p => simp only [addConst, evalR_cons]; push_cast; ring

theorem go_eval (m : ℚ) (p : List ℚ) (x : ℝ) : ∀ carry : ℚ, evalR (step.go m carry p) x = carry + (x + m) * evalR p x := by
  induction p with
  | nil => intro carry; simp [step.go, evalR_cons, evalR_nil]
  | cons b p ih => intro carry; simp only [step.go, evalR_cons, ih]; push_cast; ring

theorem shift_eval (m : ℚ) (p : List ℚ) (x : ℝ) : evalR (shift m p) x = evalR p (m + x) := by
  induction p with
  | nil => rfl
  | cons a p ih => simp only [shift, step, addConst_eval, go_eval, ih, evalR_cons]; push_cast; ring

theorem size_nonneg {r : ℚ} (hr : 0 ≤ r) (p : List ℚ) : 0 ≤ size r p := by
  induction p with
  | nil => exact le_refl _
  | cons a p ih => exact add_nonneg (abs_nonneg _) (mul_nonneg hr ih)

theorem size_bound {r : ℚ} (p : List ℚ) {x : ℝ} (hx : |x| ≤ r) : |evalR p x| ≤ size r p := by
  have hr : (0 : ℝ) ≤ r := (abs_nonneg x).trans hx
  induction p with
  | nil => simp [evalR_nil, size]
  | cons a p ih =>
    rw [evalR_cons]
    refine (abs_add_le _ _).trans ?_
    rw [abs_mul]
    unfold size
    push_cast
    have := mul_le_mul hx ih (abs_nonneg _) hr
    linarith

/-- **The check is sound.** -/
theorem check_sound (p : List ℚ) (M : ℚ) (k : ℕ) : ∀ a b : ℚ, check p M k a b = true →
    ∀ x : ℝ, a ≤ x → x ≤ b → |evalR p x| ≤ M := by
  have base : ∀ a b : ℚ, size ((b - a) / 2) (shift ((a + b) / 2) p) ≤ M → ∀ x : ℝ, a ≤ x → x ≤ b → |evalR p x| ≤ M := by
    intro a b h x h1 h2
    have e := shift_eval ((a + b) / 2) p (x - ((a + b) / 2 : ℚ))
    rw [add_sub_cancel] at e
    rw [← e]
    refine (size_bound (r := (b - a) / 2) _ ?_).trans (by exact_mod_cast h)
    push_cast
    rw [abs_le]
    constructor <;> linarith
  induction k with
  | zero =>
    intro a b h
    exact base a b (of_decide_eq_true h)
  | succ k ih =>
    intro a b h x h1 h2
    unfold check at h
    rcases Bool.or_eq_true _ _ ▸ h with h | h
    · exact base a b (of_decide_eq_true h) x h1 h2
    · obtain ⟨ha, hb⟩ := Bool.and_eq_true _ _ ▸ h
      rcases le_total x (((a + b) / 2 : ℚ) : ℝ) with hm | hm
      · exact ih _ _ ha x h1 hm
      · exact ih _ _ hb x hm h2

example : check [0, -3, 0, 4] 1.01 10 (-1) 1 = true := by decide +kernel

end Verif.Aby3.PolyBound
