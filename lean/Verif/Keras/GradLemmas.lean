import Verif.Keras.GradSpec
import Mathlib.Tactic.LinearCombination

/-!
# Lemmas about gradients of layers, stacks and losses
-/

namespace Verif.Keras

open Verif.Aby3 (logistic logistic_pos logistic_lt_one)

variable {ι κ μ : Type}

/-! ## Stacks -/

/-- Every layer of the stack is exact at the input that it gets. -/
def Seq.Exact : {ι μ : Type} → Fintype ι → (m : Seq ι μ) → (m.W → ℝ) → (ι → ℝ) → Prop
  | _, _, _, .nil, _, _ => True
  | _, _, hι, .cons hκ l rest, w, x =>
    @Layer.Exact _ _ hι hκ l (fun i => w (.inl i)) x ∧
      rest.Exact hκ (fun i => w (.inr i)) (l.call (fun i => w (.inl i)) x)

/-- The optimizer is applied to every weight with its gradient. -/
theorem Seq.backward_apply (apply : ℝ → ℝ → ℝ) (lazy : Bool) {ι μ : Type} (m : Seq ι μ) (w : m.W → ℝ) (x : ι → ℝ)
    (d : μ → ℝ) : m.backward apply lazy w x d =
      (m.backward (fun _ g => g) lazy w x d).map fun r => (fun i => apply (w i) (r.1 i), r.2) := by
  induction m with
  | nil =>
    simp only [Seq.backward]
    have : w = fun i => apply (w i) (w i) := by funext i; exact i.elim
    exact congrArg (fun v => Except.ok (v, d)) this
  | cons hκ l rest ih =>
    simp only [Seq.backward]
    rw [ih]
    cases h : rest.backward (fun _ g => g) lazy (fun i => w (.inr i)) (l.call (fun i => w (.inl i)) x) d with
    | error e => rfl
    | ok r =>
      simp only [Except.map]
      cases h2 : l.backward lazy (fun i => w (.inl i)) x r.2 with
      | error e => rfl
      | ok g =>
        simp only
        congr 2
        funext i
        cases i <;> rfl

theorem Seq.exact {ι μ : Type} (hι : Fintype ι) (hμ : Fintype μ) (m : Seq ι μ) (w : m.W → ℝ) (x : ι → ℝ)
    (h : m.Exact hι w x) (d : μ → ℝ) (gw : m.W → ℝ) (gx : ι → ℝ)
    (hb : m.backward (fun _ g => g) false w x d = .ok (gw, gx))
    (γ : ℝ → m.W → ℝ) (v : m.W → ℝ) (χ : ℝ → ι → ℝ) (u : ι → ℝ) (t : ℝ)
    (h1 : γ t = w) (h2 : Moves γ v t) (h3 : χ t = x) (h4 : Moves χ u t) :
    ∃ y, Moves (fun s => m.call (γ s) (χ s)) y t ∧ ∑ j, d j * y j = ∑ i, gw i * v i + ∑ i, gx i * u i := by
  induction m with
  | nil =>
    simp only [Seq.backward, Except.ok.injEq, Prod.mk.injEq] at hb
    obtain ⟨-, rfl⟩ := hb
    refine ⟨u, h4, ?_⟩
    have e : (∑ i : (Seq.nil (ι := _)).W, gw i * v i) = 0 := Finset.sum_eq_zero fun i _ => i.elim
    rw [e, zero_add]
    exact Finset.sum_congr (by congr; exact Subsingleton.elim _ _) fun _ _ => rfl
  | cons hκ l rest ih =>
    simp only [Seq.backward] at hb
    cases hr : rest.backward (fun _ g => g) false (fun i => w (.inr i)) (l.call (fun i => w (.inl i)) x) d with
    | error e => rw [hr] at hb; cases hb
    | ok r =>
      obtain ⟨gr, dm⟩ := r
      rw [hr] at hb
      simp only at hb
      cases hl : l.backward false (fun i => w (.inl i)) x dm with
      | error e => rw [hl] at hb; cases hb
      | ok g =>
        obtain ⟨gl, dx⟩ := g
        rw [hl] at hb
        have hb := Prod.mk.inj (Except.ok.inj hb)
        obtain ⟨hg, hx⟩ := hb
        have hg : gw = (Sum.elim gl gr : l.W ⊕ rest.W → ℝ) := hg.symm
        subst hx hg
        obtain ⟨z, k1, k2⟩ := h.1 dm gl dx hl (fun s i => γ s (.inl i)) (fun i => v (.inl i)) χ u t
          (by rw [h1]) (fun i => h2 (.inl i)) h3 h4
        obtain ⟨y, k3, k4⟩ := ih hκ hμ (fun i => w (.inr i)) (l.call (fun i => w (.inl i)) x) h.2 d gr dm hr
          (fun s i => γ s (.inr i)) (fun i => v (.inr i)) (fun s => l.call (fun i => γ s (.inl i)) (χ s)) z
          (by rw [h1]) (fun i => h2 (.inr i)) (by rw [h1, h3]) k1
        refine ⟨y, k3, ?_⟩
        rw [k4, k2]
        have e : (∑ i : (Seq.cons hκ l rest).W, (Sum.elim gl gr : l.W ⊕ rest.W → ℝ) i * v i) =
            ∑ i, gl i * v (.inl i) + ∑ i, gr i * v (.inr i) := Fintype.sum_sum_type _
        rw [e]
        ring

/-! ## Single layers -/

theorem logistic_hasDerivAt (x : ℝ) : HasDerivAt logistic (logistic x * (1 - logistic x)) x := by
  have hp : (1 + Real.exp (-x)) ≠ 0 := by have := Real.exp_pos (-x); positivity
  have h1 : HasDerivAt (fun x : ℝ => 1 + Real.exp (-x)) (-Real.exp (-x)) x := by
    have := ((hasDerivAt_neg x).exp).const_add 1
    simpa using this
  have h := h1.inv hp
  have e : logistic = fun x => (1 + Real.exp (-x))⁻¹ := by funext y; simp [logistic]
  rw [e]
  refine h.congr_deriv ?_
  field_simp
  ring

section
variable {n : ℕ} {δ κ : Type} [Fintype δ] [Fintype κ]

theorem affine_exact (bias : Bool) (w : δ × κ ⊕ {_j : κ // bias = true} → ℝ) (x : Fin n × δ → ℝ) (d : Fin n × κ → ℝ)
    (γ : ℝ → δ × κ ⊕ {_j : κ // bias = true} → ℝ) (v : δ × κ ⊕ {_j : κ // bias = true} → ℝ)
    (χ : ℝ → Fin n × δ → ℝ) (u : Fin n × δ → ℝ) (t : ℝ)
    (h1 : γ t = w) (h2 : Moves γ v t) (h3 : χ t = x) (h4 : Moves χ u t) :
    ∃ y, Moves (fun s => affine bias (γ s) (χ s)) y t ∧
      ∑ j, d j * y j = ∑ i, (affineBack bias false w x d).1 i * v i + ∑ i, (affineBack bias false w x d).2 i * u i := by
  refine ⟨fun i => (∑ j, (u (i.1, j) * w (.inl (j, i.2)) + x (i.1, j) * v (.inl (j, i.2)))) +
    if h : bias = true then v (.inr ⟨i.2, h⟩) else 0, ?_, ?_⟩
  · intro i
    simp only [affine]
    refine HasDerivAt.add ?_ ?_
    · refine HasDerivAt.fun_sum fun j _ => ?_
      have := (h4 (i.1, j)).mul (h2 (.inl (j, i.2)))
      rw [h1, h3] at this
      exact this
    · split_ifs with h
      · exact h2 _
      · exact hasDerivAt_const _ _
  · simp only [affineBack, Fintype.sum_sum_type, Bool.false_eq_true, if_false, div_one]
    have e3 : (∑ j, d j * (if h : bias = true then v (.inr ⟨j.2, h⟩) else 0)) =
        ∑ k : {_j : κ // bias = true}, (∑ b, d (b, k.1)) * v (.inr k) := by
      by_cases hb : bias = true
      · subst hb
        rw [← Equiv.sum_comp (Equiv.subtypeUnivEquiv fun _ => rfl).symm]
        simp only [dif_pos, Equiv.subtypeUnivEquiv_symm_apply, Finset.sum_mul]
        rw [Fintype.sum_prod_type, Finset.sum_comm]
      · have : IsEmpty {_j : κ // bias = true} := ⟨fun k => hb k.2⟩
        rw [Finset.univ_eq_empty (α := {_j : κ // bias = true}), Finset.sum_empty]
        exact Finset.sum_eq_zero fun j _ => by rw [dif_neg hb, mul_zero]
    have e1 : (∑ j : Fin n × κ, d j * ∑ l, x (j.1, l) * v (.inl (l, j.2))) =
        ∑ p : δ × κ, (∑ b, x (b, p.1) * d (b, p.2)) * v (.inl p) := by
      simp only [Fintype.sum_prod_type, Finset.mul_sum, Finset.sum_mul]
      rw [Finset.sum_comm]
      rw [Finset.sum_comm (s := (Finset.univ : Finset δ))]
      refine Finset.sum_congr rfl fun k _ => ?_
      rw [Finset.sum_comm]
      refine Finset.sum_congr rfl fun l _ => Finset.sum_congr rfl fun b _ => ?_
      ring
    have e2 : (∑ j : Fin n × κ, d j * ∑ l, u (j.1, l) * w (.inl (l, j.2))) =
        ∑ p : Fin n × δ, (∑ k, d (p.1, k) * w (.inl (p.2, k))) * u p := by
      simp only [Fintype.sum_prod_type, Finset.mul_sum, Finset.sum_mul]
      refine Finset.sum_congr rfl fun b _ => ?_
      rw [Finset.sum_comm]
      refine Finset.sum_congr rfl fun l _ => Finset.sum_congr rfl fun k _ => ?_
      ring
    simp only [mul_add, Finset.sum_add_distrib]
    rw [e1, e2, e3]
    ring

end

/-- Where an activation has a derivative: the rectifier has none at zero. -/
def Act.Smooth {κ : Type} (a : Act) (x : κ → ℝ) : Prop :=
  match a with
  | .relu => ∀ i, x i ≠ 0
  | _ => True

theorem relu_moves {γ : ℝ → ℝ} {v t : ℝ} (h : HasDerivAt γ v t) (h0 : γ t ≠ 0) :
    HasDerivAt (fun s => max (γ s) 0) (if γ t ≤ 0 then 0 else v) t := by
  rcases lt_or_gt_of_ne h0 with hn | hp
  · rw [if_pos hn.le]
    refine (hasDerivAt_const t (0 : ℝ)).congr_of_eventuallyEq ?_
    filter_upwards [h.continuousAt.eventually_lt_const hn] with s hs
    exact max_eq_right hs.le
  · rw [if_neg (not_le.2 hp)]
    refine h.congr_of_eventuallyEq ?_
    filter_upwards [h.continuousAt.eventually_const_lt hp] with s hs
    exact max_eq_left hs.le

theorem act_exact {n : ℕ} {κ : Type} [Fintype κ] (a : Act) {x d d' : Fin n × κ → ℝ} (hs : a.Smooth x)
    (hd : a.deriv (a.apply x) d = .ok d') {χ : ℝ → Fin n × κ → ℝ} {u : Fin n × κ → ℝ} {t : ℝ} (h3 : χ t = x)
    (h4 : Moves χ u t) :
    ∃ y, Moves (fun s => a.apply (χ s)) y t ∧ ∑ j, d j * y j = ∑ j, d' j * u j := by
  cases a with
  | none => cases hd
  | fn f => cases hd
  | tanh => cases hd
  | softmax => cases hd
  | linear =>
    simp only [Act.deriv, Except.ok.injEq] at hd
    subst hd
    exact ⟨u, h4, rfl⟩
  | relu =>
    simp only [Act.deriv, Act.apply, Except.ok.injEq] at hd
    subst hd
    refine ⟨fun i => if x i ≤ 0 then 0 else u i, fun i => ?_, ?_⟩
    · have := relu_moves (h4 i) (by rw [h3]; exact hs i)
      rw [h3] at this
      exact this
    · refine Finset.sum_congr rfl fun i _ => ?_
      show d i * (if x i ≤ 0 then 0 else u i) = (if max (x i) 0 ≤ 0 then 0 else d i) * u i
      by_cases hi : x i ≤ 0
      · rw [if_pos hi, if_pos (max_le hi le_rfl), mul_zero, zero_mul]
      · rw [if_neg hi, if_neg (by rw [max_eq_left (not_le.1 hi).le]; exact hi)]
  | sigmoid =>
    simp only [Act.deriv, Act.apply, Except.ok.injEq] at hd
    subst hd
    refine ⟨fun i => logistic (x i) * (1 - logistic (x i)) * u i, fun i => ?_, ?_⟩
    · have := (logistic_hasDerivAt (χ t i)).comp t (h4 i)
      rw [h3] at this
      exact this
    · refine Finset.sum_congr rfl fun i _ => ?_
      ring

end Verif.Keras
