import Verif.Aby3.NetworkHead
import Verif.Aby3.NetworkProps
import Verif.Aby3.TrainLemmas
import Verif.Aby3.SoftmaxProps
import Verif.Keras.GradLemmas
import Mathlib.Analysis.Calculus.MeanValue

/-!
# C88: predictions with a sigmoid or a softmax at the end

The error of the scores (`Arch.err`) is carried through the functions: the sigmoid shrinks it to a quarter, the softmax of
scores with errors of at most `E` is off by at most `exp (2 * E) - 1`. The errors of the private functions are added.
-/

namespace Verif.Aby3

open Verif

variable {p k l m n : ℕ} {σ : Fin 3}

attribute [local irreducible] M.All M.Sim

/-! ## The functions -/

theorem logistic_quarter (x y : ℝ) : |logistic x - logistic y| ≤ 1 / 4 * |x - y| := by
  have := Convex.norm_image_sub_le_of_norm_hasDerivWithin_le (f := logistic) (f' := fun x => logistic x * (1 - logistic x))
    (C := 1 / 4) (s := Set.univ) (x := y) (y := x) (fun x _ => (Keras.logistic_hasDerivAt x).hasDerivWithinAt) (fun x _ => ?_)
    convex_univ (Set.mem_univ _) (Set.mem_univ _)
  · simpa [Real.norm_eq_abs] using this
  · have h0 := (logistic_pos x).le
    have h1 := (logistic_lt_one x).le
    rw [Real.norm_eq_abs, abs_of_nonneg (mul_nonneg h0 (by linarith))]
    nlinarith [sq_nonneg (logistic x - 1 / 2)]

theorem sum_exp_pos (q : Fin n → ℝ) (i : Fin n) : 0 < ∑ j, Real.exp (q j) :=
  Finset.sum_pos (fun _ _ => Real.exp_pos _) ⟨i, Finset.mem_univ i⟩

theorem softmaxOf_nonneg (q : Fin n → ℝ) (i : Fin n) : 0 ≤ softmaxOf q i :=
  div_nonneg (Real.exp_pos _).le (sum_exp_pos q i).le

theorem softmaxOf_le_one (q : Fin n → ℝ) (i : Fin n) : softmaxOf q i ≤ 1 := by
  unfold softmaxOf
  rw [div_le_one (sum_exp_pos q i)]
  exact Finset.single_le_sum (f := fun j => Real.exp (q j)) (fun _ _ => (Real.exp_pos _).le) (Finset.mem_univ i)

theorem softmaxOf_stable {q q' : Fin n → ℝ} {E : ℝ} (h : ∀ j, |q j - q' j| ≤ E) (i : Fin n) :
    |softmaxOf q i - softmaxOf q' i| ≤ Real.exp (2 * E) - 1 := by
  have hE : 0 ≤ E := (abs_nonneg _).trans (h i)
  have h1 : (1 : ℝ) ≤ Real.exp (2 * E) := Real.one_le_exp (by linarith)
  have main : ∀ q q' : Fin n → ℝ, (∀ j, |q j - q' j| ≤ E) → softmaxOf q i - softmaxOf q' i ≤ Real.exp (2 * E) - 1 := by
    intro q q' h
    have e1 : Real.exp (q i) ≤ Real.exp E * Real.exp (q' i) := by
      rw [← Real.exp_add]; exact Real.exp_le_exp.2 (by linarith [(abs_le.1 (h i)).2])
    have e2 : ∑ j, Real.exp (q' j) ≤ Real.exp E * ∑ j, Real.exp (q j) := by
      rw [Finset.mul_sum]
      refine Finset.sum_le_sum fun j _ => ?_
      rw [← Real.exp_add]; exact Real.exp_le_exp.2 (by linarith [(abs_le.1 (h j)).1])
    have e3 : softmaxOf q i ≤ Real.exp (2 * E) * softmaxOf q' i := by
      unfold softmaxOf
      rw [mul_div_assoc', div_le_div_iff₀ (sum_exp_pos q i) (sum_exp_pos q' i),
        show (2 : ℝ) * E = E + E by ring, Real.exp_add]
      calc Real.exp (q i) * ∑ j, Real.exp (q' j) ≤ (Real.exp E * Real.exp (q' i)) * (Real.exp E * ∑ j, Real.exp (q j)) :=
            mul_le_mul e1 e2 (sum_exp_pos q' i).le (by positivity)
        _ = _ := by ring
    have e4 := mul_le_mul_of_nonneg_left (softmaxOf_le_one q' i) (sub_nonneg.2 h1)
    nlinarith
  refine abs_le.2 ⟨?_, main q q' h⟩
  have := main q' q fun j => by rw [abs_sub_comm]; exact h j
  linarith

/-! ## Both runs of a prediction -/

theorem predict_sim {e frac : ℕ} (he : 0 < e) (a : Arch k l) {plan : a.Plan (2 ^ e)} (hp : a.plan (2 ^ e) frac = .ok plan)
    (θ θ' : a.Params (Words (2 ^ e))) (x x' : T (.arith (2 ^ e) (p * k))) :
    ∃ prog prog', predict frac a θ x = .ok prog ∧ predict frac a θ' x' = .ok prog' ∧
      M.Sim σ (fun o o' => ∃ z z', a.Ran frac θ x z ∧ a.Ran frac θ' x' z' ∧ Alike σ z z' o o') prog prog' := by
  refine ⟨_, _, by unfold predict; rw [hp], by unfold predict; rw [hp], ?_⟩
  exact M.Sim.bind (shareParams_sim σ a θ θ') fun v v' hv =>
      M.Sim.bind (share_sim x x' σ) fun X X' hX => run_sim he a hp hv hX

theorem two_le {e : ℕ} (he : 0 < e) : 2 ≤ 2 ^ e :=
  calc 2 = 2 ^ 1 := rfl
    _ ≤ 2 ^ e := Nat.pow_le_pow_right (by omega) he

/-- The scores. -/
theorem scores_close {e frac : ℕ} (he : 0 < e) (hf : frac + frac + 2 ≤ 2 ^ e) (a : Arch k l)
    (θ : a.Params Numbers) (x : Fin p → Fin k → ℚ) (hθ : a.Encodable (2 ^ e) frac θ)
    (hx : ∀ i t, |x i t| * 2 ^ frac < 2 ^ (2 ^ e - 1))
    (hr : ∀ i, a.Fits (2 ^ e) frac (1 / 2 ^ frac) θ (x i) fun _ => 1 / 2 ^ frac) {z : T (.arith (2 ^ e) (p * l))}
    (h : a.Ran frac (a.encode (2 ^ e) frac θ) (encodeBatch (2 ^ e) frac x) z) (i : Fin p) (j : Fin l) :
    |real frac (z (finProdFinEquiv (i, j))) - a.plain θ (x i) j| ≤
      a.err (1 / 2 ^ frac) (1 / 2 ^ frac) θ (x i) (fun _ => 1 / 2 ^ frac) j := by
  refine ran_close (two_le he) a (encode_close (by omega) a hθ) ?_ hr h i j
  intro i t
  refine ⟨_, BitVec.ofInt_toInt.symm, ?_⟩
  unfold encodeBatch
  rw [Equiv.symm_apply_apply]
  exact (const_toward (by omega) (hx i t)).2

/-- The scores stay in the range of the functions. -/
def Arch.Small (frac : ℕ) {k l : ℕ} (a : Arch k l) (θ : a.Params Numbers) (x : Fin k → ℚ) (B : ℚ) : Prop :=
  ∀ j, |a.plain θ x j| + a.err (1 / 2 ^ frac) (1 / 2 ^ frac) θ x (fun _ => 1 / 2 ^ frac) j ≤ B

theorem scores_small {frac : ℕ} {w : ℕ} {a : Arch k l} {θ : a.Params Numbers} {x : Fin p → Fin k → ℚ} {B : ℚ}
    (hs : ∀ i, a.Small frac θ (x i) B) {z : T (.arith w (p * l))}
    (hz : ∀ i j, |real frac (z (finProdFinEquiv (i, j))) - a.plain θ (x i) j| ≤
      a.err (1 / 2 ^ frac) (1 / 2 ^ frac) θ (x i) (fun _ => 1 / 2 ^ frac) j) (i : Fin (p * l)) : |real frac (z i)| ≤ B := by
  obtain ⟨⟨a', b⟩, rfl⟩ := finProdFinEquiv.surjective i
  have h1 := hz a' b
  have h2 := hs a' b
  have h3 := abs_sub_abs_le_abs_sub (real frac (z (finProdFinEquiv (a', b)))) (a.plain θ (x a') b)
  linarith

/-! ## Sigmoid -/

/-- **C88** (sigmoid): a private prediction of probabilities. Nothing is raised, and whatever is drawn, every probability is
within `0.042 + 6 / 2 ^ frac`, the error of the private sigmoid, and a quarter of the error of the score of what the network
computes over the real numbers; with at least 14 fractional bits it lies between 0 and 1. -/
theorem predict_sigmoid_partial {e frac : ℕ} (he : 0 < e) (h1 : 1 ≤ frac) (hf : 2 * frac + 5 ≤ 2 ^ e) (a : Arch k l)
    (ha : a.Averages (2 ^ e) frac) (θ : a.Params Numbers) (x : Fin p → Fin k → ℚ) (hθ : a.Encodable (2 ^ e) frac θ)
    (hx : ∀ i t, |x i t| * 2 ^ frac < 2 ^ (2 ^ e - 1))
    (hr : ∀ i, a.Fits (2 ^ e) frac (1 / 2 ^ frac) θ (x i) fun _ => 1 / 2 ^ frac)
    (hs : ∀ i, a.Small frac θ (x i) (2 ^ (2 ^ e - 5 - 2 * frac))) :
    ∃ prog, predictSigmoid frac .five a (a.encode (2 ^ e) frac θ) (encodeBatch (2 ^ e) frac x) = .ok prog ∧
      M.All (fun o => ∃ Z, o = .ok Z ∧ ∃ z : T (.arith (2 ^ e) (p * l)), Holds z Z ∧ ∀ i j,
        |((real frac (z (finProdFinEquiv (i, j))) : ℚ) : ℝ) - logistic (a.plain θ (x i) j : ℚ)| ≤ 0.042 + 6 * (1 / 2 ^ frac) +
          1 / 4 * (a.err (1 / 2 ^ frac) (1 / 2 ^ frac) θ (x i) (fun _ => 1 / 2 ^ frac) j : ℚ) ∧
        (14 ≤ frac → 0 ≤ real frac (z (finProdFinEquiv (i, j))) ∧ real frac (z (finProdFinEquiv (i, j))) ≤ 1)) prog := by
  obtain ⟨plan, hp⟩ := plan_ok (w := 2 ^ e) (by omega) a ha
  obtain ⟨prog, _, e1, -, hsim⟩ := predict_sim (σ := 0) he a hp (a.encode (2 ^ e) frac θ) (a.encode (2 ^ e) frac θ)
    (encodeBatch (2 ^ e) frac x) (encodeBatch (2 ^ e) frac x)
  obtain ⟨F, hF, hsig⟩ := sigmoid_both (n := p * l) (σ := 0) he h1 hf
  refine ⟨_, by unfold predictSigmoid; rw [e1], ?_⟩
  refine M.Sim.left (σ := 0) (M.Sim.bind hsim ?_ (g := fun z => sigmoidHead frac .five z) (R := fun o _ => ∃ Z, o = .ok Z ∧ ∃ z : T (.arith (2 ^ e) (p * l)), Holds z Z ∧ ∃ s,
    a.Ran frac (a.encode (2 ^ e) frac θ) (encodeBatch (2 ^ e) frac x) s ∧ SigVal frac s z)) ?_
  · rintro o o' ⟨s, s', hs1, -, ho⟩
    unfold sigmoidHead
    rw [hF, hF]
    refine M.Sim.bind (hsig ho) ?_
    rintro y y' ⟨u, u', hu, -, hy⟩
    exact .pure ⟨_, rfl, u, hy.1, s, hs1, hu⟩
  · rintro o o' ⟨Z, rfl, z, hz, s, hs1, hv⟩
    have hc := scores_close he (by omega) a θ x hθ hx hr hs1
    have hv := hv (scores_small hs hc)
    refine ⟨Z, rfl, z, hz, fun i j => ⟨?_, (hv _).2⟩⟩
    have h2 := (hv (finProdFinEquiv (i, j))).1
    have h3 := logistic_quarter ((real frac (s (finProdFinEquiv (i, j))) : ℚ) : ℝ) ((a.plain θ (x i) j : ℚ) : ℝ)
    have h4 : |((real frac (s (finProdFinEquiv (i, j))) : ℚ) : ℝ) - ((a.plain θ (x i) j : ℚ) : ℝ)| ≤
        ((a.err (1 / 2 ^ frac) (1 / 2 ^ frac) θ (x i) (fun _ => 1 / 2 ^ frac) j : ℚ) : ℝ) := by exact_mod_cast hc i j
    have h5 := abs_sub_le ((real frac (z (finProdFinEquiv (i, j))) : ℚ) : ℝ) (logistic (real frac (s (finProdFinEquiv (i, j))) : ℚ))
      (logistic (a.plain θ (x i) j : ℚ))
    linarith

/-- **C88** (sigmoid, secrecy). -/
theorem predict_sigmoid_secrecy {e frac : ℕ} (he : 0 < e) (h1 : 1 ≤ frac) (hf : 2 * frac + 5 ≤ 2 ^ e) (σ : Fin 3) (a : Arch k l)
    (θ θ' : a.Params (Words (2 ^ e))) (x x' : T (.arith (2 ^ e) (p * k)))
    {prog prog' : M (Except Err (Shares (T (.arith (2 ^ e) (p * l)))))} (h : predictSigmoid frac .five a θ x = .ok prog)
    (h' : predictSigmoid frac .five a θ' x' = .ok prog') : M.view σ prog = M.view σ prog' := by
  cases hp : a.plan (2 ^ e) frac with
  | error er =>
    unfold predictSigmoid predict at h
    rw [hp] at h
    cases h
  | ok plan =>
    obtain ⟨q, q', e1, e2, hsim⟩ := predict_sim (σ := σ) he a hp θ θ' x x'
    unfold predictSigmoid at h h'
    rw [e1] at h
    rw [e2] at h'
    cases h
    cases h'
    obtain ⟨F, hF, hsig⟩ := sigmoid_both (n := p * l) (σ := σ) he h1 hf
    refine (M.Sim.bind (R := fun _ _ => True) hsim ?_).dist_eq
    rintro o o' ⟨s, s', -, -, ho⟩
    unfold sigmoidHead
    rw [hF, hF]
    exact M.Sim.bind (hsig ho) fun _ _ _ => .pure trivial

/-! ## Softmax -/

theorem classesFirst_get {w : ℕ} (x : T (.arith w (p * l))) (i : Fin p) (j : Fin l) :
    classesFirst x (finProdFinEquiv (j, i)) = x (finProdFinEquiv (i, j)) := by
  unfold classesFirst
  rw [Equiv.symm_apply_apply]

theorem classesFirst_add {w : ℕ} (x y : T (.arith w (p * l))) : classesFirst (x + y) = classesFirst x + classesFirst y := rfl

theorem softmaxHead_sim {e : ℕ} {rev : BitVec (2 ^ e) → BitVec (2 ^ e)} (hrev : ∀ v, rev v = v.reverse)
    (he : 0 < e) (he7 : e ≤ 7) {frac m : ℕ} (prec : ℕ) (hl : 2 ≤ l) (hd : padeDegree frac ≠ 0)
    (hw : frac + frac + 2 ≤ 2 ^ e) (hw32 : frac + 2 ^ 5 + 2 ≤ 2 ^ e) (h0 : 0 < m) (h63 : m ≤ 63)
    (hm : m ≤ 2 ^ e) (hmf : m < 2 * frac) {x x' : T (.arith (2 ^ e) (p * l))} {X X' : Shares (T (.arith (2 ^ e) (p * l)))}
    (hx : Alike σ x x' X X') :
    M.Sim σ (fun o _ => ∃ Z, o = .ok Z ∧ ∃ z : T (.arith (2 ^ e) (l * p)), Holds (classesFirst z : T (.arith (2 ^ e) (p * l))) Z ∧
        SoftmaxVal rev frac m prec (classesFirst x) (firstRow (by omega) (sortV false l p (classesFirst x) (le_two_mul_clog hl))) z)
      (softmaxHead rev frac m prec X) (softmaxHead rev frac m prec X') := by
  obtain ⟨F, hF, hs⟩ := softmaxNet_sim (c := p) hrev he he7 hl prec hd hw hw32 h0 h63 hm hmf
  unfold softmaxHead
  rw [hF, hF]
  refine M.Sim.bind (hs (hx.map classesFirst_add)) ?_
  rintro o o' ⟨O, O', rfl, rfl, z, z', hz, -, ho⟩
  exact .pure ⟨_, rfl, z, (ho.map classesFirst_add).1, hz⟩

/-- **C88** (softmax): a private prediction of the probabilities of the classes. Nothing is raised, and whatever is drawn, each
probability is within the error of the private softmax and `exp (2 * E) - 1` of what the network computes over the real
numbers, where `E` bounds the errors of the scores. -/
theorem predict_softmax_partial {e : ℕ} {rev : BitVec (2 ^ e) → BitVec (2 ^ e)} (hrev : ∀ v, rev v = v.reverse)
    (he : 0 < e) (he7 : e ≤ 7) {frac m : ℕ} (prec : ℕ)
    (h13 : 13 ≤ frac) (h32 : frac ≤ 32) (hf : 2 * frac + 5 ≤ 2 ^ e) (hw32 : frac + 36 ≤ 2 ^ e)
    (hf3 : 3 * frac + 3 ≤ 2 ^ e) (h0 : 0 < m) (h63 : m ≤ 63) (hm : m ≤ 2 ^ e) (hmf : m < 2 * frac)
    (hl : 2 ≤ l) (h80 : 80 * l ≤ 2 ^ frac) (hlm : 5 * l * 2 ^ frac < 4 * 2 ^ (m - 1)) (a : Arch k l)
    (ha : a.Averages (2 ^ e) frac) (θ : a.Params Numbers) (x : Fin p → Fin k → ℚ) (hθ : a.Encodable (2 ^ e) frac θ)
    (hx : ∀ i t, |x i t| * 2 ^ frac < 2 ^ (2 ^ e - 1))
    (hr : ∀ i, a.Fits (2 ^ e) frac (1 / 2 ^ frac) θ (x i) fun _ => 1 / 2 ^ frac)
    (hs : ∀ i, a.Small frac θ (x i) (2 ^ (2 ^ e - 5 - 2 * frac))) {E : Fin p → ℚ}
    (hE : ∀ i j, a.err (1 / 2 ^ frac) (1 / 2 ^ frac) θ (x i) (fun _ => 1 / 2 ^ frac) j ≤ E i) :
    ∃ prog, predictSoftmax rev frac m prec a (a.encode (2 ^ e) frac θ) (encodeBatch (2 ^ e) frac x) = .ok prog ∧
      M.All (fun o => ∃ Z, o = .ok Z ∧ ∃ z : T (.arith (2 ^ e) (p * l)), Holds z Z ∧ ∀ i,
        (∀ j, |((real frac (z (finProdFinEquiv (i, j))) : ℚ) : ℝ) - softmaxOf (fun j => ((a.plain θ (x i) j : ℚ) : ℝ)) j| ≤
          (3 * (2 / 10 ^ 4 + (padeErr frac : ℚ)) + 15 * l / 2 ^ frac) + (16 / 2 ^ frac + 2 * (normErr frac l prec : ℚ)) +
            (Real.exp (2 * (E i : ℚ)) - 1)) ∧
        |((∑ j : Fin l, real frac (z (finProdFinEquiv (i, j))) : ℚ) : ℝ) - 1| ≤ (normErr frac l prec : ℚ) + l / 2 ^ frac) prog := by
  obtain ⟨plan, hp⟩ := plan_ok (w := 2 ^ e) (by omega) a ha
  obtain ⟨prog, _, e1, -, hsim⟩ := predict_sim (σ := 0) he a hp (a.encode (2 ^ e) frac θ) (a.encode (2 ^ e) frac θ)
    (encodeBatch (2 ^ e) frac x) (encodeBatch (2 ^ e) frac x)
  refine ⟨_, by unfold predictSoftmax; rw [e1], ?_⟩
  refine M.Sim.left (σ := 0) (M.Sim.bind hsim ?_ (g := fun z => softmaxHead rev frac m prec z) (R := fun o _ => ∃ Z, o = .ok Z ∧ ∃ z : T (.arith (2 ^ e) (l * p)),
    Holds (classesFirst z : T (.arith (2 ^ e) (p * l))) Z ∧ ∃ s : T (.arith (2 ^ e) (p * l)),
    a.Ran frac (a.encode (2 ^ e) frac θ) (encodeBatch (2 ^ e) frac x) s ∧
      SoftmaxVal rev frac m prec (classesFirst s) (firstRow (by omega) (sortV false l p (classesFirst s) (le_two_mul_clog hl))) z)) ?_
  · rintro o o' ⟨s, s', hs1, -, ho⟩
    refine (softmaxHead_sim hrev he he7 prec hl (degree_ne_zero h13) (by omega) (by omega) h0 h63 hm hmf ho).mono ?_
    rintro y y' ⟨Z, rfl, z, hz, hv⟩
    exact ⟨Z, rfl, z, hz, s, hs1, hv⟩
  · rintro o o' ⟨Z, rfl, z, hz, s, hs1, hv⟩
    have hc := scores_close he (by omega) a θ x hθ hx hr hs1
    have hsm : ∀ i, |real frac ((classesFirst s : T (.arith (2 ^ e) (l * p))) i)| ≤ 2 ^ (2 ^ e - 5 - 2 * frac) :=
      fun i => scores_small hs hc _
    have hcl := softmaxVal_close hrev h13 h32 hf hw32 hf3 h0 hm hmf h80 hlm hsm hv
      (netMax_value he hl fun i => toInt_of_real hf (hsm i))
    refine ⟨Z, rfl, _, hz, fun i => ⟨fun j => ?_, ?_⟩⟩
    · have h1 := (hcl i).1 j
      simp only [classesFirst_get] at h1 ⊢
      have h2 := softmaxOf_stable (q := fun j => ((real frac (s (finProdFinEquiv (i, j))) : ℚ) : ℝ))
        (q' := fun j => ((a.plain θ (x i) j : ℚ) : ℝ)) (E := ((E i : ℚ) : ℝ))
        (fun j => by exact_mod_cast (hc i j).trans (hE i j)) j
      have h3 := softmaxOf_le_one (fun j => ((real frac (s (finProdFinEquiv (i, j))) : ℚ) : ℝ)) j
      have h4 : (0 : ℝ) ≤ 3 * (2 / 10 ^ 4 + (padeErr frac : ℚ)) + 15 * l / 2 ^ frac := by
        have : (0 : ℚ) ≤ padeErr frac := by unfold padeErr; positivity
        have : (0 : ℝ) ≤ (padeErr frac : ℚ) := by exact_mod_cast this
        positivity
      have h5 := mul_le_mul_of_nonneg_left h3 h4
      have h6 := abs_sub_le ((real frac (z (finProdFinEquiv (j, i))) : ℚ) : ℝ)
        (softmaxOf (fun j => ((real frac (s (finProdFinEquiv (i, j))) : ℚ) : ℝ)) j)
        (softmaxOf (fun j => ((a.plain θ (x i) j : ℚ) : ℝ)) j)
      linarith
    · simpa only [classesFirst_get] using (hcl i).2

/-- **C88** (softmax, secrecy). -/
theorem predict_softmax_secrecy {e : ℕ} {rev : BitVec (2 ^ e) → BitVec (2 ^ e)} (hrev : ∀ v, rev v = v.reverse)
    (he : 0 < e) (he7 : e ≤ 7) {frac m : ℕ} (prec : ℕ) (hl : 2 ≤ l) (hd : padeDegree frac ≠ 0)
    (hw : frac + frac + 2 ≤ 2 ^ e) (hw32 : frac + 34 ≤ 2 ^ e) (h0 : 0 < m) (h63 : m ≤ 63)
    (hm : m ≤ 2 ^ e) (hmf : m < 2 * frac) (σ : Fin 3) (a : Arch k l)
    (θ θ' : a.Params (Words (2 ^ e))) (x x' : T (.arith (2 ^ e) (p * k)))
    {prog prog' : M (Except Err (Shares (T (.arith (2 ^ e) (p * l)))))} (h : predictSoftmax rev frac m prec a θ x = .ok prog)
    (h' : predictSoftmax rev frac m prec a θ' x' = .ok prog') : M.view σ prog = M.view σ prog' := by
  cases hp : a.plan (2 ^ e) frac with
  | error er =>
    unfold predictSoftmax predict at h
    rw [hp] at h
    cases h
  | ok plan =>
    obtain ⟨q, q', e1, e2, hsim⟩ := predict_sim (σ := σ) he a hp θ θ' x x'
    unfold predictSoftmax at h h'
    rw [e1] at h
    rw [e2] at h'
    cases h
    cases h'
    refine (M.Sim.bind (R := fun _ _ => True) hsim ?_).dist_eq
    rintro o o' ⟨s, s', -, -, ho⟩
    exact (softmaxHead_sim hrev he he7 prec hl hd hw hw32 h0 h63 hm hmf ho).mono fun _ _ _ => trivial

/-- The network with two layers of `NetworkProps` meets the condition on the scores. -/
example : ∀ i, sampleNet.Small 16 sampleWeights (sampleBatch i) (2 ^ (2 ^ 6 - 5 - 2 * 16)) := by
  intro i
  fin_cases i <;> exact fun j => by revert j; decide +kernel

/-- And a network with two classes, for the softmax. -/
example : classNet.Small 16 ((fun i => if i = 0 then 1 else -1), ()) (fun _ => 1) (2 ^ (2 ^ 6 - 5 - 2 * 16)) := by
  unfold Arch.Small
  decide +kernel

end Verif.Aby3
