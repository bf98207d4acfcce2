import Verif.Aby3.SoftmaxKinds
import Verif.Aby3.SoftmaxProps
import Verif.Aby3.Exp19Props
import Verif.Aby3.ExpInfProps
import Mathlib.Tactic.FinCases

/-!
# Softmax with the other approximations of the exponential
-/

namespace Verif.Aby3

open Verif

variable {w n c : ℕ} {σ : Fin 3}

attribute [local irreducible] M.All M.Sim

/-- With the default approximation the call is the one of `Softmax.lean`. -/
theorem softmaxKind_default (rev : BitVec w → BitVec w) (frac m prec : ℕ)
    (X : Shares (T (.arith w (n * c)))) :
    softmaxKind .mpSpdz true rev frac m prec n c X = softmaxNet rev frac m prec n c X := rfl

/-! ## Both runs -/

/-- A possible tensor of exponentials. -/
def ExpKindVal (kind : ExpKind) (rev : BitVec w → BitVec w) (frac m : ℕ) (x z : T (.arith w n)) : Prop :=
  match kind with
  | .mpSpdz => NatExpVal frac .neg x z
  | .as2019 => ExpAsVal rev frac m x z
  | .infinity => ∀ i, ExpInfVal frac (x i) (z i)
  | .other => False

theorem softmaxExp_sim {e frac m L : ℕ} (cf : AsConfig e frac m L) {rev : BitVec (2 ^ e) → BitVec (2 ^ e)}
    (hrev : ∀ v, rev v = v.reverse) {kind : ExpKind} (hk : kind ≠ .other) :
    ∃ F : Shares (T (.arith (2 ^ e) n)) → M (Except Err (Shares (T (.arith (2 ^ e) n)))),
      (∀ X, softmaxExp kind rev frac m X = .ok (F X)) ∧
        ∀ {σ : Fin 3} {x x' : T (.arith (2 ^ e) n)} {X X' : Shares (T (.arith (2 ^ e) n))},
          Alike σ x x' X X' →
          M.Sim σ (fun o o' => ∃ O O', o = .ok O ∧ o' = .ok O' ∧ ∃ z z', ExpKindVal kind rev frac m x z ∧
            ExpKindVal kind rev frac m x' z' ∧ Alike σ z z' O O') (F X) (F X') := by
  obtain ⟨he, he7, f13, f32, f3, f36, m63, fm, cl, mf, L1, Lf, Lm⟩ := id cf
  cases kind with
  | mpSpdz => exact natExp_sim he he7 cf.deg (by omega) (by omega) .neg
  | as2019 => exact expAs_sim cf.ready hrev
  | infinity =>
    obtain ⟨F, hF, hs⟩ := expInf_sim (n := n) (w := 2 ^ e) (frac := frac) (by omega) (by omega)
    refine ⟨fun X => do let z ← F X; return .ok z, fun X => ?_, ?_⟩
    · unfold softmaxExp
      simp only [hF]
    · intro σ x x' X X' hx
      refine .bind (hs hx) ?_
      rintro Z Z' ⟨z, z', hz, hz', hZ⟩
      exact .pure ⟨Z, Z', rfl, rfl, z, z', hz, hz', hZ⟩
  | other => exact absurd rfl hk

/-- A possible result, from the maximum. -/
def SoftmaxKindVal (kind : ExpKind) (rev : BitVec w → BitVec w) (frac m prec : ℕ) (x : T (.arith w (n * c)))
    (mx : T (.arith w c)) (z : T (.arith w (n * c))) : Prop :=
  ∃ (ex : T (.arith w (n * c))) (r : T (.arith w c)), ExpKindVal kind rev frac m (shiftV frac x mx) ex ∧
    (∀ k, RecipPosVal rev frac m prec (colSums ex k) (r k)) ∧
    ∀ k, TruncOk .heuristic frac (ex k * r (finProdFinEquiv.symm k).2) (z k)

theorem softmaxKindRun_sim {e frac m L : ℕ} (cf : AsConfig e frac m L)
    {rev : BitVec (2 ^ e) → BitVec (2 ^ e)} (hrev : ∀ v, rev v = v.reverse) {kind : ExpKind}
    (hk : kind ≠ .other) (prec : ℕ) {x x' : T (.arith (2 ^ e) (n * c))} {mx mx' : T (.arith (2 ^ e) c)}
    {X X' : Shares (T (.arith (2 ^ e) (n * c)))} {Y Y' : Shares (T (.arith (2 ^ e) c))}
    (hx : Alike σ x x' X X') (hmx : Alike σ mx mx' Y Y') :
    M.Sim σ (fun o o' => ∃ O O', o = .ok O ∧ o' = .ok O' ∧ ∃ z z', SoftmaxKindVal kind rev frac m prec x mx z ∧
      SoftmaxKindVal kind rev frac m prec x' mx' z' ∧ Alike σ z z' O O')
      (softmaxKindRun kind rev frac m prec X Y) (softmaxKindRun kind rev frac m prec X' Y') := by
  obtain ⟨he, he7, f13, f32, f3, f36, m63, fm, cl, mf, L1, Lf, Lm⟩ := id cf
  obtain ⟨plan, hp⟩ := mulPlan_ok (sx := true) (sy := true) (frac := frac) (w := 2 ^ e) fun _ => by omega
  obtain ⟨F, hF, hs⟩ := softmaxExp_sim (n := n * c) cf hrev hk
  obtain ⟨G, hG, hr⟩ := recipPos_sim (n := c) hrev prec (show 0 < m by omega) m63 (by omega) mf (by omega)
  unfold softmaxKindRun softmaxKindTail
  simp only [hF, hp]
  refine .bind (hs (softmaxShift_alike hx hmx)) ?_
  rintro _ _ ⟨E, E', rfl, rfl, ex, ex', h1, h1', hE⟩
  simp only [softmaxCont, hG]
  refine .bind (hr (hE.map colSums_add)) ?_
  rintro R R' ⟨r, r', h2, h2', hR⟩
  refine .bind (mulS_sim hp hE (hR.map spreadRows_add)) ?_
  rintro Z Z' ⟨z, z', h3, h3', -, hZ⟩
  exact .pure ⟨Z, Z', rfl, rfl, z, z', ⟨ex, r, h1, h2, h3⟩, ⟨ex', r', h1', h2', h3'⟩, hZ⟩

/-- The number of classes for which the maximum can be found. -/
def Classes (network : Bool) (n : ℕ) : Prop := if network then 2 ≤ n else 0 < n

/-- The maximum, by either way. -/
theorem softmaxMax_sim {e : ℕ} (he : 0 < e) {network : Bool} (hn : Classes network n) :
    ∃ F : Shares (T (.arith (2 ^ e) (n * c))) → M (Shares (T (.arith (2 ^ e) c))),
      ∃ f : T (.arith (2 ^ e) (n * c)) → T (.arith (2 ^ e) c),
      (∀ X, softmaxMax network n c X = .ok (F X)) ∧
      (∀ {σ : Fin 3} {x x' : T (.arith (2 ^ e) (n * c))} {X X' : Shares (T (.arith (2 ^ e) (n * c)))},
        Alike σ x x' X X' → M.Sim σ (Alike σ (f x) (f x')) (F X) (F X')) ∧
      ∀ x, (∀ i, |(x i).toInt| < 2 ^ (2 ^ e - 2)) → ∀ k, IsColMax x k (f x k) := by
  cases network with
  | true =>
    have hn : 2 ≤ n := hn
    obtain ⟨F, hF, hs⟩ := reduceMaxNet_sim (c := c) he hn
    exact ⟨F, _, hF, hs, fun x hx => netMax_value he hn hx⟩
  | false =>
    have hn : 0 < n := by simpa [Classes] using hn
    refine ⟨fun X => reduceMaxTree (List.ofFn fun i : Fin n => X.map (row i)) (by
        rw [ne_eq, List.ofFn_eq_nil_iff]; omega), treeMax hn, fun X => ?_, ?_,
      fun x hx => treeMax_value he hn hx⟩
    · unfold softmaxMax
      simp only
      rw [dif_pos hn]
    · intro σ x x' X X' hx
      have h := reduceMaxTree_sim (σ := σ) he
        (List.ofFn fun i : Fin n => (row i x, row i x', X.map (row i), X'.map (row i)))
        (fun t ht => by
          rw [List.mem_ofFn] at ht
          obtain ⟨i, rfl⟩ := ht
          exact hx.map (row_add i)) (by rw [ne_eq, List.ofFn_eq_nil_iff]; omega)
      simp only [List.map_ofFn, Function.comp_def] at h
      exact h

theorem softmaxKind_sim {e frac m L : ℕ} (cf : AsConfig e frac m L)
    {rev : BitVec (2 ^ e) → BitVec (2 ^ e)} (hrev : ∀ v, rev v = v.reverse) {kind : ExpKind}
    (hk : kind ≠ .other) {network : Bool} (hn : Classes network n) (prec : ℕ) :
    ∃ F : Shares (T (.arith (2 ^ e) (n * c))) → M (Except Err (Shares (T (.arith (2 ^ e) (n * c))))),
      (∀ X, softmaxKind kind network rev frac m prec n c X = .ok (F X)) ∧
      ∀ {σ : Fin 3} {x x' : T (.arith (2 ^ e) (n * c))} {X X' : Shares (T (.arith (2 ^ e) (n * c)))},
        Alike σ x x' X X' →
        M.Sim σ (fun o o' => ∃ O O', o = .ok O ∧ o' = .ok O' ∧ ∃ z z',
          (∃ mx, ((∀ i, |(x i).toInt| < 2 ^ (2 ^ e - 2)) → ∀ k, IsColMax x k (mx k)) ∧
            SoftmaxKindVal kind rev frac m prec x mx z) ∧ Alike σ z z' O O') (F X) (F X') := by
  obtain ⟨F, f, hF, hs, hm⟩ := softmaxMax_sim (c := c) cf.he hn
  refine ⟨fun X => do let mx ← F X; softmaxKindRun kind rev frac m prec X mx, fun X => ?_, ?_⟩
  · unfold softmaxKind
    rw [hF]
  · intro σ x x' X X' hx
    refine .bind (hs hx) fun Y Y' hY => (softmaxKindRun_sim cf hrev hk prec hx hY).mono ?_
    rintro o o' ⟨O, O', h1, h2, z, z', hz, -, ho⟩
    exact ⟨O, O', h1, h2, z, z', ⟨_, hm x, hz⟩, ho⟩

/-! ## The error -/

/-- The error of a call relative to a claim about a column. -/
theorem softmaxKind_close {e frac m L : ℕ} (cf : AsConfig e frac m L)
    {rev : BitVec (2 ^ e) → BitVec (2 ^ e)} (hrev : ∀ v, rev v = v.reverse) {kind : ExpKind}
    (hk : kind ≠ .other) {network : Bool} (hn : Classes network n) (prec : ℕ)
    (h80 : 80 * n ≤ 2 ^ frac) (hnm : 5 * n * 2 ^ frac < 4 * 2 ^ (m - 1))
    {x : T (.arith (2 ^ e) (n * c))} {X : Shares (T (.arith (2 ^ e) (n * c)))} (hX : Holds x X)
    (hx : ∀ i, |real frac (x i)| ≤ 2 ^ (2 ^ e - 5 - 2 * frac))
    {ρ τ : ℝ} (hρ0 : 0 ≤ ρ) (hρ : ρ ≤ 1 / 8) (hτ0 : 0 ≤ τ) (hτ : n * τ ≤ 1 / 9)
    (hexp : ∀ (mx : T (.arith (2 ^ e) c)) (ex : T (.arith (2 ^ e) (n * c))),
      ExpKindVal kind rev frac m (shiftV frac x mx) ex → ∀ k, IsColMax x k (mx k) →
      ∀ i : Fin n, |((real frac (ex (finProdFinEquiv (i, k))) : ℚ) : ℝ) -
        Real.exp (real frac (shiftV frac x mx (finProdFinEquiv (i, k))) : ℚ)| ≤
      ρ * Real.exp (real frac (shiftV frac x mx (finProdFinEquiv (i, k))) : ℚ) + τ) :
    ∃ p, softmaxKind kind network rev frac m prec n c X = .ok p ∧ M.All (fun o => ∃ O, o = .ok O ∧
      ∃ z : T (.arith (2 ^ e) (n * c)), Holds z O ∧
        SoftmaxClose frac (3 * ρ + 3 * τ * n) (3 * τ + 2 * (normErr frac n prec : ℚ) + 1 / 2 ^ frac)
          ((normErr frac n prec : ℚ) + n / 2 ^ frac) x z) p := by
  obtain ⟨he, he7, f13, f32, f3, f36, m63, fm, cl, mf, L1, Lf, Lm⟩ := id cf
  obtain ⟨F, hF, hs⟩ := softmaxKind_sim (c := c) cf hrev hk hn prec
  refine ⟨F X, hF X, (hs (hX.alike 0)).left ?_⟩
  rintro o o' ⟨O, O', rfl, -, z, z', ⟨mx, hm, ex, r, h1, h2, h3⟩, ho⟩
  refine ⟨O, rfl, z, ho.1, fun k => ?_⟩
  have hmx := hm (fun i => toInt_of_real (by omega) (hx i)) k
  have h := softmax_word_of (prec := prec) hrev f13 (by omega) f3 (by omega) (by omega) mf h80 hnm hx k hmx (h2 k)
    h3 hρ0 hρ hτ0 hτ (hexp mx ex h1 k hmx)
  exact ⟨fun i => (h.1 i).trans (le_of_eq (by unfold normErr; ring)), h.2⟩

/-- **C62** (`approx_type="as2019"`): for logits of a column that differ by at most `0.69 L` less one unit
(6.2 in the default configuration), every sharing and every draw, every entry is close to the softmax. -/
theorem softmax_as2019_partial {e frac m L : ℕ} (cf : AsConfig e frac m L)
    {rev : BitVec (2 ^ e) → BitVec (2 ^ e)} (hrev : ∀ v, rev v = v.reverse) {network : Bool}
    (hn : Classes network n) (prec : ℕ)
    (h80 : 80 * n ≤ 2 ^ frac) (hnm : 5 * n * 2 ^ frac < 4 * 2 ^ (m - 1))
    {x : T (.arith (2 ^ e) (n * c))} {X : Shares (T (.arith (2 ^ e) (n * c)))} (hX : Holds x X)
    (hx : ∀ i, |real frac (x i)| ≤ 2 ^ (2 ^ e - 5 - 2 * frac))
    (hd : ∀ (k : Fin c) (i j : Fin n), real frac (x (finProdFinEquiv (i, k))) -
      real frac (x (finProdFinEquiv (j, k))) ≤ 69 / 100 * L - 1 / 2 ^ frac) :
    ∃ p, softmaxKind .as2019 network rev frac m prec n c X = .ok p ∧ M.All (fun o => ∃ O, o = .ok O ∧
      ∃ z : T (.arith (2 ^ e) (n * c)), Holds z O ∧
        SoftmaxClose frac (3 * (asErr frac : ℚ) + 15 * n / 2 ^ frac)
          (16 / 2 ^ frac + 2 * (normErr frac n prec : ℚ))
          ((normErr frac n prec : ℚ) + n / 2 ^ frac) x z) p := by
  obtain ⟨he, he7, f13, f32, f3, f36, m63, fm, cl, mf, L1, Lf, Lm⟩ := id cf
  have hp0 := padeErr_nonneg frac
  have hp1 := padeErr_le' f13
  have hu : (1 : ℚ) / 2 ^ frac ≤ 1 / 8192 := by
    rw [show (8192 : ℚ) = 2 ^ 13 by norm_num]
    exact div_le_div_of_nonneg_left (by norm_num) (by norm_num) (pow_le_pow_right₀ (by norm_num) f13)
  have hu0 : (0 : ℚ) < 1 / 2 ^ frac := by positivity
  have hnu : (n : ℝ) * (1 / 2 ^ frac) ≤ 1 / 80 := by
    have : (80 : ℝ) * n ≤ 2 ^ frac := by exact_mod_cast h80
    rw [mul_one_div, div_le_iff₀ (by positivity)]
    linarith
  have hA0 : 0 ≤ asErr frac := by unfold asErr; positivity
  have hA1 : asErr frac ≤ 1 / 8 := by unfold asErr; linarith
  obtain ⟨p, hp, hall⟩ := softmaxKind_close cf hrev (kind := .as2019) (by decide) hn prec h80 hnm hX hx
    (ρ := (asErr frac : ℚ)) (τ := 5 * (1 / 2 ^ frac)) (by exact_mod_cast hA0) (by
      have := (Rat.cast_le (K := ℝ)).2 hA1
      push_cast at this
      exact this) (by positivity) (by linarith) (fun mx ex h1 k hmx i => by
      obtain ⟨hsh, hneg, i₀, hi₀, -⟩ := shift_word (by omega) hx k hmx
      have hi := hsh i
      rw [hi₀] at hi
      have hdi := hd k i₀ i
      have h := ExpAsVal.close cf hrev h1 (finProdFinEquiv (i, k)) ⟨by linarith, by linarith [hneg i]⟩
      have hn := hneg i
      set a := real frac (shiftV frac x mx (finProdFinEquiv (i, k)))
      refine h.trans ?_
      have ha0 : ((a : ℚ) : ℝ) < 0 := by
        have : a < 0 := by linarith
        exact_mod_cast this
      rw [abs_of_neg ha0]
      have k1 := exp_mul_le ((a : ℚ) : ℝ)
      have k3 := mul_le_mul_of_nonneg_left k1 (show (0 : ℝ) ≤ 3 * (1 / 2 ^ frac) by positivity)
      linarith)
  refine ⟨p, hp, hall.mono ?_⟩
  rintro o ⟨O, rfl, z, hz, h⟩
  refine ⟨O, rfl, z, hz, fun k => ⟨fun i => ((h k).1 i).trans (le_of_eq ?_), (h k).2⟩⟩
  ring

theorem sq_exp_le {a : ℝ} (h : a ≤ 0) : Real.exp a * a ^ 2 ≤ 5504 / 10000 := by
  have h1 := Real.add_one_le_exp (-a / 2 - 1)
  have h2 : Real.exp (-a / 2) = Real.exp 1 * Real.exp (-a / 2 - 1) := by
    rw [← Real.exp_add]
    congr 1
    ring
  have h3 := Real.exp_one_gt_d9
  have h4 : 2.7 * (-a / 2) ≤ Real.exp (-a / 2) := by
    rw [h2]
    exact mul_le_mul (by linarith) (by linarith) (by linarith) (by positivity)
  have h5 : (2.7 * (-a / 2)) ^ 2 ≤ Real.exp (-a / 2) ^ 2 := pow_le_pow_left₀ (by linarith) h4 2
  have h6 : Real.exp (-a / 2) ^ 2 = Real.exp (-a) := by
    rw [← Real.exp_nat_mul]
    congr 1
    push_cast
    ring
  rw [h6] at h5
  have h7 := mul_le_mul_of_nonneg_left h5 (Real.exp_pos a).le
  rw [← Real.exp_add, add_neg_cancel, Real.exp_zero] at h7
  ring_nf at h7 ⊢
  linarith

/-- **C62** (`approx_type="infinity"`): for logits of a column that differ by at most 128 less one unit,
every sharing and every draw, every entry is within about `0.013 (n + 1)` of the softmax. -/
theorem softmax_infinity_partial {e frac m L : ℕ} (cf : AsConfig e frac m L) (h15 : 15 ≤ frac)
    {rev : BitVec (2 ^ e) → BitVec (2 ^ e)} (hrev : ∀ v, rev v = v.reverse) {network : Bool}
    (hn : Classes network n) (prec : ℕ)
    (h80 : 80 * n ≤ 2 ^ frac) (hnm : 5 * n * 2 ^ frac < 4 * 2 ^ (m - 1))
    (hn9 : (n : ℝ) * (43 / 10000 + 300 * (1 / 2 ^ frac)) ≤ 1 / 9)
    {x : T (.arith (2 ^ e) (n * c))} {X : Shares (T (.arith (2 ^ e) (n * c)))} (hX : Holds x X)
    (hx : ∀ i, |real frac (x i)| ≤ 2 ^ (2 ^ e - 5 - 2 * frac))
    (hd : ∀ (k : Fin c) (i j : Fin n), real frac (x (finProdFinEquiv (i, k))) -
      real frac (x (finProdFinEquiv (j, k))) ≤ 128 - 1 / 2 ^ frac) :
    ∃ p, softmaxKind .infinity network rev frac m prec n c X = .ok p ∧ M.All (fun o => ∃ O, o = .ok O ∧
      ∃ z : T (.arith (2 ^ e) (n * c)), Holds z O ∧
        SoftmaxClose frac (3 * (43 / 10000 + 300 * (1 / 2 ^ frac)) * n)
          (3 * (43 / 10000 + 300 * (1 / 2 ^ frac)) + 2 * (normErr frac n prec : ℚ) + 1 / 2 ^ frac)
          ((normErr frac n prec : ℚ) + n / 2 ^ frac) x z) p := by
  obtain ⟨he, he7, f13, f32, f3, f36, m63, fm, cl, mf, L1, Lf, Lm⟩ := id cf
  obtain ⟨p, hp, hall⟩ := softmaxKind_close cf hrev (kind := .infinity) (by decide) hn prec h80 hnm hX hx
    (ρ := 0) (τ := 43 / 10000 + 300 * (1 / 2 ^ frac)) le_rfl (by norm_num) (by positivity) hn9
    (fun mx ex h1 k hmx i => by
      obtain ⟨hsh, hneg, i₀, hi₀, -⟩ := shift_word (by omega) hx k hmx
      have hi := hsh i
      rw [hi₀] at hi
      have hdi := hd k i₀ i
      have hu0 : (0 : ℚ) < 1 / 2 ^ frac := by positivity
      have hn := hneg i
      have hz := h1 (finProdFinEquiv (i, k))
      set a := real frac (shiftV frac x mx (finProdFinEquiv (i, k))) with ha
      have b1 : -128 ≤ a := by linarith
      have b2 : a ≤ 0 := by linarith
      have hv0 : 0 ≤ 1 + a / 128 := by linarith
      have hv1 : 1 + a / 128 ≤ 1 := by linarith
      have hm1 : max 1 |1 + a / 128| = 1 := max_eq_left (by rw [abs_of_nonneg hv0]; exact hv1)
      have hm2 : max 1 ((1 + a / 128) ^ (2 ^ 7)) = 1 := max_eq_left (pow_le_one₀ hv0 hv1)
      have h := expInf_word h15 (by omega) (by
          rw [← ha]
          have h1 : |a| ≤ 2 ^ 7 := abs_le.2 ⟨by linarith, by linarith⟩
          have h2 := mul_le_mul_of_nonneg_right h1 (show (0 : ℚ) ≤ 2 ^ frac by positivity)
          refine h2.trans_lt ?_
          rw [← pow_add]
          exact pow_lt_pow_right₀ (by norm_num) (by omega)) (by
          rw [← ha, hm1, one_pow, mul_one, ← pow_add, ← pow_succ']
          exact pow_le_pow_right₀ (by norm_num) (by omega)) hz
      rw [← ha, hm2, mul_one] at h
      have hR := (Rat.cast_le (K := ℝ)).2 h
      push_cast at hR
      have b1' : (-128 : ℝ) ≤ (a : ℚ) := by exact_mod_cast b1
      have b2' : ((a : ℚ) : ℝ) ≤ 0 := by exact_mod_cast b2
      have hpe := power_exp (k := 128) (by norm_num) (x := ((a : ℚ) : ℝ)) (by
        push_cast
        exact abs_le.2 ⟨by linarith, by linarith⟩)
      have hsq := sq_exp_le b2'
      norm_num at hpe hR ⊢
      rw [abs_le] at hR ⊢
      generalize (1 + ((a : ℚ) : ℝ) / 128) ^ 128 = P at hR hpe
      constructor <;> linarith [hR.1, hR.2, hpe.1, hpe.2])
  refine ⟨p, hp, hall.mono ?_⟩
  rintro o ⟨O, rfl, z, hz, h⟩
  refine ⟨O, rfl, z, hz, fun k => ⟨fun i => ((h k).1 i).trans (le_of_eq ?_), (h k).2⟩⟩
  ring

/-! ## Where the other approximations fail -/

theorem far_power {a : ℚ} (h1 : -260 - 1 / 1000 ≤ a) (h2 : a ≤ -260) :
    51 ≤ (1 + a / 128) ^ (2 ^ 7) ∧ (1 + a / 128) ^ (2 ^ 7) ≤ 52 ∧ max 1 |1 + a / 128| ^ (2 ^ 7) ≤ 52 := by
  have e : (1 + a / 128) ^ (2 ^ 7) = (-(1 + a / 128)) ^ (2 ^ 7) := (Even.neg_pow (by decide) _).symm
  have l : (33 / 32 : ℚ) ≤ -(1 + a / 128) := by linarith
  have u : -(1 + a / 128) ≤ 1032 / 1000 := by linarith
  have hm : max 1 |1 + a / 128| = -(1 + a / 128) := by
    rw [abs_of_neg (by linarith), max_eq_right (by linarith)]
  have lo : (51 : ℚ) ≤ (33 / 32) ^ (2 ^ 7) := by norm_num
  have hi : (132001 / 128000 : ℚ) ^ (2 ^ 7) ≤ 52 := by norm_num
  have h3 : (33 / 32 : ℚ) ^ (2 ^ 7) ≤ (-(1 + a / 128)) ^ (2 ^ 7) := pow_le_pow_left₀ (by norm_num) l _
  have h4 : (-(1 + a / 128)) ^ (2 ^ 7) ≤ (132001 / 128000) ^ (2 ^ 7) :=
    pow_le_pow_left₀ (by linarith) (by linarith) _
  rw [e, hm]
  exact ⟨lo.trans h3, h4.trans hi, h4.trans hi⟩

theorem near_power {a : ℚ} (h1 : -(1 / 1000) ≤ a) (h2 : a ≤ 0) :
    999 / 1000 ≤ (1 + a / 128) ^ (2 ^ 7) ∧ (1 + a / 128) ^ (2 ^ 7) ≤ 1 ∧ max 1 |1 + a / 128| ^ (2 ^ 7) ≤ 52 := by
  refine ⟨?_, pow_le_one₀ (by linarith) (by linarith), ?_⟩
  · refine le_trans ?_ (one_add_mul_le_pow (a := a / 128) (by linarith) (2 ^ 7))
    push_cast
    linarith
  · rw [abs_of_nonneg (by linarith), max_eq_left (by linarith), one_pow]
    norm_num

theorem fits_power {m : ℚ} (h : m ≤ 52) : 2 * m * (2 ^ 16 * 2 ^ 16) ≤ 2 ^ (2 ^ 6 - 2) := by
  norm_num
  linarith

/-- Two logits, 0 and -260. -/
def farLogits : T (.arith (2 ^ 6) (2 * 1)) := fun k =>
  (![0, BitVec.ofInt (2 ^ 6) (-260 * 2 ^ 16)] : Fin 2 → BitVec (2 ^ 6)) (finProdFinEquiv.symm k).1

set_option maxHeartbeats 1000000 in
/-- The range given in the documentation of `approx_type="infinity"`, all numbers, is wrong: of two
classes with the logits 0 and -260 the second gets more than nine tenths, although its softmax is below
one hundredth. -/
theorem softmax_infinity_range_false {network : Bool} {X : Shares (T (.arith (2 ^ 6) (2 * 1)))}
    (hX : Holds farLogits X) :
    (∃ p, softmaxKind .infinity network Bits.reverse64 16 27 1 2 1 X = .ok p ∧ M.All (fun o => ∃ O, o = .ok O ∧
      ∃ z : T (.arith (2 ^ 6) (2 * 1)), Holds z O ∧ 9 / 10 ≤ real 16 (z (finProdFinEquiv ((1 : Fin 2), (0 : Fin 1))))) p) ∧
    softmaxOf (fun j : Fin 2 => ((real 16 (farLogits (finProdFinEquiv (j, (0 : Fin 1)))) : ℚ) : ℝ)) 1 ≤ 1 / 100 := by
  have r0 : real 16 (farLogits (finProdFinEquiv ((0 : Fin 2), (0 : Fin 1)))) = 0 := by decide +kernel
  have r1 : real 16 (farLogits (finProdFinEquiv ((1 : Fin 2), (0 : Fin 1)))) = -260 := by decide +kernel
  have cf := asConfig_presets.1
  obtain ⟨he, he7, f13, f32, f3, f36, m63, fm, cl, mf, L1, Lf, Lm⟩ := id cf
  have hn : Classes network 2 := by
    unfold Classes
    split <;> norm_num
  have hx : ∀ i, |real 16 (farLogits i)| ≤ 2 ^ (2 ^ 6 - 5 - 2 * 16) := by decide +kernel
  constructor
  · obtain ⟨F, hF, hs⟩ := softmaxKind_sim (c := 1) cf (rev := Bits.reverse64) Bits.bit_reverse_64
      (kind := .infinity) (by decide) hn 1
    refine ⟨F X, hF X, (hs (hX.alike 0)).left ?_⟩
    rintro o o' ⟨O, O', rfl, -, z, z', ⟨mx, hm, ex, r, h1, h2, h3⟩, ho⟩
    refine ⟨O, rfl, z, ho.1, ?_⟩
    have hmx := hm (fun i => toInt_of_real (by norm_num) (hx i)) 0
    obtain ⟨hsh, hneg, i₀, hi₀, -⟩ := shift_word (by norm_num) hx 0 hmx
    have hM : real 16 (mx 0) = 0 := by
      have g0 := hneg 0
      rw [hsh 0, r0] at g0
      have e : real 16 (mx 0) = real 16 (farLogits (finProdFinEquiv (i₀, (0 : Fin 1)))) := by rw [hi₀]
      fin_cases i₀
      · rw [e]; exact r0
      · have e' := e.trans r1
        rw [e'] at g0
        norm_num at g0
    have a0 : real 16 (shiftV 16 farLogits mx (finProdFinEquiv ((0 : Fin 2), (0 : Fin 1)))) = -(1 / 2 ^ 16) := by
      rw [hsh 0, r0, hM]; norm_num
    have a1 : real 16 (shiftV 16 farLogits mx (finProdFinEquiv ((1 : Fin 2), (0 : Fin 1)))) = -260 - 1 / 2 ^ 16 := by
      rw [hsh 1, r1, hM]; norm_num
    have hp0 := near_power (a := real 16 (shiftV 16 farLogits mx (finProdFinEquiv ((0 : Fin 2), (0 : Fin 1)))))
      (by rw [a0]; norm_num) (by rw [a0]; norm_num)
    have hp1 := far_power (a := real 16 (shiftV 16 farLogits mx (finProdFinEquiv ((1 : Fin 2), (0 : Fin 1)))))
      (by rw [a1]; norm_num) (by rw [a1]; norm_num)
    have e0 := expInf_word (frac := 16) (by norm_num) (by norm_num) (by rw [a0]; norm_num) (fits_power hp0.2.2)
      (h1 (finProdFinEquiv ((0 : Fin 2), (0 : Fin 1))))
    have e1 := expInf_word (frac := 16) (by norm_num) (by norm_num) (by rw [a1]; norm_num) (fits_power hp1.2.2)
      (h1 (finProdFinEquiv ((1 : Fin 2), (0 : Fin 1))))
    have p0 := And.intro hp0.1 hp0.2.1
    have p1 := And.intro hp1.1 hp1.2.1
    clear hp0 hp1 a0 a1
    generalize (1 + real 16 (shiftV 16 farLogits mx (finProdFinEquiv ((0 : Fin 2), (0 : Fin 1)))) / 128) ^ (2 ^ 7) = P0
      at e0 p0
    generalize (1 + real 16 (shiftV 16 farLogits mx (finProdFinEquiv ((1 : Fin 2), (0 : Fin 1)))) / 128) ^ (2 ^ 7) = P1
      at e1 p1
    rw [max_eq_left p0.2] at e0
    rw [max_eq_right (by linarith [p1.1])] at e1
    have q := quotient_word (prec := 1) (b := 6) (B := 53) Bits.bit_reverse_64 (by norm_num) (by norm_num)
      (by norm_num) (by norm_num) (by norm_num) (by norm_num) (by norm_num) (by norm_num) 0 (h2 0) h3
      (E := fun i : Fin 2 => (((![P0, P1] : Fin 2 → ℚ) i : ℚ) : ℝ)) (ρ := 300 * (1 / 2 ^ 16)) (τ := 300 * (1 / 2 ^ 16))
      (by
        intro i
        fin_cases i
        · have : (0 : ℚ) < P0 := by linarith [p0.1]
          simpa using this
        · have : (0 : ℚ) < P1 := by linarith [p1.1]
          simpa using this)
      (by
        intro i
        fin_cases i
        · have : P0 ≤ 2 ^ 6 := by linarith [p0.2]
          have := (Rat.cast_le (K := ℝ)).2 this
          push_cast at this
          simpa using this
        · have : P1 ≤ 2 ^ 6 := by linarith [p1.2]
          have := (Rat.cast_le (K := ℝ)).2 this
          push_cast at this
          simpa using this)
      (by
        have : (8 / 9 : ℚ) ≤ P0 + P1 := by linarith [p0.1, p1.1]
        have := (Rat.cast_le (K := ℝ)).2 this
        push_cast at this
        simpa [Fin.sum_univ_two] using this)
      (by
        have : P0 + P1 ≤ 53 := by linarith [p0.2, p1.2]
        have := (Rat.cast_le (K := ℝ)).2 this
        push_cast at this
        simpa [Fin.sum_univ_two] using this)
      (by norm_num) (by norm_num) (by norm_num) (by norm_num)
      (by
        intro i
        fin_cases i
        · have : |real 16 (ex (finProdFinEquiv ((0 : Fin 2), (0 : Fin 1)))) - P0| ≤
              300 * (1 / 2 ^ 16) * P0 + 300 * (1 / 2 ^ 16) := e0.trans (by norm_num; linarith [p0.1])
          have := (Rat.cast_le (K := ℝ)).2 this
          push_cast at this
          exact this
        · have : |real 16 (ex (finProdFinEquiv ((1 : Fin 2), (0 : Fin 1)))) - P1| ≤
              300 * (1 / 2 ^ 16) * P1 + 300 * (1 / 2 ^ 16) := e1.trans (by norm_num)
          have := (Rat.cast_le (K := ℝ)).2 this
          push_cast at this
          exact this)
    have q1 := q.1 1
    have hR : |real 16 (z (finProdFinEquiv ((1 : Fin 2), (0 : Fin 1)))) - P1 / (P0 + P1)| ≤
        (3 * (300 * (1 / 2 ^ 16)) + 3 * (300 * (1 / 2 ^ 16)) * 2) * (P1 / (P0 + P1)) + 3 * (300 * (1 / 2 ^ 16)) +
          2 * recipErr (719 / 10000 + 1 / 2 ^ 16 * (5 * (53 : ℕ) / 4 + 3)) (2 * (1 / 2 ^ 16) * (5 * (53 : ℕ) / 4 + 3)) 1 +
          1 / 2 ^ 16 := by
      rw [Fin.sum_univ_two] at q1
      have : ((|real 16 (z (finProdFinEquiv ((1 : Fin 2), (0 : Fin 1)))) - P1 / (P0 + P1)| : ℚ) : ℝ) ≤
        (((3 * (300 * (1 / 2 ^ 16)) + 3 * (300 * (1 / 2 ^ 16)) * 2) * (P1 / (P0 + P1)) + 3 * (300 * (1 / 2 ^ 16)) +
          2 * recipErr (719 / 10000 + 1 / 2 ^ 16 * (5 * (53 : ℕ) / 4 + 3)) (2 * (1 / 2 ^ 16) * (5 * (53 : ℕ) / 4 + 3)) 1 +
          1 / 2 ^ 16 : ℚ) : ℝ) := by
        push_cast
        push_cast at q1
        exact q1
      exact_mod_cast this
    have hP : 0 < P0 + P1 := by linarith [p0.1, p1.1]
    have d0 : 98 / 100 ≤ P1 / (P0 + P1) := by
      rw [le_div_iff₀ hP]
      linarith [p0.2, p1.1]
    have d1 : P1 / (P0 + P1) ≤ 1 := by
      rw [div_le_one hP]
      linarith [p0.1]
    have h := (abs_le.1 hR).1
    simp only [recipErr] at h
    norm_num at h
    linarith
  · unfold softmaxOf
    rw [Fin.sum_univ_two]
    simp only [r0, r1]
    have h1 : Real.exp ((-260 : ℚ) : ℝ) ≤ 1 / 100 := by
      have h2 := Real.add_one_le_exp (260 : ℝ)
      have h3 : Real.exp ((-260 : ℚ) : ℝ) = (Real.exp 260)⁻¹ := by
        rw [← Real.exp_neg]
        norm_num
      rw [h3, one_div]
      exact inv_anti₀ (by norm_num) (by linarith)
    have h0 : Real.exp ((0 : ℚ) : ℝ) = 1 := by simp
    have hp := Real.exp_pos ((-260 : ℚ) : ℝ)
    rw [h0, div_le_iff₀ (by linarith)]
    linarith

/-- An unknown approximation is refused, whatever the input. -/
theorem softmax_other_raises {e : ℕ} (he : 0 < e) {network : Bool} (hn : Classes network n)
    (rev : BitVec (2 ^ e) → BitVec (2 ^ e)) (frac m prec : ℕ) (X : Shares (T (.arith (2 ^ e) (n * c)))) :
    ∃ p, softmaxKind .other network rev frac m prec n c X = .ok p ∧
      M.All (fun o => o = .error .typeError) p := by
  obtain ⟨F, f, hF, -, -⟩ := softmaxMax_sim (c := c) he hn
  refine ⟨do let mx ← F X; softmaxKindRun .other rev frac m prec X mx, ?_, ?_⟩
  · unfold softmaxKind
    rw [hF]
  · refine M.All.bind (all_of_forall (Q := fun _ => True) _ fun _ => trivial) fun mx _ => ?_
    unfold softmaxKindRun softmaxKindTail softmaxExp
    exact M.all_pure.2 rfl

/-- **C62**, secrecy: whatever the logits, each server sees the same distribution, with every
approximation and either way to find the maximum. -/
theorem softmax_kind_secrecy {e frac m L : ℕ} (cf : AsConfig e frac m L)
    {rev : BitVec (2 ^ e) → BitVec (2 ^ e)} (hrev : ∀ v, rev v = v.reverse) {kind : ExpKind}
    (hk : kind ≠ .other) {network : Bool} (hn : Classes network n) (prec : ℕ) (σ : Fin 3)
    (x x' : T (.arith (2 ^ e) (n * c))) :
    ∃ F : Shares (T (.arith (2 ^ e) (n * c))) → M (Except Err (Shares (T (.arith (2 ^ e) (n * c))))),
      (∀ X, softmaxKind kind network rev frac m prec n c X = .ok (F X)) ∧
        M.view σ (share x >>= F) = M.view σ (share x' >>= F) := by
  obtain ⟨F, hF, hs⟩ := softmaxKind_sim (c := c) cf hrev hk hn prec
  exact ⟨F, hF, hides_of_sim fun _ _ h => hs h⟩

/-- The hypotheses of the two partial theorems are met: ten classes in the default configuration. -/
example : (10 : ℕ) * ((43 : ℚ) / 10000 + 300 * (1 / 2 ^ 16)) ≤ 1 / 9 ∧ 80 * 10 ≤ 2 ^ 16 ∧
    5 * 10 * 2 ^ 16 < 4 * 2 ^ (27 - 1) ∧ Classes true 10 := by
  refine ⟨by norm_num, by norm_num, by norm_num, by unfold Classes; norm_num⟩

/-- Logits that are near enough for both: -1.5, 0 and 4. -/
example : ∀ i j : Fin 3, real 16 ((![BitVec.ofInt 64 (-98304), 0, 262144] : Fin 3 → BitVec 64) i) -
    real 16 ((![BitVec.ofInt 64 (-98304), 0, 262144] : Fin 3 → BitVec 64) j) ≤ 69 / 100 * (9 : ℕ) - 1 / 2 ^ 16 := by
  decide +kernel

end Verif.Aby3
