import Verif.Aby3.SoftmaxLemmas
import Verif.Aby3.NatExpProps

/-!
# How close the private softmax is to the real one
-/

namespace Verif.Aby3

open Verif

variable {w n c : ℕ}

attribute [local irreducible] M.All M.Sim

/-- The softmax of real numbers. -/
noncomputable def softmaxOf (q : Fin n → ℝ) (i : Fin n) : ℝ := Real.exp (q i) / ∑ j, Real.exp (q j)

/-! ## The maximum -/

/-- `m` is the largest element of column `k`. -/
def IsColMax (x : T (.arith w (n * c))) (k : Fin c) (m : BitVec w) : Prop :=
  (∃ i : Fin n, m = x (finProdFinEquiv (i, k))) ∧ ∀ i : Fin n, (x (finProdFinEquiv (i, k))).toInt ≤ m.toInt

theorem sorted_first {x y : T (.arith w (n * c))} (hn : 0 < n) (k : Fin c)
    (h : IsSorted false (column x k) (column y k)) : IsColMax x k (firstRow hn y k) := by
  obtain ⟨hp, hs⟩ := h
  obtain ⟨n, rfl⟩ := Nat.exists_eq_succ_of_ne_zero hn.ne'
  have hc : column y k = firstRow hn y k :: List.ofFn fun i : Fin n => y (finProdFinEquiv (i.succ, k)) := by
    unfold column
    rw [List.ofFn_succ]
    rfl
  rw [hc] at hp hs
  have hs' := List.pairwise_cons.1 hs
  constructor
  · have : firstRow hn y k ∈ column x k := hp.mem_iff.1 List.mem_cons_self
    rw [column, List.mem_ofFn] at this
    obtain ⟨i, hi⟩ := this
    exact ⟨i, hi.symm⟩
  · intro i
    have : x (finProdFinEquiv (i, k)) ∈ column x k := by
      rw [column, List.mem_ofFn]
      exact ⟨i, rfl⟩
    rcases List.mem_cons.1 (hp.mem_iff.2 this) with h | h
    · rw [h]
    · have := hs'.1 _ h
      simpa using this

theorem netMax_value {e : ℕ} (he : 0 < e) (hn : 2 ≤ n) {x : T (.arith (2 ^ e) (n * c))}
    (hs : ∀ i, |(x i).toInt| < 2 ^ (2 ^ e - 2)) (k : Fin c) :
    IsColMax x k (firstRow (by omega) (sortV false n c x (le_two_mul_clog hn)) k) := by
  obtain ⟨h1, h2⟩ := small_sortable he hs
  exact sorted_first (by omega) k (stages_sorted false (le_two_mul_clog hn) k h1 (.inr h2))

theorem treeMax_value {e : ℕ} (he : 0 < e) (hn : 0 < n) {x : T (.arith (2 ^ e) (n * c))}
    (hs : ∀ i, |(x i).toInt| < 2 ^ (2 ^ e - 2)) (k : Fin c) : IsColMax x k (treeMax hn x k) := by
  have h := vtree_max (List.ofFn fun i : Fin n => row i x) (by rw [ne_eq, List.ofFn_eq_nil_iff]; omega) k
    (by
      intro a ha b hb
      rw [List.mem_ofFn] at ha hb
      obtain ⟨i, rfl⟩ := ha
      obtain ⟨j, rfl⟩ := hb
      have h1 := abs_lt.1 (hs (finProdFinEquiv (i, k)))
      have h2 := abs_lt.1 (hs (finProdFinEquiv (j, k)))
      exact comparable_of_small he ⟨h1.1.le, h1.2⟩ ⟨h2.1.le, h2.2⟩)
  obtain ⟨⟨v, hv, hm⟩, hall⟩ := h
  rw [List.mem_ofFn] at hv
  obtain ⟨i, rfl⟩ := hv
  exact ⟨⟨i, hm⟩, fun j => hall _ (by rw [List.mem_ofFn]; exact ⟨j, rfl⟩)⟩

/-- **C29** (`reduce_max` along an axis with `method="network"`): the result is a sharing of the largest
elements. -/
theorem reduce_max_network_value {e : ℕ} (he : 0 < e) (hn : 2 ≤ n) {x : T (.arith (2 ^ e) (n * c))}
    {X : Shares (T (.arith (2 ^ e) (n * c)))} (hx : Holds x X) (hs : ∀ i, |(x i).toInt| < 2 ^ (2 ^ e - 2)) :
    ∃ p, ∃ m : T (.arith (2 ^ e) c), reduceMaxNet n c X = .ok p ∧ M.All (Holds m) p ∧
      ∀ k, IsColMax x k (m k) := by
  obtain ⟨F, hF, hs'⟩ := reduceMaxNet_sim (c := c) he hn
  exact ⟨F X, _, hF X, holds_of_sim (hs' (hx.alike 0)) rfl, netMax_value he hn hs⟩

/-- The maximum of one number cannot be found that way. -/
theorem reduce_max_network_one_raises (X : Shares (T (.arith w (1 * c)))) :
    reduceMaxNet 1 c X = .error .valueError := by
  unfold reduceMaxNet
  rw [dif_pos (by omega), sort_one_raises]

/-! ## The words of a column -/

theorem colSums_real {frac : ℕ} (hw : 0 < w) (x : T (.arith w (n * c))) (k : Fin c)
    (hr : |∑ i : Fin n, real frac (x (finProdFinEquiv (i, k)))| * 2 ^ frac < 2 ^ (w - 1)) :
    real frac (colSums x k) = ∑ i : Fin n, real frac (x (finProdFinEquiv (i, k))) := by
  have e : ((∑ i : Fin n, (x (finProdFinEquiv (i, k))).toInt : ℤ) : ℚ) / 2 ^ frac =
      ∑ i : Fin n, real frac (x (finProdFinEquiv (i, k))) := by
    unfold real
    rw [Int.cast_sum, Finset.sum_div]
  rw [← e]
  refine real_of_int hw ?_ (by rw [e]; exact hr)
  unfold colSums
  have : ∀ s : Finset (Fin n), ∑ i ∈ s, x (finProdFinEquiv (i, k)) =
      BitVec.ofInt w (∑ i ∈ s, (x (finProdFinEquiv (i, k))).toInt) := by
    intro s
    induction s using Finset.cons_induction with
    | empty => simp
    | cons a s ha ih =>
      rw [Finset.sum_cons, Finset.sum_cons, ih, Bits.ofInt_add, BitVec.ofInt_toInt]
  exact this _

theorem unit_word {frac : ℕ} (hw : frac + 2 ≤ w) : real frac (constWord w frac (1 / 2 ^ frac)) = 1 / 2 ^ frac := by
  have e0 : Fixed.toInt (1 / 2 ^ frac * 2 ^ frac : ℚ) = 1 := by
    rw [div_mul_cancel₀ _ (by positivity)]
    exact_mod_cast Fixed.toInt_intCast 1
  have hp : (1 : ℤ) < 2 ^ (w - 1) := one_lt_pow₀ (by norm_num) (by omega)
  unfold real constWord
  rw [e0, Bits.toInt_ofInt (by omega) (by omega) hp]
  norm_num

/-! ## The error -/

/-- From the error of the exponentials, of the reciprocal of their sum and of the products. -/
theorem softmax_core {E ex y : Fin n → ℝ} {r ρ τ η u : ℝ} (hE : ∀ i, 0 < E i) (hZ : 1 / 2 ≤ ∑ i, E i)
    (hρ0 : 0 ≤ ρ) (hρ : ρ ≤ 1 / 8) (hτ0 : 0 ≤ τ) (hτ : n * τ ≤ 1 / 8 * ∑ i, E i) (hη : 0 ≤ η)
    (hex : ∀ i, |ex i - E i| ≤ ρ * E i + τ) (hr : |1 - (∑ i, ex i) * r| ≤ η)
    (hy : ∀ i, |y i - ex i * r| ≤ u) :
    (∀ i, |y i - E i / ∑ j, E j| ≤ (3 * ρ + 3 * τ * n) * (E i / ∑ j, E j) + 3 * τ + 2 * η + u) ∧
      |∑ i, y i - 1| ≤ η + n * u := by
  set Z := ∑ i, E i with hZd
  set S := ∑ i, ex i with hSd
  have hZ0 : 0 < Z := by linarith
  have hSZ : |S - Z| ≤ ρ * Z + n * τ := by
    rw [hSd, hZd, ← Finset.sum_sub_distrib]
    refine (Finset.abs_sum_le_sum_abs _ _).trans ?_
    refine (Finset.sum_le_sum fun i _ => hex i).trans (le_of_eq ?_)
    rw [Finset.sum_add_distrib, ← Finset.mul_sum]
    simp
  have hSZ' := abs_le.1 hSZ
  have hρZ : ρ * Z ≤ 1 / 8 * Z := mul_le_mul_of_nonneg_right hρ hZ0.le
  have hS : 3 / 4 * Z ≤ S := by linarith [hSZ'.1]
  have hS0 : 0 < S := by linarith
  constructor
  · intro i
    have hEi : E i ≤ Z := Finset.single_le_sum (f := E) (fun j _ => (hE j).le) (Finset.mem_univ i)
    have hn1 : (1 : ℝ) ≤ n := by
      have : 0 < n := i.pos
      exact_mod_cast this
    have hτ1 : τ ≤ 1 / 8 * Z := by nlinarith
    set p := E i / Z with hp
    have hp0 : 0 < p := div_pos (hE i) hZ0
    have hp1 : p ≤ 1 := (div_le_one hZ0).2 hEi
    have hpZ : E i = p * Z := by rw [hp]; field_simp
    have hexi := hex i
    have a1 : |ex i - p * S| ≤ 2 * ρ * p * Z + τ * (1 + n * p) := by
      have e : ex i - p * S = (ex i - E i) - p * (S - Z) := by rw [hpZ]; ring
      rw [e]
      have t := abs_sub (ex i - E i) (p * (S - Z))
      rw [abs_mul, abs_of_pos hp0] at t
      have t2 : p * |S - Z| ≤ p * (ρ * Z + n * τ) := mul_le_mul_of_nonneg_left hSZ hp0.le
      rw [hpZ] at hexi t ⊢
      linarith
    have a2 : |ex i / S - p| ≤ 3 * ρ * p + 3 * τ * (1 + n * p) := by
      have e : ex i / S - p = (ex i - p * S) / S := by field_simp
      rw [e, abs_div, abs_of_pos hS0, div_le_iff₀ hS0]
      refine a1.trans ?_
      have b1 : 0 ≤ ρ * p := mul_nonneg hρ0 hp0.le
      have b2 : 0 ≤ τ * (1 + n * p) := by positivity
      have b3 : ρ * p * (3 / 4 * Z) ≤ ρ * p * S := mul_le_mul_of_nonneg_left hS b1
      have b4 : τ * (1 + n * p) * (3 / 8) ≤ τ * (1 + n * p) * S :=
        mul_le_mul_of_nonneg_left (by linarith) b2
      linarith [mul_nonneg b1 hZ0.le]
    have a3 : |ex i * r - ex i / S| ≤ 2 * η := by
      have e : ex i * r - ex i / S = ex i / S * (S * r - 1) := by field_simp
      rw [e, abs_mul, abs_div, abs_of_pos hS0, abs_sub_comm]
      have b1 : |ex i| ≤ 2 * S := by
        have t := abs_add_le (ex i - E i) (E i)
        rw [sub_add_cancel, abs_of_pos (hE i)] at t
        have : ρ * E i ≤ 1 / 8 * Z := (mul_le_mul hρ hEi (hE i).le (by norm_num))
        linarith
      exact mul_le_mul ((div_le_iff₀ hS0).2 b1) hr (abs_nonneg _) (by norm_num)
    have t1 := abs_add_le (y i - ex i * r) (ex i * r - p)
    have t2 := abs_add_le (ex i * r - ex i / S) (ex i / S - p)
    rw [sub_add_sub_cancel] at t1 t2
    have := hy i
    linarith
  · have e : ∑ i, y i - 1 = ∑ i, (y i - ex i * r) - (1 - S * r) := by
      rw [Finset.sum_sub_distrib, ← Finset.sum_mul]
      ring
    rw [e]
    have t := abs_sub (∑ i, (y i - ex i * r)) (1 - S * r)
    have t2 : |∑ i, (y i - ex i * r)| ≤ n * u := by
      refine (Finset.abs_sum_le_sum_abs _ _).trans ((Finset.sum_le_sum fun i _ => hy i).trans (le_of_eq ?_))
      simp
    linarith

theorem recipErr_le {E δ : ℚ} (hE0 : 0 ≤ E) (hE : E ≤ 1 / 5) (hδ0 : 0 ≤ δ) (hδ : δ ≤ 1 / 8) (k : ℕ) :
    0 ≤ recipErr E δ k ∧ recipErr E δ k ≤ 1 / 5 := by
  induction k generalizing E with
  | zero => exact ⟨hE0, hE⟩
  | succ k ih =>
    refine ih (by positivity) ?_
    have : E ^ 5 ≤ (1 / 5) ^ 5 := pow_le_pow_left₀ hE0 hE 5
    norm_num at this
    linarith

theorem recipErr_mono {E E' δ δ' : ℚ} (hE0 : 0 ≤ E) (hE : E ≤ E') (hδ0 : 0 ≤ δ) (hδ : δ ≤ δ') (k : ℕ) :
    recipErr E δ k ≤ recipErr E' δ' k := by
  induction k generalizing E E' with
  | zero => exact hE
  | succ k ih => exact ih (by positivity) (add_le_add (pow_le_pow_left₀ hE0 hE 5) hδ)

set_option maxHeartbeats 1000000 in
/-- The quotients of a column: if the entries of `ex` are close to positive numbers, the results are close
to those numbers divided by their sum. -/
theorem quotient_word {frac m prec b B : ℕ} {rev : BitVec w → BitVec w} (hrev : ∀ v, rev v = v.reverse)
    (h13 : 13 ≤ frac) (hw : 2 * frac + 5 + b ≤ w) (hf3 : 3 * frac + 3 ≤ w) (h0 : 0 < m) (hm : m ≤ w)
    (hmf : m < 2 * frac) (h80 : 80 * B ≤ 2 ^ frac) (hnm : 5 * B * 2 ^ frac < 4 * 2 ^ (m - 1))
    {ex z : T (.arith w (n * c))} {r : T (.arith w c)} (k : Fin c)
    (h2 : RecipPosVal rev frac m prec (colSums ex k) (r k))
    (h3 : ∀ k, TruncOk .heuristic frac (ex k * r (finProdFinEquiv.symm k).2) (z k))
    {E : Fin n → ℝ} {ρ τ : ℝ} (hE : ∀ i, 0 < E i) (hE1 : ∀ i, E i ≤ 2 ^ b) (hZ : 8 / 9 ≤ ∑ i, E i)
    (hZn : ∑ i, E i ≤ B) (hρ0 : 0 ≤ ρ) (hρ : ρ ≤ 1 / 8) (hτ0 : 0 ≤ τ) (hτ : n * τ ≤ 1 / 9)
    (hexp : ∀ i : Fin n, |((real frac (ex (finProdFinEquiv (i, k))) : ℚ) : ℝ) - E i| ≤ ρ * E i + τ) :
    (∀ i : Fin n, |((real frac (z (finProdFinEquiv (i, k))) : ℚ) : ℝ) - E i / ∑ j, E j| ≤
      (3 * ρ + 3 * τ * n) * (E i / ∑ j, E j) + 3 * τ +
        2 * (recipErr (719 / 10000 + 1 / 2 ^ frac * (5 * B / 4 + 3)) (2 * (1 / 2 ^ frac) * (5 * B / 4 + 3)) prec : ℚ) +
        1 / 2 ^ frac) ∧
    |∑ i : Fin n, ((real frac (z (finProdFinEquiv (i, k))) : ℚ) : ℝ) - 1| ≤
      (recipErr (719 / 10000 + 1 / 2 ^ frac * (5 * B / 4 + 3)) (2 * (1 / 2 ^ frac) * (5 * B / 4 + 3)) prec : ℚ) +
        n * (1 / 2 ^ frac) := by
  have hN : (0 : ℚ) < 2 ^ frac := by positivity
  have hu : (1 : ℚ) / 2 ^ frac ≤ 1 / 8192 := by
    rw [show (8192 : ℚ) = 2 ^ 13 by norm_num]
    exact div_le_div_of_nonneg_left (by norm_num) (by norm_num) (pow_le_pow_right₀ (by norm_num) h13)
  have hu0 : (0 : ℚ) < 1 / 2 ^ frac := by positivity
  have hnu : (B : ℚ) * (1 / 2 ^ frac) ≤ 1 / 80 := by
    have : (80 : ℚ) * B ≤ 2 ^ frac := by exact_mod_cast h80
    rw [mul_one_div, div_le_iff₀ hN]
    linarith
  have hsum : |(∑ i : Fin n, ((real frac (ex (finProdFinEquiv (i, k))) : ℚ) : ℝ)) - ∑ i, E i| ≤
      1 / 4 * ∑ i, E i := by
    rw [← Finset.sum_sub_distrib]
    refine (Finset.abs_sum_le_sum_abs _ _).trans ((Finset.sum_le_sum fun i _ => hexp i).trans ?_)
    rw [Finset.sum_add_distrib, ← Finset.mul_sum]
    simp only [Finset.sum_const, Finset.card_univ, Fintype.card_fin, nsmul_eq_mul]
    have : ρ * ∑ i, E i ≤ 1 / 8 * ∑ i, E i := mul_le_mul_of_nonneg_right hρ (by linarith)
    linarith
  have hsum' := abs_le.1 hsum
  -- the reciprocal
  set S : ℚ := ∑ i : Fin n, real frac (ex (finProdFinEquiv (i, k))) with hS
  have hSc : (∑ i : Fin n, ((real frac (ex (finProdFinEquiv (i, k))) : ℚ) : ℝ)) = (S : ℝ) := by
    rw [hS]; push_cast; rfl
  rw [hSc] at hsum'
  have hS1 : 3 / 8 ≤ S := by
    have : ((3 / 8 : ℚ) : ℝ) ≤ S := by push_cast; linarith [hsum'.1]
    exact_mod_cast this
  have hS2 : S ≤ 5 * B / 4 := by
    have : (S : ℝ) ≤ ((5 * B / 4 : ℚ) : ℝ) := by push_cast; linarith [hsum'.2]
    exact_mod_cast this
  have hnm' : 5 * (B : ℚ) * 2 ^ frac < 4 * 2 ^ (m - 1) := by exact_mod_cast hnm
  have hSm : S * 2 ^ frac < 2 ^ (m - 1) := by
    have := mul_le_mul_of_nonneg_right hS2 hN.le
    linarith
  have hmw : (2 : ℚ) ^ (m - 1) ≤ 2 ^ (w - 1) := pow_le_pow_right₀ (by norm_num) (by omega)
  have hSw : real frac (colSums ex k) = S := by
    refine colSums_real (by omega) ex k ?_
    rw [← hS, abs_of_pos (by linarith)]
    exact hSm.trans_le hmw
  have hSi : ((colSums ex k).toInt : ℚ) = S * 2 ^ frac := by
    rw [← hSw, real, div_mul_cancel₀ _ hN.ne']
  have hpos : 0 < (colSums ex k).toInt := by
    have : (0 : ℚ) < (colSums ex k).toInt := by rw [hSi]; positivity
    exact_mod_cast this
  have hnat : ((colSums ex k).toNat : ℤ) = (colSums ex k).toInt := by
    have h := BitVec.toInt_eq_toNat_cond (colSums ex k)
    have := (colSums ex k).isLt
    split at h <;> omega
  have hlt : ((colSums ex k).toNat : ℤ) < 2 ^ (m - 1) := by
    have : (((colSums ex k).toNat : ℤ) : ℚ) < ((2 ^ (m - 1) : ℤ) : ℚ) := by
      rw [hnat, hSi]; push_cast; exact hSm
    exact_mod_cast this
  have hδ : 2 * (1 / 2 ^ frac) * (5 * (B : ℚ) / 4 + 3) ≤ 1 / 8 := by linarith
  have hδS : 2 * (1 / 2 ^ frac) * (S + 3) ≤ 2 * (1 / 2 ^ frac) * (5 * (B : ℚ) / 4 + 3) :=
    mul_le_mul_of_nonneg_left (by linarith) (by positivity)
  have hrec := recipPos_word hrev h0 hm hmf hf3 ⟨by omega, by exact_mod_cast hlt⟩ (by
    rw [hSw]; exact hδS.trans hδ) h2
  rw [hSw] at hrec
  set η : ℚ := recipErr (719 / 10000 + 1 / 2 ^ frac * (5 * B / 4 + 3)) (2 * (1 / 2 ^ frac) * (5 * B / 4 + 3)) prec
    with hη
  have hη' : |1 - S * real frac (r k)| ≤ η := by
    refine hrec.trans (recipErr_mono ?_ ?_ ?_ hδS prec)
    · positivity
    · have := mul_le_mul_of_nonneg_left (show S + 3 ≤ 5 * (B : ℚ) / 4 + 3 by linarith) hu0.le
      linarith
    · positivity
  have hη0 := (abs_nonneg _).trans hη'
  have hη5 : η ≤ 1 / 5 := (recipErr_le (by positivity) (by linarith) (by positivity) hδ prec).2
  -- the products
  have hEs : ∀ i, |real frac (ex (finProdFinEquiv (i, k)))| ≤ 5 / 4 * 2 ^ b := by
    intro i
    have h := hexp i
    have t := abs_add_le (((real frac (ex (finProdFinEquiv (i, k))) : ℚ) : ℝ) - E i) (E i)
    rw [sub_add_cancel, abs_of_pos (hE i)] at t
    have h2 : ρ * E i ≤ 1 / 8 * 2 ^ b := mul_le_mul hρ (hE1 i) (hE i).le (by norm_num)
    have h3 : τ ≤ 1 / 9 := by
      have hn1 : (1 : ℝ) ≤ n := by
        have : 0 < n := i.pos
        exact_mod_cast this
      have := mul_le_mul_of_nonneg_right hn1 hτ0
      linarith
    have h4 : (1 : ℝ) ≤ 2 ^ b := one_le_pow₀ (by norm_num)
    have : |((real frac (ex (finProdFinEquiv (i, k))) : ℚ) : ℝ)| ≤ ((5 / 4 * 2 ^ b : ℚ) : ℝ) := by
      push_cast
      have := hE1 i
      linarith
    exact_mod_cast this
  have hr4 : |real frac (r k)| ≤ 16 / 5 := by
    have t := abs_sub (1 : ℚ) (1 - S * real frac (r k))
    rw [sub_sub_cancel, abs_one, abs_mul, abs_of_pos (show (0 : ℚ) < S by linarith)] at t
    have : 3 / 8 * |real frac (r k)| ≤ S * |real frac (r k)| :=
      mul_le_mul_of_nonneg_right hS1 (abs_nonneg _)
    linarith
  have hz : ∀ i : Fin n, |real frac (z (finProdFinEquiv (i, k))) -
      real frac (ex (finProdFinEquiv (i, k))) * real frac (r k)| ≤ 1 / 2 ^ frac := by
    intro i
    have ht := h3 (finProdFinEquiv (i, k))
    simp only [Equiv.symm_apply_apply] at ht
    refine mul_real (by omega) ?_ ht
    rw [abs_mul]
    have b1 : |real frac (ex (finProdFinEquiv (i, k)))| * |real frac (r k)| ≤ 4 * 2 ^ b :=
      (mul_le_mul (hEs i) hr4 (abs_nonneg _) (by positivity)).trans (le_of_eq (by ring))
    calc _ ≤ (4 * 2 ^ b : ℚ) * (2 ^ frac * 2 ^ frac) := mul_le_mul_of_nonneg_right b1 (by positivity)
      _ = 2 ^ (2 * frac + 2 + b) := by rw [pow_add, pow_add, two_mul, pow_add]; ring
      _ < 2 ^ (w - 2) := pow_lt_pow_right₀ (by norm_num) (by omega)
  exact softmax_core (E := E)
    (ex := fun i => ((real frac (ex (finProdFinEquiv (i, k))) : ℚ) : ℝ))
    (y := fun i => ((real frac (z (finProdFinEquiv (i, k))) : ℚ) : ℝ)) (r := ((real frac (r k) : ℚ) : ℝ))
    (ρ := ρ) (τ := τ) (η := (η : ℚ)) (u := 1 / 2 ^ frac)
    hE (by linarith) hρ0 hρ hτ0 (by linarith)
    (by exact_mod_cast hη0) hexp (by rw [hSc]; exact_mod_cast hη') (fun i => by
      have h := (Rat.cast_le (K := ℝ)).2 (hz i)
      push_cast at h
      exact h)

/-- The shifted numbers of a column: not above minus one unit, which is reached. -/
theorem shift_word {frac : ℕ} (hw : 2 * frac + 5 ≤ w) {x : T (.arith w (n * c))} {mx : T (.arith w c)}
    (hx : ∀ i, |real frac (x i)| ≤ 2 ^ (w - 5 - 2 * frac)) (k : Fin c) (hmx : IsColMax x k (mx k)) :
    (∀ i : Fin n, real frac (shiftV frac x mx (finProdFinEquiv (i, k))) =
      real frac (x (finProdFinEquiv (i, k))) - real frac (mx k) - 1 / 2 ^ frac) ∧
    (∀ i : Fin n, real frac (shiftV frac x mx (finProdFinEquiv (i, k))) ≤ -(1 / 2 ^ frac)) ∧
    ∃ i₀ : Fin n, mx k = x (finProdFinEquiv (i₀, k)) ∧
      real frac (shiftV frac x mx (finProdFinEquiv (i₀, k))) = -(1 / 2 ^ frac) := by
  obtain ⟨⟨i₀, hi₀⟩, hmax⟩ := hmx
  have hN : (0 : ℚ) < 2 ^ frac := by positivity
  have hu1 : (1 : ℚ) / 2 ^ frac ≤ 1 := (div_le_one hN).2 (one_le_pow₀ (by norm_num))
  have hu0 : (0 : ℚ) < 1 / 2 ^ frac := by positivity
  have hB : (2 : ℚ) ^ (w - 3 - 2 * frac) = 4 * 2 ^ (w - 5 - 2 * frac) := by
    rw [show w - 3 - 2 * frac = (w - 5 - 2 * frac) + 2 by omega, pow_add]; ring
  have hB1 : (1 : ℚ) ≤ 2 ^ (w - 5 - 2 * frac) := one_le_pow₀ (by norm_num)
  have hBw : (2 : ℚ) ^ (w - 3 - 2 * frac) * 2 ^ frac < 2 ^ (w - 1) := by
    rw [← pow_add]; exact pow_lt_pow_right₀ (by norm_num) (by omega)
  have hmxr : real frac (mx k) = real frac (x (finProdFinEquiv (i₀, k))) := by rw [hi₀]
  have hshift : ∀ i : Fin n, real frac (shiftV frac x mx (finProdFinEquiv (i, k))) =
      real frac (x (finProdFinEquiv (i, k))) - real frac (mx k) - 1 / 2 ^ frac := by
    intro i
    have b1 := abs_le.1 (hx (finProdFinEquiv (i, k)))
    have b2 := abs_le.1 (hx (finProdFinEquiv (i₀, k)))
    have e1 : real frac (x (finProdFinEquiv (i, k)) - mx k) =
        real frac (x (finProdFinEquiv (i, k))) - real frac (mx k) := by
      refine sub_real (by omega) (lt_of_le_of_lt (mul_le_mul_of_nonneg_right ?_ hN.le) hBw)
      rw [hmxr, hB, abs_le]
      constructor <;> linarith
    unfold shiftV
    simp only [Equiv.symm_apply_apply]
    rw [sub_real (by omega), e1, unit_word (by omega)]
    rw [e1, unit_word (by omega)]
    refine lt_of_le_of_lt (mul_le_mul_of_nonneg_right ?_ hN.le) hBw
    rw [hmxr, hB, abs_le]
    constructor <;> linarith
  refine ⟨hshift, fun i => ?_, i₀, hi₀, ?_⟩
  · have := hmax i
    have h : real frac (x (finProdFinEquiv (i, k))) ≤ real frac (mx k) := by
      unfold real
      refine div_le_div_of_nonneg_right ?_ hN.le
      exact_mod_cast this
    rw [hshift]
    linarith
  · rw [hshift, hmxr]
    ring

theorem exp_mul_le (a : ℝ) : Real.exp a * (1 + -a) ≤ 1 := by
  have := Real.add_one_le_exp (-a)
  calc _ ≤ Real.exp a * Real.exp (-a) := mul_le_mul_of_nonneg_left (by linarith) (Real.exp_pos _).le
    _ = 1 := by rw [← Real.exp_add]; simp

/-- A column of the result, for exponentials with a given error: every entry is close to the softmax of
the column, and they add up to about one. -/
theorem softmax_word_of {frac m prec : ℕ} {rev : BitVec w → BitVec w} (hrev : ∀ v, rev v = v.reverse)
    (h13 : 13 ≤ frac) (hw : 2 * frac + 5 ≤ w)
    (hf3 : 3 * frac + 3 ≤ w) (h0 : 0 < m) (hm : m ≤ w) (hmf : m < 2 * frac)
    (h80 : 80 * n ≤ 2 ^ frac) (hnm : 5 * n * 2 ^ frac < 4 * 2 ^ (m - 1))
    {x ex z : T (.arith w (n * c))} {mx r : T (.arith w c)}
    (hx : ∀ i, |real frac (x i)| ≤ 2 ^ (w - 5 - 2 * frac)) (k : Fin c) (hmx : IsColMax x k (mx k))
    (h2 : RecipPosVal rev frac m prec (colSums ex k) (r k))
    (h3 : ∀ k, TruncOk .heuristic frac (ex k * r (finProdFinEquiv.symm k).2) (z k))
    {ρ τ : ℝ} (hρ0 : 0 ≤ ρ) (hρ : ρ ≤ 1 / 8) (hτ0 : 0 ≤ τ) (hτ : n * τ ≤ 1 / 9)
    (hexp : ∀ i : Fin n, |((real frac (ex (finProdFinEquiv (i, k))) : ℚ) : ℝ) -
        Real.exp (real frac (shiftV frac x mx (finProdFinEquiv (i, k))) : ℚ)| ≤
      ρ * Real.exp (real frac (shiftV frac x mx (finProdFinEquiv (i, k))) : ℚ) + τ) :
    (∀ i : Fin n, |((real frac (z (finProdFinEquiv (i, k))) : ℚ) : ℝ) -
        softmaxOf (fun j => ((real frac (x (finProdFinEquiv (j, k))) : ℚ) : ℝ)) i| ≤
      (3 * ρ + 3 * τ * n) * softmaxOf (fun j => ((real frac (x (finProdFinEquiv (j, k))) : ℚ) : ℝ)) i + 3 * τ +
        2 * (recipErr (719 / 10000 + 1 / 2 ^ frac * (5 * n / 4 + 3)) (2 * (1 / 2 ^ frac) * (5 * n / 4 + 3)) prec : ℚ) +
        1 / 2 ^ frac) ∧
    |((∑ i : Fin n, real frac (z (finProdFinEquiv (i, k))) : ℚ) : ℝ) - 1| ≤
      (recipErr (719 / 10000 + 1 / 2 ^ frac * (5 * n / 4 + 3)) (2 * (1 / 2 ^ frac) * (5 * n / 4 + 3)) prec : ℚ) +
        n / 2 ^ frac := by
  obtain ⟨hshift, hneg, i₀, -, hmost⟩ := shift_word hw hx k hmx
  have hu0 : (0 : ℚ) < 1 / 2 ^ frac := by positivity
  have huR : (1 : ℝ) / 2 ^ frac ≤ 1 / 9 := by
    have : (1 : ℝ) / 2 ^ frac ≤ 1 / 2 ^ 13 :=
      div_le_div_of_nonneg_left (by norm_num) (by norm_num) (pow_le_pow_right₀ (by norm_num) h13)
    norm_num at this ⊢
    linarith
  set a : Fin n → ℚ := fun i => real frac (shiftV frac x mx (finProdFinEquiv (i, k))) with ha
  have hE1 : ∀ i, Real.exp (a i : ℚ) ≤ 1 := fun i => by
    rw [← Real.exp_zero]
    exact Real.exp_le_exp.2 (by exact_mod_cast (hneg i).trans (by linarith))
  have hZ : (8 : ℝ) / 9 ≤ ∑ i, Real.exp (a i : ℚ) := by
    have k1 : Real.exp (a i₀ : ℚ) ≤ ∑ i, Real.exp (a i : ℚ) :=
      Finset.single_le_sum (f := fun i => Real.exp (a i : ℚ)) (fun j _ => (Real.exp_pos _).le) (Finset.mem_univ i₀)
    have k2 := Real.add_one_le_exp ((a i₀ : ℚ) : ℝ)
    have k3 : a i₀ = -(1 / 2 ^ frac) := hmost
    rw [k3] at k1 k2
    push_cast at k1 k2
    linarith
  have hZn : ∑ i, Real.exp (a i : ℚ) ≤ n := by
    calc _ ≤ ∑ _i : Fin n, (1 : ℝ) := Finset.sum_le_sum fun i _ => hE1 i
      _ = n := by simp
  have hcore := quotient_word (b := 0) (prec := prec) hrev h13 hw hf3 h0 hm hmf h80 hnm k h2 h3
    (E := fun i => Real.exp (a i : ℚ)) (fun i => Real.exp_pos _) (fun i => by simpa using hE1 i) hZ hZn hρ0 hρ
    hτ0 hτ hexp
  have hsm : ∀ i, Real.exp (a i : ℚ) / ∑ j, Real.exp (a j : ℚ) =
      softmaxOf (fun j => ((real frac (x (finProdFinEquiv (j, k))) : ℚ) : ℝ)) i := by
    intro i
    have e : ∀ j, Real.exp (a j : ℚ) = Real.exp (real frac (x (finProdFinEquiv (j, k))) : ℚ) *
        Real.exp (-((real frac (mx k) : ℚ) : ℝ) - 1 / 2 ^ frac) := by
      intro j
      rw [← Real.exp_add]
      congr 1
      simp only [ha, hshift]
      push_cast
      ring
    unfold softmaxOf
    simp only [e]
    rw [← Finset.sum_mul, mul_div_mul_right _ _ (Real.exp_pos _).ne']
  constructor
  · intro i
    have h := hcore.1 i
    simp only [hsm] at h
    exact h
  · have h := hcore.2
    push_cast
    refine h.trans (le_of_eq ?_)
    ring

/-- A column of the result: every entry is close to the softmax of the column, and they add up to about
one. -/
theorem softmax_word {frac m prec : ℕ} {rev : BitVec w → BitVec w} (hrev : ∀ v, rev v = v.reverse)
    (h13 : 13 ≤ frac) (h32 : frac ≤ 32) (hw : 2 * frac + 5 ≤ w) (hw32 : frac + 36 ≤ w)
    (hf3 : 3 * frac + 3 ≤ w) (h0 : 0 < m) (hm : m ≤ w) (hmf : m < 2 * frac)
    (h80 : 80 * n ≤ 2 ^ frac) (hnm : 5 * n * 2 ^ frac < 4 * 2 ^ (m - 1))
    {x z : T (.arith w (n * c))} {mx : T (.arith w c)}
    (hx : ∀ i, |real frac (x i)| ≤ 2 ^ (w - 5 - 2 * frac)) (h : SoftmaxVal rev frac m prec x mx z)
    (k : Fin c) (hmx : IsColMax x k (mx k)) :
    (∀ i : Fin n, |((real frac (z (finProdFinEquiv (i, k))) : ℚ) : ℝ) -
        softmaxOf (fun j => ((real frac (x (finProdFinEquiv (j, k))) : ℚ) : ℝ)) i| ≤
      (3 * (2 / 10 ^ 4 + (padeErr frac : ℚ)) + 15 * n / 2 ^ frac) *
          softmaxOf (fun j => ((real frac (x (finProdFinEquiv (j, k))) : ℚ) : ℝ)) i + 16 / 2 ^ frac +
        2 * (recipErr (719 / 10000 + 1 / 2 ^ frac * (5 * n / 4 + 3)) (2 * (1 / 2 ^ frac) * (5 * n / 4 + 3)) prec : ℚ)) ∧
    |((∑ i : Fin n, real frac (z (finProdFinEquiv (i, k))) : ℚ) : ℝ) - 1| ≤
      (recipErr (719 / 10000 + 1 / 2 ^ frac * (5 * n / 4 + 3)) (2 * (1 / 2 ^ frac) * (5 * n / 4 + 3)) prec : ℚ) +
        n / 2 ^ frac := by
  obtain ⟨ex, r, h1, h2, h3⟩ := h
  obtain ⟨hshift, hneg, i₀, hi₀, -⟩ := shift_word hw hx k hmx
  have hN : (0 : ℚ) < 2 ^ frac := by positivity
  have hu : (1 : ℚ) / 2 ^ frac ≤ 1 / 8192 := by
    rw [show (8192 : ℚ) = 2 ^ 13 by norm_num]
    exact div_le_div_of_nonneg_left (by norm_num) (by norm_num) (pow_le_pow_right₀ (by norm_num) h13)
  have hu0 : (0 : ℚ) < 1 / 2 ^ frac := by positivity
  have hnu : (n : ℝ) * (1 / 2 ^ frac) ≤ 1 / 80 := by
    have : (80 : ℝ) * n ≤ 2 ^ frac := by exact_mod_cast h80
    rw [mul_one_div, div_le_iff₀ (by positivity)]
    linarith
  have hB : (2 : ℚ) ^ (w - 3 - 2 * frac) = 4 * 2 ^ (w - 5 - 2 * frac) := by
    rw [show w - 3 - 2 * frac = (w - 5 - 2 * frac) + 2 by omega, pow_add]; ring
  have hB1 : (1 : ℚ) ≤ 2 ^ (w - 5 - 2 * frac) := one_le_pow₀ (by norm_num)
  have hexp : ∀ i : Fin n, |((real frac (ex (finProdFinEquiv (i, k))) : ℚ) : ℝ) -
        Real.exp (real frac (shiftV frac x mx (finProdFinEquiv (i, k))) : ℚ)| ≤
      (2 / 10 ^ 4 + (padeErr frac : ℚ)) *
        Real.exp (real frac (shiftV frac x mx (finProdFinEquiv (i, k))) : ℚ) + 5 * (1 / 2 ^ frac) := by
    intro i
    set a := real frac (shiftV frac x mx (finProdFinEquiv (i, k))) with ha
    have ha0 : a < 0 := lt_of_le_of_lt (hneg i) (by linarith)
    have h := natExp_word h13 h32 hw hw32 h1 (finProdFinEquiv (i, k)) (by
        rw [← ha, hB, abs_le]
        have b1 := abs_le.1 (hx (finProdFinEquiv (i, k)))
        have b2 := abs_le.1 (hx (finProdFinEquiv (i₀, k)))
        have b3 := hshift i
        rw [← ha, hi₀] at b3
        constructor <;> linarith) (by rw [← ha]; linarith) (fun _ => by decide)
      (fun hc => by
        rw [← ha] at hc
        exact absurd ha0 (not_lt.2 hc))
    rw [← ha] at h
    refine h.trans ?_
    have ha0' : ((a : ℚ) : ℝ) < 0 := by exact_mod_cast ha0
    rw [abs_of_neg ha0']
    have k1 := exp_mul_le ((a : ℚ) : ℝ)
    have k2 : (0 : ℝ) < 1 / 2 ^ frac := by positivity
    have k3 := mul_le_mul_of_nonneg_left k1 (show (0 : ℝ) ≤ 3 * (1 / 2 ^ frac) by positivity)
    linarith
  have hpe0 := padeErr_nonneg frac
  have hpe : padeErr frac ≤ 1 / 64 := by
    have hD := usedDegree_le frac
    have hD' : (usedDegree frac : ℚ) ≤ 8 := by exact_mod_cast (show usedDegree frac ≤ 8 by omega)
    have hDD : (usedDegree frac : ℚ) * usedDegree frac ≤ 64 := by nlinarith [Nat.cast_nonneg (α := ℚ) (usedDegree frac)]
    unfold padeErr
    have : 2 * ((usedDegree frac : ℚ) * usedDegree frac) / 2 ^ frac =
      2 * ((usedDegree frac : ℚ) * usedDegree frac) * (1 / 2 ^ frac) := by ring
    rw [this]
    calc _ ≤ 2 * 64 * (1 / 8192 : ℚ) := mul_le_mul (by linarith) hu hu0.le (by norm_num)
      _ = _ := by norm_num
  have hpe0' : (0 : ℝ) ≤ (padeErr frac : ℚ) := by exact_mod_cast hpe0
  have hpe' : ((padeErr frac : ℚ) : ℝ) ≤ 1 / 64 := by
    have h := (Rat.cast_le (K := ℝ)).2 hpe
    push_cast at h
    exact h
  have hcore := softmax_word_of (prec := prec) hrev h13 hw hf3 h0 hm hmf h80 hnm hx k hmx (h2 k) h3
    (ρ := 2 / 10 ^ 4 + (padeErr frac : ℚ)) (τ := 5 * (1 / 2 ^ frac)) (by positivity) (by norm_num; linarith)
    (by positivity) (by linarith) hexp
  refine ⟨fun i => (hcore.1 i).trans (le_of_eq ?_), hcore.2⟩
  ring

/-! ## The theorems -/

/-- What is promised of the columns of a softmax: every entry within the given multiple of its value
plus `a` of the softmax of the column, and a sum within `s` of one. -/
def SoftmaxClose (frac : ℕ) (r a s : ℝ) (x z : T (.arith w (n * c))) : Prop :=
  ∀ k : Fin c,
    (∀ i : Fin n, |((real frac (z (finProdFinEquiv (i, k))) : ℚ) : ℝ) -
        softmaxOf (fun j => ((real frac (x (finProdFinEquiv (j, k))) : ℚ) : ℝ)) i| ≤
      r * softmaxOf (fun j => ((real frac (x (finProdFinEquiv (j, k))) : ℚ) : ℝ)) i + a) ∧
    |((∑ i : Fin n, real frac (z (finProdFinEquiv (i, k))) : ℚ) : ℝ) - 1| ≤ s

/-- The error of the reciprocal of the sum of `n` exponentials. -/
def normErr (frac n prec : ℕ) : ℚ :=
  recipErr (719 / 10000 + 1 / 2 ^ frac * (5 * n / 4 + 3)) (2 * (1 / 2 ^ frac) * (5 * n / 4 + 3)) prec

theorem softmaxVal_close {frac m prec : ℕ} {rev : BitVec w → BitVec w} (hrev : ∀ v, rev v = v.reverse)
    (h13 : 13 ≤ frac) (h32 : frac ≤ 32) (hw : 2 * frac + 5 ≤ w) (hw32 : frac + 36 ≤ w)
    (hf3 : 3 * frac + 3 ≤ w) (h0 : 0 < m) (hm : m ≤ w) (hmf : m < 2 * frac)
    (h80 : 80 * n ≤ 2 ^ frac) (hnm : 5 * n * 2 ^ frac < 4 * 2 ^ (m - 1))
    {x z : T (.arith w (n * c))} {mx : T (.arith w c)}
    (hx : ∀ i, |real frac (x i)| ≤ 2 ^ (w - 5 - 2 * frac)) (h : SoftmaxVal rev frac m prec x mx z)
    (hmx : ∀ k, IsColMax x k (mx k)) :
    SoftmaxClose frac (3 * (2 / 10 ^ 4 + (padeErr frac : ℚ)) + 15 * n / 2 ^ frac)
      (16 / 2 ^ frac + 2 * (normErr frac n prec : ℚ)) ((normErr frac n prec : ℚ) + n / 2 ^ frac) x z := by
  intro k
  have h := softmax_word hrev h13 h32 hw hw32 hf3 h0 hm hmf h80 hnm hx h k (hmx k)
  exact ⟨fun i => (h.1 i).trans (le_of_eq (by unfold normErr; ring)), h.2⟩

theorem degree_ne_zero {frac : ℕ} (h13 : 13 ≤ frac) : padeDegree frac ≠ 0 := by
  have := usedDegree_ge h13
  unfold usedDegree at this
  omega

/-- **C62**: the private softmax. For every number of classes from two up to the bound, every number of
columns, all inputs of moderate size and every randomness the computation succeeds, every entry is close
to the softmax of its column and the entries of a column sum to about one. -/
theorem softmax_close {e : ℕ} {rev : BitVec (2 ^ e) → BitVec (2 ^ e)} (hrev : ∀ v, rev v = v.reverse)
    (he : 0 < e) (he7 : e ≤ 7) {frac m : ℕ} (prec : ℕ)
    (h13 : 13 ≤ frac) (h32 : frac ≤ 32) (hw : 2 * frac + 5 ≤ 2 ^ e) (hw32 : frac + 36 ≤ 2 ^ e)
    (hf3 : 3 * frac + 3 ≤ 2 ^ e) (h0 : 0 < m) (h63 : m ≤ 63) (hm : m ≤ 2 ^ e) (hmf : m < 2 * frac)
    (hn : 2 ≤ n) (h80 : 80 * n ≤ 2 ^ frac) (hnm : 5 * n * 2 ^ frac < 4 * 2 ^ (m - 1))
    {x : T (.arith (2 ^ e) (n * c))} {X : Shares (T (.arith (2 ^ e) (n * c)))} (hX : Holds x X)
    (hx : ∀ i, |real frac (x i)| ≤ 2 ^ (2 ^ e - 5 - 2 * frac)) :
    ∃ p, softmaxNet rev frac m prec n c X = .ok p ∧ M.All (fun o => ∃ O, o = .ok O ∧
      ∃ z : T (.arith (2 ^ e) (n * c)), Holds z O ∧
        SoftmaxClose frac (3 * (2 / 10 ^ 4 + (padeErr frac : ℚ)) + 15 * n / 2 ^ frac)
          (16 / 2 ^ frac + 2 * (normErr frac n prec : ℚ)) ((normErr frac n prec : ℚ) + n / 2 ^ frac) x z) p := by
  obtain ⟨F, hF, hs⟩ := softmaxNet_sim (c := c) hrev he he7 hn prec (degree_ne_zero h13) (by omega) (by omega)
    h0 h63 hm hmf
  refine ⟨F X, hF X, (hs (hX.alike 0)).left ?_⟩
  rintro o o' ⟨O, O', rfl, -, z, z', hz, -, ho⟩
  exact ⟨O, rfl, z, ho.1, softmaxVal_close hrev h13 h32 hw hw32 hf3 h0 hm hmf h80 hnm hx hz
    (netMax_value he hn fun i => toInt_of_real hw (hx i))⟩

/-- **C62** when the maximum is found with a tree of comparisons: one class is enough. -/
theorem softmax_tree_close {e : ℕ} {rev : BitVec (2 ^ e) → BitVec (2 ^ e)} (hrev : ∀ v, rev v = v.reverse)
    (he : 0 < e) (he7 : e ≤ 7) {frac m : ℕ} (prec : ℕ)
    (h13 : 13 ≤ frac) (h32 : frac ≤ 32) (hw : 2 * frac + 5 ≤ 2 ^ e) (hw32 : frac + 36 ≤ 2 ^ e)
    (hf3 : 3 * frac + 3 ≤ 2 ^ e) (h0 : 0 < m) (h63 : m ≤ 63) (hm : m ≤ 2 ^ e) (hmf : m < 2 * frac)
    (hn : 0 < n) (h80 : 80 * n ≤ 2 ^ frac) (hnm : 5 * n * 2 ^ frac < 4 * 2 ^ (m - 1))
    {x : T (.arith (2 ^ e) (n * c))} {X : Shares (T (.arith (2 ^ e) (n * c)))} (hX : Holds x X)
    (hx : ∀ i, |real frac (x i)| ≤ 2 ^ (2 ^ e - 5 - 2 * frac)) :
    ∃ p, softmaxTree rev frac m prec n c X = .ok p ∧ M.All (fun o => ∃ O, o = .ok O ∧
      ∃ z : T (.arith (2 ^ e) (n * c)), Holds z O ∧
        SoftmaxClose frac (3 * (2 / 10 ^ 4 + (padeErr frac : ℚ)) + 15 * n / 2 ^ frac)
          (16 / 2 ^ frac + 2 * (normErr frac n prec : ℚ)) ((normErr frac n prec : ℚ) + n / 2 ^ frac) x z) p := by
  obtain ⟨F, hF, hs⟩ := softmaxTree_sim (c := c) hrev he he7 hn prec (degree_ne_zero h13) (by omega) (by omega)
    h0 h63 hm hmf
  refine ⟨F X, hF X, (hs (hX.alike 0)).left ?_⟩
  rintro o o' ⟨O, O', rfl, -, z, z', hz, -, ho⟩
  exact ⟨O, rfl, z, ho.1, softmaxVal_close hrev h13 h32 hw hw32 hf3 h0 hm hmf h80 hnm hx hz
    (treeMax_value he hn fun i => toInt_of_real hw (hx i))⟩

theorem normErr_default (hn : n ≤ 819) : normErr 16 n 1 ≤ (5 * n / 2 + 7) / 2 ^ 16 := by
  have h : (n : ℚ) ≤ 819 := by exact_mod_cast hn
  have h0 : (0 : ℚ) ≤ n := Nat.cast_nonneg n
  simp only [normErr, recipErr]
  have : (719 / 10000 + 1 / 2 ^ 16 * (5 * (n : ℚ) / 4 + 3)) ^ 5 ≤ (88 / 1000) ^ 5 :=
    pow_le_pow_left₀ (by positivity) (by norm_num; linarith) 5
  norm_num at this ⊢
  linarith

/-- **C62** for the default 64-bit configuration (16 fractional bits, 27 bits for the reciprocal, one
iteration), up to 819 classes. -/
theorem softmax_default (hn : 2 ≤ n) (hn' : n ≤ 819) {x : T (.arith (2 ^ 6) (n * c))}
    {X : Shares (T (.arith (2 ^ 6) (n * c)))} (hX : Holds x X) (hx : ∀ i, |real 16 (x i)| ≤ 2 ^ 27) :
    ∃ p, softmaxNet (w := 2 ^ 6) Bits.reverse64 16 27 1 n c X = .ok p ∧ M.All (fun o => ∃ O, o = .ok O ∧
      ∃ z : T (.arith (2 ^ 6) (n * c)), Holds z O ∧
        SoftmaxClose 16 (3 / 1000 + 15 * n / 2 ^ 16) ((5 * n + 30) / 2 ^ 16) ((4 * n + 7) / 2 ^ 16) x z) p := by
  obtain ⟨p, hp, hall⟩ := softmax_close (e := 6) (rev := Bits.reverse64) Bits.bit_reverse_64 (by norm_num)
    (by norm_num) (frac := 16) (m := 27) 1 (by norm_num) (by norm_num) (by norm_num) (by norm_num)
    (by norm_num) (by norm_num) (by norm_num) (by norm_num) (by norm_num) hn (by omega) (by omega) hX hx
  refine ⟨p, hp, hall.mono ?_⟩
  rintro o ⟨O, rfl, z, hz, h⟩
  refine ⟨O, rfl, z, hz, fun k => ⟨fun i => ((h k).1 i).trans ?_, (h k).2.trans ?_⟩⟩
  · have hu : usedDegree 16 = 5 := by decide +kernel
    have herr : padeErr 16 = 50 / 65536 := by
      unfold padeErr
      rw [hu]
      norm_num
    have hne := (Rat.cast_le (K := ℝ)).2 (normErr_default hn')
    rw [herr]
    push_cast at hne ⊢
    refine add_le_add (mul_le_mul_of_nonneg_right ?_ ?_) ?_
    · norm_num
    · unfold softmaxOf
      exact div_nonneg (Real.exp_pos _).le (Finset.sum_nonneg fun _ _ => (Real.exp_pos _).le)
    · have h0 : (0 : ℝ) ≤ n := Nat.cast_nonneg n
      norm_num at hne ⊢
      linarith
  · have hne := (Rat.cast_le (K := ℝ)).2 (normErr_default hn')
    push_cast at hne
    have h0 : (0 : ℝ) ≤ n := Nat.cast_nonneg n
    norm_num at hne ⊢
    linarith

/-- The softmax of one class is one, but the default way to find the maximum raises an error for it. -/
theorem softmax_one_raises {frac m prec : ℕ} {rev : BitVec w → BitVec w} (X : Shares (T (.arith w (1 * c)))) :
    softmaxNet rev frac m prec 1 c X = .error .valueError := by
  unfold softmaxNet
  rw [reduce_max_network_one_raises]

/-- **C62**, secrecy: whatever the logits, each server sees the same distribution. -/
theorem softmax_secrecy {e : ℕ} {rev : BitVec (2 ^ e) → BitVec (2 ^ e)} (hrev : ∀ v, rev v = v.reverse)
    (he : 0 < e) (he7 : e ≤ 7) {frac m : ℕ} (prec : ℕ) (hd : padeDegree frac ≠ 0)
    (hw : 2 * frac + 2 ≤ 2 ^ e) (hw32 : frac + 34 ≤ 2 ^ e) (h0 : 0 < m) (h63 : m ≤ 63)
    (hm : m ≤ 2 ^ e) (hmf : m < 2 * frac) (hn : 2 ≤ n) (σ : Fin 3) (x x' : T (.arith (2 ^ e) (n * c))) :
    (∃ F : Shares (T (.arith (2 ^ e) (n * c))) → M (Except Err (Shares (T (.arith (2 ^ e) (n * c))))),
      (∀ X, softmaxNet rev frac m prec n c X = .ok (F X)) ∧
        M.view σ (share x >>= F) = M.view σ (share x' >>= F)) ∧
    ∃ F : Shares (T (.arith (2 ^ e) (n * c))) → M (Except Err (Shares (T (.arith (2 ^ e) (n * c))))),
      (∀ X, softmaxTree rev frac m prec n c X = .ok (F X)) ∧
        M.view σ (share x >>= F) = M.view σ (share x' >>= F) := by
  obtain ⟨F, hF, hs⟩ := softmaxNet_sim (c := c) hrev he he7 hn prec hd (by omega) (by omega) h0 h63 hm hmf
  obtain ⟨G, hG, hs'⟩ := softmaxTree_sim (c := c) hrev he he7 (show 0 < n by omega) prec hd (by omega) (by omega)
    h0 h63 hm hmf
  exact ⟨⟨F, hF, hides_of_sim fun _ _ h => hs h⟩, G, hG, hides_of_sim fun _ _ h => hs' h⟩

/-- Logits within the hypotheses: one column of three, -1.5, 0 and 22. -/
example : ∀ i : Fin 3, |real 16 ((![BitVec.ofInt 64 (-98304), 0, 1441792] : Fin 3 → BitVec 64) i)| ≤ 2 ^ 27 := by
  decide +kernel

/-- The other 64-bit and the 128-bit settings meet the hypotheses on the parameters too. -/
example : 80 * 100 ≤ 2 ^ 13 ∧ 5 * 100 * 2 ^ 13 < 4 * 2 ^ (23 - 1) ∧ 3 * 13 + 3 ≤ 2 ^ 6 ∧
    80 * 1000000 ≤ 2 ^ 32 ∧ 5 * 400000 * 2 ^ 32 < 4 * 2 ^ (52 - 1) ∧ 3 * 32 + 3 ≤ 2 ^ 7 := by decide

end Verif.Aby3
