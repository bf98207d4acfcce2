import Verif.Aby3.Poly
import Verif.Aby3.SortLemmas
import Verif.Aby3.TruncProps
import Mathlib.Algebra.Order.Field.Rat
import Mathlib.Tactic.FieldSimp
import Mathlib.Tactic.GCongr
import Mathlib.Tactic.Positivity

/-!
# Lemmas: powers, products and polynomials
-/

namespace Verif.Aby3

open Verif

variable {w n : ℕ} {σ : Fin 3}

/-- How a product of tensors with flags `sx`, `sy` is rounded. -/
def mulRounding (frac : ℕ) (sx sy : Bool) : Rounding :=
  if sx && sy then .by .heuristic frac else .exact

attribute [local irreducible] M.All M.Sim

theorem mulPlan_ok {frac : ℕ} {sx sy : Bool} (h : sx && sy → frac + frac + 2 ≤ w) :
    ∃ plan, mulPlan w frac sx sy = .ok plan := by
  unfold mulPlan
  cases hs : sx && sy
  · exact ⟨_, rfl⟩
  · rw [hs] at h
    simp only [if_true, heurPlan_ok (h rfl)]
    exact ⟨_, rfl⟩

theorem heurPlan_bound {scale a : ℕ} {p : BitVec w × BitVec w} (h : heurPlan w scale a = .ok p) :
    scale + a + 2 ≤ w := by
  unfold heurPlan at h
  split at h
  · assumption
  · cases h

/-- A rounded result in both runs. -/
def Rounded (σ : Fin 3) (r : Rounding) {s : Srt} (c c' : T s) (o o' : Shares (T s)) : Prop :=
  ∃ z z', r.Ok c z ∧ r.Ok c' z' ∧ (c = c' → z = z') ∧ Alike σ z z' o o'

theorem mulRound_sim {frac : ℕ} {sx sy : Bool} {plan : Option (BitVec w × BitVec w)}
    (hp : mulPlan w frac sx sy = .ok plan) {c c' : T (.arith w n)}
    {x x' : Shares (T (.arith w n))} (hx : Alike σ c c' x x') :
    M.Sim σ (Rounded σ (mulRounding frac sx sy) c c') (mulRound frac plan x)
      (mulRound frac plan x') := by
  unfold mulPlan at hp
  unfold mulRounding
  cases hs : sx && sy
  · rw [hs] at hp
    simp only [Bool.false_eq_true, if_false, Except.ok.injEq] at hp
    subst hp
    exact .pure ⟨c, c', rfl, rfl, id, hx⟩
  · rw [hs] at hp
    simp only [if_true] at hp
    split at hp
    · cases hp
    · rename_i p hpl
      simp only [Except.ok.injEq] at hp
      subst hp
      exact heurRun_round (heurPlan_bound hpl) hpl hx

theorem mulS_sim {frac : ℕ} {sx sy : Bool} {plan : Option (BitVec w × BitVec w)}
    (hp : mulPlan w frac sx sy = .ok plan) {c c' d d' : T (.arith w n)}
    {x x' y y' : Shares (T (.arith w n))} (hx : Alike σ c c' x x') (hy : Alike σ d d' y y') :
    M.Sim σ (Rounded σ (mulRounding frac sx sy) (fun i => c i * d i : T (.arith w n))
      (fun i => c' i * d' i : T (.arith w n))) (mulS frac plan x y) (mulS frac plan x' y') := by
  refine M.Sim.bind (bilin_sim (zs := .arith w n) (f := fun u v => emul id id u v) (bc := spreadA id)
    (fun a b c => by rw [map_add]; rfl) (fun a b c => by rw [map_add]) (fun _ _ => rfl)
    (fun v => ⟨v, rfl⟩) hx hy) fun z z' hz => ?_
  exact mulRound_sim hp hz

/-! ## Loops -/

/-- The exponents that occur: what holds of the tensors for exponent 1 and is kept by a product holds
of the result for exponent `p`. -/
theorem powLoop_sim {α : Type} {mul : α → α → M α} {R : ℕ → α → α → Prop} (P : ℕ)
    (hmul : ∀ a b x x' y y', 0 < a → 0 < b → a + b ≤ P → R a x x' → R b y y' →
      M.Sim σ (R (a + b)) (mul x y) (mul x' y')) :
    ∀ (p t r : ℕ) (res res' : Option α) (tmp tmp' : α), 0 < t → r + p * t = P → R t tmp tmp' →
      ((r = 0 ∧ 0 < p ∧ res = none ∧ res' = none) ∨
        (0 < r ∧ ∃ o o', res = some o ∧ res' = some o' ∧ R r o o')) →
      M.Sim σ (R P) (powLoop mul p res tmp) (powLoop mul p res' tmp') := by
  intro p
  induction p using Nat.strong_induction_on with
  | _ p ih =>
    intro t r res res' tmp tmp' ht hP htmp hres
    rw [powLoop, powLoop]
    by_cases hp : p = 0
    · rw [dif_pos hp, dif_pos hp]
      rcases hres with ⟨-, h, -⟩ | ⟨-, o, o', rfl, rfl, ho⟩
      · omega
      · subst hp
        refine .pure ?_
        simp only [Option.getD_some]
        have : r = P := by simpa using hP
        rwa [← this]
    · rw [dif_neg hp, dif_neg hp]
      have hdm := Nat.div_add_mod p 2
      have hpt : p * t = 2 * (p / 2) * t + p % 2 * t := by
        conv_lhs => rw [← hdm]
        rw [add_mul]
      -- the rest of the loop
      have rest : ∀ (r₂ : ℕ) (o o' : Option α), r₂ + p / 2 * (t + t) = P →
          ((r₂ = 0 ∧ 0 < p / 2 ∧ o = none ∧ o' = none) ∨
            (0 < r₂ ∧ ∃ q q', o = some q ∧ o' = some q' ∧ R r₂ q q')) →
          M.Sim σ (R P)
            (if p / 2 = 0 then powLoop mul (p / 2) o tmp
              else do let tmp ← mul tmp tmp; powLoop mul (p / 2) o tmp)
            (if p / 2 = 0 then powLoop mul (p / 2) o' tmp'
              else do let tmp ← mul tmp' tmp'; powLoop mul (p / 2) o' tmp) := by
        intro r₂ o o' h1 h2
        by_cases h0 : p / 2 = 0
        · rw [if_pos h0, if_pos h0]
          refine ih (p / 2) (by omega) t r₂ o o' tmp tmp' ht ?_ htmp h2
          rw [h0] at h1 ⊢
          simpa using h1
        · rw [if_neg h0, if_neg h0]
          have : 1 * (t + t) ≤ p / 2 * (t + t) := Nat.mul_le_mul_right _ (by omega)
          refine M.Sim.bind (hmul t t _ _ _ _ ht ht (by omega) htmp htmp) fun z z' hz => ?_
          exact ih (p / 2) (by omega) (t + t) r₂ o o' z z' (by omega) h1 hz h2
      have e2 : p / 2 * (t + t) = 2 * (p / 2) * t := by ring
      by_cases hodd : p % 2 = 1
      · rw [if_pos hodd, if_pos hodd]
        rw [hodd, one_mul] at hpt
        rcases hres with ⟨rfl, -, rfl, rfl⟩ | ⟨hr, o, o', rfl, rfl, ho⟩
        · exact M.Sim.bind (Q := fun a a' => a = some tmp ∧ a' = some tmp') (.pure ⟨rfl, rfl⟩)
            fun a a' ha => by
              obtain ⟨rfl, rfl⟩ := ha
              exact rest t _ _ (by rw [e2]; omega) (.inr ⟨ht, _, _, rfl, rfl, htmp⟩)
        · refine M.Sim.bind (hmul r t _ _ _ _ hr ht (by omega) ho htmp) fun z z' hz => ?_
          exact M.Sim.bind (Q := fun a a' => a = some z ∧ a' = some z') (.pure ⟨rfl, rfl⟩)
            fun a a' ha => by
              obtain ⟨rfl, rfl⟩ := ha
              exact rest (r + t) _ _ (by rw [e2]; omega) (.inr ⟨by omega, _, _, rfl, rfl, hz⟩)
      · rw [if_neg hodd, if_neg hodd]
        have h0 : p % 2 = 0 := by omega
        rw [h0, zero_mul, add_zero] at hpt
        refine M.Sim.bind (Q := fun a a' => a = res ∧ a' = res') (.pure ⟨rfl, rfl⟩) fun a a' ha => ?_
        obtain ⟨rfl, rfl⟩ := ha
        refine rest r _ _ (by rw [e2]; omega) (hres.imp_left ?_)
        rintro ⟨h1, -, h3, h4⟩
        exact ⟨h1, by omega, h3, h4⟩

theorem powLoop_sim' {α : Type} {mul : α → α → M α} {R : ℕ → α → α → Prop} {P : ℕ} (hP : 0 < P)
    (hmul : ∀ a b x x' y y', 0 < a → 0 < b → a + b ≤ P → R a x x' → R b y y' →
      M.Sim σ (R (a + b)) (mul x y) (mul x' y')) {x x' : α} (hx : R 1 x x') :
    M.Sim σ (R P) (powLoop mul P none x) (powLoop mul P none x') :=
  powLoop_sim P hmul P 1 0 none none x x' one_pos (by omega) hx (.inl ⟨rfl, hP, rfl, rfl⟩)

/-- A possible product of a list of tensors, multiplied in some order, each product of two scaled
tensors rounded by the truncation. -/
inductive ProdVal (frac : ℕ) (sc : Bool) : List (T (.arith w n)) → T (.arith w n) → Prop
  | one (a : T (.arith w n)) : ProdVal frac sc [a] a
  | mul {k l : List (T (.arith w n))} {u v z : T (.arith w n)} (hu : ProdVal frac sc k u)
      (hv : ProdVal frac sc l v)
      (hz : (mulRounding frac sc sc).Ok (fun i => u i * v i : T (.arith w n)) z) :
      ProdVal frac sc (k ++ l) z

/-- Sharings of possible products in both runs. -/
def Products (frac : ℕ) (sc : Bool) (σ : Fin 3) (l l' : List (T (.arith w n)))
    (o o' : Shares (T (.arith w n))) : Prop :=
  ∃ z z', ProdVal frac sc l z ∧ ProdVal frac sc l' z' ∧ Alike σ z z' o o'

theorem mulS_products {frac : ℕ} {sc : Bool} {plan : Option (BitVec w × BitVec w)}
    (hp : mulPlan w frac sc sc = .ok plan) {k k' l l' : List (T (.arith w n))}
    {x x' y y' : Shares (T (.arith w n))} (hx : Products frac sc σ k k' x x')
    (hy : Products frac sc σ l l' y y') :
    M.Sim σ (Products frac sc σ (k ++ l) (k' ++ l')) (mulS frac plan x y) (mulS frac plan x' y') := by
  obtain ⟨u, u', hu, hu', hx⟩ := hx
  obtain ⟨v, v', hv, hv', hy⟩ := hy
  refine (mulS_sim hp hx hy).mono ?_
  rintro o o' ⟨z, z', h1, h2, -, h⟩
  exact ⟨z, z', .mul hu hv h1, .mul hu' hv' h2, h⟩

theorem powLoop_products {frac : ℕ} {sc : Bool} {plan : Option (BitVec w × BitVec w)}
    (hpl : mulPlan w frac sc sc = .ok plan) {p : ℕ} (hp : 0 < p) {c c' : T (.arith w n)}
    {x x' : Shares (T (.arith w n))} (hx : Alike σ c c' x x') :
    M.Sim σ (Products frac sc σ (List.replicate p c) (List.replicate p c'))
      (powLoop (mulS frac plan) p none x) (powLoop (mulS frac plan) p none x') := by
  refine powLoop_sim' (R := fun k => Products frac sc σ (List.replicate k c) (List.replicate k c'))
    hp ?_ ⟨c, c', .one c, .one c', hx⟩
  intro a b x x' y y' _ _ _ ha hb
  rw [List.replicate_add, List.replicate_add]
  exact mulS_products hpl ha hb

/-- `pow` in two runs: it raises in both or in neither. -/
theorem pow_products {frac : ℕ} {sc : Bool} {p : ℕ} (hp : 0 < p) {c c' : T (.arith w n)}
    {x x' : Shares (T (.arith w n))} (hx : Alike σ c c' x x') {m m' : M (Shares (T (.arith w n)))}
    (hm : pow frac sc p x = .ok m) (hm' : pow frac sc p x' = .ok m') :
    M.Sim σ (Products frac sc σ (List.replicate p c) (List.replicate p c')) m m' := by
  unfold pow at hm hm'
  rw [if_neg (by omega)] at hm hm'
  split at hm
  · rename_i plan hpl
    rw [hpl] at hm'
    simp only [Except.ok.injEq] at hm hm'
    subst hm hm'
    exact powLoop_products hpl hp hx
  · rename_i e hpl
    rw [hpl] at hm'
    by_cases h1 : p = 1
    · subst h1
      simp only [if_true, Except.ok.injEq] at hm hm'
      subst hm hm'
      exact .pure ⟨c, c', .one c, .one c', hx⟩
    · simp only [if_neg h1] at hm
      cases hm

/-- `pow` does not look at the shares to decide whether it raises. -/
theorem pow_ok {frac : ℕ} {sc : Bool} {p : ℕ} (hp : 0 < p)
    (h : p = 1 ∨ (sc = true → frac + frac + 2 ≤ w)) (x : Shares (T (.arith w n))) :
    ∃ m, pow frac sc p x = .ok m := by
  unfold pow
  rw [if_neg (by omega)]
  cases hpl : mulPlan w frac sc sc with
  | ok plan => exact ⟨_, rfl⟩
  | error e =>
    rcases h with h | h
    · rw [h]; exact ⟨_, rfl⟩
    · obtain ⟨plan, hq⟩ := mulPlan_ok (sx := sc) (sy := sc) (frac := frac) (w := w) (by simpa using h)
      rw [hq] at hpl
      cases hpl

theorem tree_products {frac : ℕ} {sc : Bool} {plan : Option (BitVec w × BitVec w)}
    (hpl : mulPlan w frac sc sc = .ok plan) :
    ∀ (k : ℕ) (L : List (T (.arith w n) × T (.arith w n) × Shares (T (.arith w n)) ×
      Shares (T (.arith w n)))) (_ : L.length = k) (_ : ∀ t ∈ L, Alike σ t.1 t.2.1 t.2.2.1 t.2.2.2)
      (h₃ : L.map (·.2.2.1) ≠ []) (h₄ : L.map (·.2.2.2) ≠ []),
      M.Sim σ (Products frac sc σ (L.map (·.1)) (L.map (·.2.1)))
        (tree (mulS frac plan) (L.map (·.2.2.1)) h₃) (tree (mulS frac plan) (L.map (·.2.2.2)) h₄) := by
  intro k
  induction k using Nat.strong_induction_on with
  | _ k ih =>
    intro L hL hQ h₃ h₄
    rw [tree, tree]
    by_cases hk : L.length ≤ 1
    · rw [dif_pos (by simpa using hk), dif_pos (by simpa using hk)]
      obtain ⟨a, rfl⟩ : ∃ a, L = [a] := by
        rw [← List.length_eq_one_iff]
        have := List.length_pos_iff.2 h₃
        simp only [List.length_map] at this
        omega
      exact .pure ⟨_, _, .one _, .one _, hQ a (by simp)⟩
    · rw [dif_neg (by simpa using hk), dif_neg (by simpa using hk)]
      have t := take_half_ne hk
      have d := drop_half_ne hk
      simp only [List.length_map, ← List.map_take, ← List.map_drop]
      refine M.Sim.bind (ih _ ?_ (L.take (L.length / 2)) rfl
        (fun t ht => hQ t (List.mem_of_mem_take ht))
        (by simpa using t) (by simpa using t)) fun a a' ha => ?_
      · simp only [List.length_take]; omega
      refine M.Sim.bind (ih _ ?_ (L.drop (L.length / 2)) rfl
        (fun t ht => hQ t (List.mem_of_mem_drop ht))
        (by simpa using d) (by simpa using d)) fun b b' hb => ?_
      · simp only [List.length_drop]; omega
      refine (mulS_products hpl ha hb).mono ?_
      intro o o' h
      rwa [← List.map_append, ← List.map_append, List.take_append_drop] at h

/-- Unscaled products are exact. -/
theorem ProdVal.exact {frac : ℕ} {l : List (T (.arith w n))} {z : T (.arith w n)}
    (h : ProdVal frac false l z) : ∀ i, z i = (l.map fun t => t i).prod := by
  induction h with
  | one a => intro i; simp
  | mul hu hv hz h1 h2 =>
    intro i
    rw [List.map_append, List.prod_append, ← h1 i, ← h2 i]
    exact congrFun (show _ = _ from hz) i

/-! ## Rounding errors -/

/-- The word `z`, read as a fixed-point number with `frac` fractional bits, is within `ε` of `q`,
up to wrap-around of the ring. -/
def Close (frac : ℕ) (z : BitVec w) (q ε : ℚ) : Prop :=
  ∃ V : ℤ, z = BitVec.ofInt w V ∧ |(V : ℚ) / 2 ^ frac - q| ≤ ε

theorem Close.refl (frac : ℕ) (z : BitVec w) : Close frac z ((z.toInt : ℚ) / 2 ^ frac) 0 :=
  ⟨z.toInt, BitVec.ofInt_toInt.symm, by simp⟩

theorem Close.mono {frac : ℕ} {z : BitVec w} {q ε δ : ℚ} (h : Close frac z q ε) (hle : ε ≤ δ) :
    Close frac z q δ := by
  obtain ⟨V, e, h⟩ := h
  exact ⟨V, e, h.trans hle⟩

theorem Close.add {frac : ℕ} {y z : BitVec w} {q r ε δ : ℚ} (h : Close frac y q ε)
    (k : Close frac z r δ) : Close frac (y + z) (q + r) (ε + δ) := by
  obtain ⟨U, e, h⟩ := h
  obtain ⟨V, e', k⟩ := k
  refine ⟨U + V, by rw [e, e', Bits.ofInt_add], ?_⟩
  push_cast
  calc |((U : ℚ) + V) / 2 ^ frac - (q + r)| = |((U : ℚ) / 2 ^ frac - q) + ((V : ℚ) / 2 ^ frac - r)| := by
        congr 1; ring
    _ ≤ _ := (abs_add_le _ _).trans (add_le_add h k)

theorem Close.nonneg {frac : ℕ} {z : BitVec w} {q ε : ℚ} (h : Close frac z q ε) : 0 ≤ ε := by
  obtain ⟨V, -, h⟩ := h
  exact (abs_nonneg _).trans h

/-- Within the range of the ring there is no wrap-around. -/
theorem Close.value {frac : ℕ} (hw : 0 < w) {z : BitVec w} {q ε : ℚ} (h : Close frac z q ε)
    (hr : (|q| + ε) * 2 ^ frac < 2 ^ (w - 1)) : |(z.toInt : ℚ) / 2 ^ frac - q| ≤ ε := by
  obtain ⟨V, e, h⟩ := h
  have hN : (0 : ℚ) < 2 ^ frac := by positivity
  have hV : |(V : ℚ)| < 2 ^ (w - 1) := by
    have h1 : |(V : ℚ) / 2 ^ frac| ≤ |q| + ε := by
      have := abs_sub_abs_le_abs_sub ((V : ℚ) / 2 ^ frac) q
      linarith
    rw [abs_div, abs_of_pos hN, div_le_iff₀ hN] at h1
    linarith
  rw [abs_lt] at hV
  have h0 : -2 ^ (w - 1) ≤ V := by exact_mod_cast hV.1.le
  have h1 : V < 2 ^ (w - 1) := by exact_mod_cast hV.2
  rw [e, Bits.toInt_ofInt hw h0 h1]
  exact h

/-- The product of two approximations, rounded by the private truncation. -/
theorem Close.mul_round {frac : ℕ} (hw : 2 ≤ w) {u v z : BitVec w} {q r ε δ : ℚ}
    (hu : Close frac u q ε) (hv : Close frac v r δ)
    (hr : (|q| + ε) * (|r| + δ) * (2 ^ frac * 2 ^ frac) < 2 ^ (w - 2))
    (hz : TruncOk .heuristic frac (u * v) z) :
    Close frac z (q * r) (ε * (|r| + δ) + |q| * δ + 1 / 2 ^ frac) := by
  have hε := hu.nonneg
  have hδ := hv.nonneg
  obtain ⟨U, e, hU⟩ := hu
  obtain ⟨V, e', hV⟩ := hv
  have hN : (0 : ℚ) < 2 ^ frac := by positivity
  generalize hNN : (2 : ℚ) ^ frac = N at *
  have hUa : |(U : ℚ) / N| ≤ |q| + ε := by
    have := abs_sub_abs_le_abs_sub ((U : ℚ) / N) q
    linarith
  have hVa : |(V : ℚ) / N| ≤ |r| + δ := by
    have := abs_sub_abs_le_abs_sub ((V : ℚ) / N) r
    linarith
  have hUV : |((U * V : ℤ) : ℚ)| < 2 ^ (w - 2) := by
    have h1 : |(U : ℚ) / N| * |(V : ℚ) / N| ≤ (|q| + ε) * (|r| + δ) :=
      mul_le_mul hUa hVa (abs_nonneg _) (by positivity)
    have h2 : |((U * V : ℤ) : ℚ)| = |(U : ℚ) / N| * |(V : ℚ) / N| * (N * N) := by
      rw [abs_div, abs_div, abs_of_pos hN]
      push_cast
      rw [abs_mul]
      field_simp
    rw [h2]
    refine lt_of_le_of_lt ?_ hr
    exact mul_le_mul_of_nonneg_right h1 (by positivity)
  rw [abs_lt] at hUV
  have h0 : -2 ^ (w - 2) ≤ U * V := by exact_mod_cast hUV.1.le
  have h1 : U * V < 2 ^ (w - 2) := by exact_mod_cast hUV.2
  have hpow : (2 : ℤ) ^ (w - 1) = 2 * 2 ^ (w - 2) := by
    rw [show w - 1 = (w - 2) + 1 by omega, pow_succ]; ring
  have hp : (0 : ℤ) < 2 ^ (w - 2) := by positivity
  have et : (u * v).toInt = U * V := by
    rw [e, e', ← Bits.ofInt_mul, Bits.toInt_ofInt (by omega) (by omega) (by omega)]
  have hz := hz (by rw [et]; exact h0) (by rw [et]; exact h1)
  rw [et] at hz
  -- the integer result is within one of the exact quotient
  obtain ⟨Z, ez, hZ⟩ : ∃ Z : ℤ, z = BitVec.ofInt w Z ∧ |(Z : ℚ) - ((U * V : ℤ) : ℚ) / N| ≤ 1 := by
    have hNz : (0 : ℤ) < 2 ^ frac := by positivity
    have hd := Int.mul_ediv_add_emod (U * V) (2 ^ frac)
    have hm0 := Int.emod_nonneg (U * V) hNz.ne'
    have hm1 := Int.emod_lt_of_pos (U * V) hNz
    have hcast : ((2 ^ frac : ℤ) : ℚ) = N := by rw [← hNN]; push_cast; rfl
    generalize U * V / 2 ^ frac = D at *
    generalize U * V % 2 ^ frac = R at *
    have e1 : ((U * V : ℤ) : ℚ) / N = D + R / N := by
      rw [← hd]
      push_cast
      rw [show (2 : ℚ) ^ frac = N from hNN]
      field_simp
    have r0 : (0 : ℚ) ≤ R / N := div_nonneg (by exact_mod_cast hm0) hN.le
    have r1 : (R : ℚ) / N ≤ 1 := by
      rw [div_le_one hN, ← hcast]
      exact_mod_cast hm1.le
    rcases hz with hz | hz
    · exact ⟨D, hz, by rw [e1, abs_le]; constructor <;> linarith⟩
    · exact ⟨D + 1, hz, by rw [e1, abs_le]; push_cast; constructor <;> linarith⟩
  refine ⟨Z, ez, ?_⟩
  rw [hNN]
  have e2 : (Z : ℚ) / N - q * r = ((Z : ℚ) - ((U * V : ℤ) : ℚ) / N) / N +
      (((U : ℚ) / N - q) * (V / N) + q * ((V : ℚ) / N - r)) := by
    push_cast
    field_simp
    ring
  rw [e2]
  have a1 : |((Z : ℚ) - ((U * V : ℤ) : ℚ) / N) / N| ≤ 1 / N := by
    rw [abs_div, abs_of_pos hN]
    exact div_le_div_of_nonneg_right hZ hN.le
  have a2 : |((U : ℚ) / N - q) * (V / N)| ≤ ε * (|r| + δ) := by
    rw [abs_mul]
    exact mul_le_mul hU hVa (abs_nonneg _) hε
  have a3 : |q * ((V : ℚ) / N - r)| ≤ |q| * δ := by
    rw [abs_mul]
    exact mul_le_mul_of_nonneg_left hV (abs_nonneg _)
  calc _ ≤ _ := abs_add_le _ _
    _ ≤ 1 / N + (ε * (|r| + δ) + |q| * δ) := add_le_add a1 ((abs_add_le _ _).trans (add_le_add a2 a3))
    _ = _ := by ring

/-- The error of a product of `k` numbers of size at most `B`. -/
def prodErr (frac : ℕ) (B : ℚ) (k : ℕ) : ℚ := 2 * (k - 1 : ℚ) * B ^ (k - 1) / 2 ^ frac

theorem prodErr_le {frac : ℕ} {B : ℚ} (hB : 1 ≤ B) {k P : ℕ} (hk : 0 < k) (hkP : k ≤ P)
    (hP : (P * P : ℚ) ≤ 2 ^ frac) : prodErr frac B k ≤ B ^ k := by
  obtain ⟨a, rfl⟩ : ∃ a, k = a + 1 := ⟨k - 1, by omega⟩
  have hN : (0 : ℚ) < 2 ^ frac := by positivity
  have pa : (0 : ℚ) ≤ a := by positivity
  have hPa : ((a + 1 : ℕ) : ℚ) ≤ P := by exact_mod_cast hkP
  push_cast at hPa
  have ta : 2 * (a : ℚ) ≤ 2 ^ frac := by nlinarith [sq_nonneg ((a : ℚ) - 1)]
  have h1 : prodErr frac B (a + 1) ≤ B ^ a := by
    have : prodErr frac B (a + 1) = 2 * a * B ^ a / 2 ^ frac := by
      unfold prodErr; push_cast; simp
    rw [this, div_le_iff₀ hN, mul_comm (B ^ a)]
    exact mul_le_mul_of_nonneg_right ta (by positivity)
  exact h1.trans (pow_le_pow_right₀ hB (by omega))

theorem prodErr_nonneg {frac : ℕ} {B : ℚ} (hB : 1 ≤ B) {k : ℕ} (hk : 0 < k) : 0 ≤ prodErr frac B k := by
  obtain ⟨a, rfl⟩ : ∃ a, k = a + 1 := ⟨k - 1, by omega⟩
  unfold prodErr
  push_cast
  rw [add_sub_cancel_right]
  positivity

/-- Scaled products: how far they are from the product of the numbers. -/
theorem ProdVal.near {frac : ℕ} (hw : 2 ≤ w) {B : ℚ} (hB : 1 ≤ B) {P : ℕ}
    (hP : (P * P : ℚ) ≤ 2 ^ frac) (hr : 4 * B ^ P * (2 ^ frac * 2 ^ frac) < 2 ^ (w - 2))
    {l : List (T (.arith w n))} {z : T (.arith w n)} (h : ProdVal frac true l z)
    (hl : l.length ≤ P) (i : Fin n) (hx : ∀ t ∈ l, |((t i).toInt : ℚ) / 2 ^ frac| ≤ B) :
    0 < l.length ∧ |(l.map fun t => ((t i).toInt : ℚ) / 2 ^ frac).prod| ≤ B ^ l.length ∧
    Close frac (z i) (l.map fun t => ((t i).toInt : ℚ) / 2 ^ frac).prod (prodErr frac B l.length) := by
  induction h with
  | one a =>
    refine ⟨by simp, by simpa using hx a (by simp), ?_⟩
    simpa [prodErr] using Close.refl frac (a i)
  | @mul k l u v z hu hv hz h1 h2 =>
    rw [List.length_append] at hl
    obtain ⟨k1, k2, k3⟩ := h1 (by omega) fun t ht => hx t (by simp [ht])
    obtain ⟨l1, l2, l3⟩ := h2 (by omega) fun t ht => hx t (by simp [ht])
    rw [List.map_append, List.prod_append, List.length_append]
    generalize (k.map fun t => ((t i).toInt : ℚ) / 2 ^ frac).prod = q at *
    generalize (l.map fun t => ((t i).toInt : ℚ) / 2 ^ frac).prod = r at *
    generalize k.length = a at *
    generalize l.length = b at *
    refine ⟨by omega, ?_, ?_⟩
    · rw [abs_mul, pow_add]
      exact mul_le_mul k2 l2 (abs_nonneg _) (by positivity)
    obtain ⟨a, rfl⟩ : ∃ a', a = a' + 1 := ⟨a - 1, by omega⟩
    obtain ⟨b, rfl⟩ : ∃ b', b = b' + 1 := ⟨b - 1, by omega⟩
    have hN : (0 : ℚ) < 2 ^ frac := by positivity
    have hB0 : (0 : ℚ) < B := by linarith
    have ea : prodErr frac B (a + 1) = 2 * a * B ^ a / 2 ^ frac := by
      unfold prodErr; push_cast; simp
    have eb : prodErr frac B (b + 1) = 2 * b * B ^ b / 2 ^ frac := by
      unfold prodErr; push_cast; simp
    have eab : prodErr frac B (a + 1 + (b + 1)) = 2 * (a + b + 1) * B ^ (a + b + 1) / 2 ^ frac := by
      unfold prodErr
      rw [show a + 1 + (b + 1) - 1 = a + b + 1 by omega]
      push_cast
      ring
    rw [ea] at k3
    rw [eb] at l3
    rw [eab]
    have hPab : ((a + b + 2 : ℕ) : ℚ) ≤ P := by exact_mod_cast (by omega : a + b + 2 ≤ P)
    have hbig : ((a + b + 2 : ℕ) : ℚ) * ((a + b + 2 : ℕ) : ℚ) ≤ 2 ^ frac :=
      (mul_le_mul hPab hPab (by positivity) (by positivity)).trans hP
    push_cast at hbig
    generalize hNN : (2 : ℚ) ^ frac = N at *
    have pa : (0 : ℚ) ≤ a := by positivity
    have pb : (0 : ℚ) ≤ b := by positivity
    have pBa : 1 ≤ B ^ a := one_le_pow₀ hB
    have pBb : 1 ≤ B ^ b := one_le_pow₀ hB
    have ta : 2 * (a : ℚ) ≤ N := by nlinarith [mul_nonneg pa pb]
    have tb : 2 * (b : ℚ) ≤ N := by nlinarith [mul_nonneg pa pb]
    -- each factor is at most twice its bound
    have fa : |q| + 2 * a * B ^ a / N ≤ 2 * B ^ (a + 1) := by
      have : 2 * a * B ^ a / N ≤ B ^ a := by
        rw [div_le_iff₀ hN, mul_comm (B ^ a)]
        exact mul_le_mul_of_nonneg_right ta (by positivity)
      have : B ^ a ≤ B ^ (a + 1) := pow_le_pow_right₀ hB (by omega)
      linarith
    have fb : |r| + 2 * b * B ^ b / N ≤ 2 * B ^ (b + 1) := by
      have : 2 * b * B ^ b / N ≤ B ^ b := by
        rw [div_le_iff₀ hN, mul_comm (B ^ b)]
        exact mul_le_mul_of_nonneg_right tb (by positivity)
      have : B ^ b ≤ B ^ (b + 1) := pow_le_pow_right₀ hB (by omega)
      linarith
    have range : (|q| + 2 * a * B ^ a / N) * (|r| + 2 * b * B ^ b / N) * (N * N) < 2 ^ (w - 2) := by
      refine lt_of_le_of_lt ?_ hr
      refine mul_le_mul_of_nonneg_right ?_ (by positivity)
      have : B ^ (a + 1 + (b + 1)) ≤ B ^ P := pow_le_pow_right₀ hB hl
      calc _ ≤ (2 * B ^ (a + 1)) * (2 * B ^ (b + 1)) :=
            mul_le_mul fa fb (by positivity) (by positivity)
        _ = 4 * B ^ (a + 1 + (b + 1)) := by rw [pow_add B (a + 1)]; ring
        _ ≤ _ := by linarith
    refine (k3.mul_round hw l3 (by rw [hNN]; exact range) (hz i)).mono ?_
    rw [hNN]
    have hab : 4 * (a * b : ℚ) ≤ N := by nlinarith [mul_self_nonneg ((a : ℚ) - b)]
    have c1 : 2 * a * B ^ a / N * (|r| + 2 * b * B ^ b / N) ≤
        2 * a * B ^ a / N * (B ^ (b + 1) + 2 * b * B ^ b / N) :=
      mul_le_mul_of_nonneg_left (by linarith) (by positivity)
    have c2 : |q| * (2 * b * B ^ b / N) ≤ B ^ (a + 1) * (2 * b * B ^ b / N) :=
      mul_le_mul_of_nonneg_right k2 (by positivity)
    refine (add_le_add_left (add_le_add c1 c2) _).trans ?_
    have hS : 1 ≤ B ^ (a + b) := one_le_pow₀ hB
    have hS1 : B ^ (a + b) ≤ B ^ (a + b + 1) := pow_le_pow_right₀ hB (by omega)
    have e3 : 2 * a * B ^ a / N * (B ^ (b + 1) + 2 * b * B ^ b / N) +
        B ^ (a + 1) * (2 * b * B ^ b / N) + 1 / N =
        (2 * a * B ^ (a + b + 1) + 4 * (a * b) / N * B ^ (a + b) + 2 * b * B ^ (a + b + 1) + 1) / N := by
      rw [pow_succ, pow_succ, pow_succ, pow_add]
      field_simp
      ring
    rw [e3]
    refine div_le_div_of_nonneg_right ?_ hN.le
    have : 4 * (a * b) / N * B ^ (a + b) ≤ 1 * B ^ (a + b) :=
      mul_le_mul_of_nonneg_right ((div_le_one hN).2 hab) (by positivity)
    nlinarith

end Verif.Aby3
