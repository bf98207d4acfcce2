import Verif.Aby3.PolySim
import Mathlib.Algebra.BigOperators.Fin

/-!
# C31, C32: powers, products, polynomials, piecewise polynomials

For all tensors, sharings and draws. `real frac v` is the number that the word `v` stands for with
`frac` fractional bits.
-/

namespace Verif.Aby3

open Verif

variable {w n : ℕ}

/-- The fixed-point number of a word. -/
def real (frac : ℕ) (v : BitVec w) : ℚ := (v.toInt : ℚ) / 2 ^ frac

attribute [local irreducible] M.All M.Sim

/-! ## C31 -/

/-- **C31** (unscaled `pow`): `x ** p` for every `p ≥ 1`, in the ring of words. -/
theorem pow_exact {frac p : ℕ} (hp : 0 < p) {x : T (.arith w n)} {X : Shares (T (.arith w n))}
    (hx : Holds x X) :
    ∃ m, pow frac false p X = .ok m ∧ M.All (Holds (s := .arith w n) fun i => x i ^ p) m := by
  obtain ⟨m, hm⟩ := pow_ok (frac := frac) (sc := false) hp (.inr (by simp)) X
  refine ⟨m, hm, ?_⟩
  refine (pow_products hp (hx.alike 0) hm hm).left ?_
  rintro o o' ⟨z, z', hz, -, h⟩
  have e : z = fun i => x i ^ p := by
    funext i
    rw [hz.exact i, List.map_replicate, List.prod_replicate]
  exact e ▸ h.1

/-- An exponent below one is refused. -/
theorem pow_zero_raises {frac : ℕ} (sc : Bool) (X : Shares (T (.arith w n))) :
    pow frac sc 0 X = .error .assertion := rfl

theorem prod_range {frac : ℕ} {B : ℚ} (hB : 1 ≤ B) {k P : ℕ} (hk : 0 < k) (hkP : k ≤ P)
    (hsmall : (P * P : ℚ) ≤ 2 ^ frac) (hfit : 4 * B ^ P * (2 ^ frac * 2 ^ frac) < 2 ^ (w - 2))
    {q : ℚ} (hq : |q| ≤ B ^ k) : (|q| + prodErr frac B k) * 2 ^ frac < 2 ^ (w - 1) := by
  have hN : (1 : ℚ) ≤ 2 ^ frac := one_le_pow₀ (by norm_num)
  have hle := prodErr_le hB hk hkP hsmall
  have hBp : B ^ k ≤ B ^ P := pow_le_pow_right₀ hB hkP
  have hB1 : (1 : ℚ) ≤ B ^ P := one_le_pow₀ hB
  have h2w : (2 : ℚ) ^ (w - 2) ≤ 2 ^ (w - 1) := pow_le_pow_right₀ (by norm_num) (by omega)
  generalize (2 : ℚ) ^ frac = N at *
  have h1 : (|q| + prodErr frac B k) * N ≤ 2 * B ^ P * N :=
    mul_le_mul_of_nonneg_right (by linarith) (by linarith)
  have h2 : 2 * B ^ P * N ≤ 4 * B ^ P * (N * N) := by nlinarith [mul_nonneg (by linarith : 0 ≤ B ^ P) (by linarith : 0 ≤ N)]
  linarith

/-- **C31** (scaled `pow`): with numbers of size at most `B` the result is within
`2 (p - 1) B^(p-1) / 2^frac` of the power, as long as the powers fit the ring with room for the
product before truncation. -/
theorem pow_scaled {frac p : ℕ} (hp : 0 < p) {B : ℚ} (hB : 1 ≤ B) (hsmall : (p * p : ℚ) ≤ 2 ^ frac)
    (hfit : 4 * B ^ p * (2 ^ frac * 2 ^ frac) < 2 ^ (w - 2)) (hw : frac + frac + 2 ≤ w)
    {x : T (.arith w n)} {X : Shares (T (.arith w n))} (hx : Holds x X)
    (hb : ∀ i, |real frac (x i)| ≤ B) :
    ∃ m, pow frac true p X = .ok m ∧ M.All (fun o => ∃ z : T (.arith w n), Holds z o ∧ ∀ i,
      |real frac (z i) - real frac (x i) ^ p| ≤ 2 * (p - 1 : ℚ) * B ^ (p - 1) / 2 ^ frac) m := by
  obtain ⟨m, hm⟩ := pow_ok (frac := frac) (sc := true) hp (.inr fun _ => hw) X
  refine ⟨m, hm, ?_⟩
  refine (pow_products hp (hx.alike 0) hm hm).left ?_
  rintro o o' ⟨z, z', hz, -, h⟩
  refine ⟨z, h.1, fun i => ?_⟩
  obtain ⟨-, h2, h3⟩ := hz.near (by omega) hB hsmall hfit (by simp) i
    (by intro t ht; rw [List.eq_of_mem_replicate ht]; exact hb i)
  rw [List.map_replicate, List.prod_replicate, List.length_replicate] at h2 h3
  exact h3.value (by omega) (prod_range hB hp le_rfl hsmall hfit h2)

/-- The hypotheses are met on 64-bit words with 10 fractional bits: numbers up to 10, cubed. -/
example : ((3 : ℕ) * (3 : ℕ) : ℚ) ≤ 2 ^ 10 ∧ 4 * (10 : ℚ) ^ 3 * (2 ^ 10 * 2 ^ 10) < 2 ^ (64 - 2) ∧
    10 + 10 + 2 ≤ 64 := by norm_num

theorem zip_alike {ts : List (Shares (T (.arith w n)))} {vs : List (T (.arith w n))}
    (h : List.Forall₂ Holds vs ts) (σ : Fin 3) :
    ∃ L : List (T (.arith w n) × T (.arith w n) × Shares (T (.arith w n)) × Shares (T (.arith w n))),
      (∀ t ∈ L, Alike σ t.1 t.2.1 t.2.2.1 t.2.2.2) ∧ L.map (·.1) = vs ∧ L.map (·.2.1) = vs ∧
      L.map (·.2.2.1) = ts ∧ L.map (·.2.2.2) = ts := by
  induction h with
  | nil => exact ⟨[], by simp, rfl, rfl, rfl, rfl⟩
  | @cons v t vs ts hv _ ih =>
    obtain ⟨L, h0, h1, h2, h3, h4⟩ := ih
    refine ⟨(v, v, t, t) :: L, ?_, by simp [h1], by simp [h2], by simp [h3], by simp [h4]⟩
    intro t ht
    rcases List.mem_cons.1 ht with rfl | ht
    · exact hv.alike σ
    · exact h0 t ht

theorem prod_products {frac : ℕ} {sc : Bool} (hw : sc = true → frac + frac + 2 ≤ w)
    {ts : List (Shares (T (.arith w n)))} {vs : List (T (.arith w n))}
    (h : List.Forall₂ Holds vs ts) (hne : ts ≠ []) :
    ∃ m, prod frac sc ts hne = .ok m ∧
      M.All (fun o => ∃ z, Holds z o ∧ ProdVal frac sc vs z) m := by
  obtain ⟨plan, hp⟩ := mulPlan_ok (sx := sc) (sy := sc) (frac := frac) (w := w) (by simpa using hw)
  refine ⟨_, by unfold prod; rw [hp], ?_⟩
  obtain ⟨L, h0, h1, h2, h3, h4⟩ := zip_alike h 0
  subst h3
  have key := tree_products hp _ L rfl h0 hne (by rw [h4]; exact hne)
  refine key.left ?_
  rintro o o' ⟨z, z', hz, -, hzo⟩
  exact ⟨z, hzo.1, h1 ▸ hz⟩

/-- **C31** (unscaled `prod`): the product of all slices along the axis. -/
theorem prod_exact {frac : ℕ} {ts : List (Shares (T (.arith w n)))} {vs : List (T (.arith w n))}
    (h : List.Forall₂ Holds vs ts) (hne : ts ≠ []) :
    ∃ m, prod frac false ts hne = .ok m ∧
      M.All (Holds (s := .arith w n) fun i => (vs.map fun v => v i).prod) m := by
  obtain ⟨m, hm, hall⟩ := prod_products (frac := frac) (sc := false) (by simp) h hne
  refine ⟨m, hm, hall.mono ?_⟩
  rintro o ⟨z, hz, hv⟩
  have e : z = fun i => (vs.map fun v => v i).prod := funext hv.exact
  exact e ▸ hz

/-- **C31** (scaled `prod`): the product of `k` numbers of size at most `B` is within
`2 (k - 1) B^(k-1) / 2^frac` of the exact one. -/
theorem prod_scaled {frac : ℕ} {B : ℚ} (hB : 1 ≤ B) {ts : List (Shares (T (.arith w n)))}
    {vs : List (T (.arith w n))} (hsmall : (vs.length * vs.length : ℚ) ≤ 2 ^ frac)
    (hfit : 4 * B ^ vs.length * (2 ^ frac * 2 ^ frac) < 2 ^ (w - 2)) (hw : frac + frac + 2 ≤ w)
    (h : List.Forall₂ Holds vs ts) (hne : ts ≠ []) (hb : ∀ v ∈ vs, ∀ i, |real frac (v i)| ≤ B) :
    ∃ m, prod frac true ts hne = .ok m ∧ M.All (fun o => ∃ z : T (.arith w n), Holds z o ∧ ∀ i,
      |real frac (z i) - (vs.map fun v => real frac (v i)).prod| ≤
        2 * (vs.length - 1 : ℚ) * B ^ (vs.length - 1) / 2 ^ frac) m := by
  obtain ⟨m, hm, hall⟩ := prod_products (frac := frac) (sc := true) (fun _ => hw) h hne
  refine ⟨m, hm, hall.mono ?_⟩
  rintro o ⟨z, hz, hv⟩
  refine ⟨z, hz, fun i => ?_⟩
  obtain ⟨h1, h2, h3⟩ := hv.near (by omega) hB hsmall hfit le_rfl i fun t ht => hb t ht i
  exact h3.value (by omega) (prod_range hB h1 le_rfl hsmall hfit h2)

/-- The number that a row of bits stands for, the lowest bit first. -/
def bitsValue {k : ℕ} (b : Fin k → XBits 1) : ℕ := ∑ j, if (b j).bits = 1#1 then 2 ^ j.1 else 0

/-- The constants of `pow2_from_bits`. -/
def pow2Consts (w n k : ℕ) : T (.arith w (n * k)) :=
  fun i => BitVec.ofNat w (2 ^ 2 ^ (finProdFinEquiv.symm i).2.1 - 1)

theorem pow2_value {k : ℕ} {b : T (.bool 1 (n * k))} {z : T (.arith w n)}
    (hz : ProdVal 0 false ((List.finRange k).map fun j =>
      takeCol j (gate b (pow2Consts w n k) + fun _ => 1)) z) :
    z = fun i => BitVec.ofNat w (2 ^ bitsValue fun j => b (finProdFinEquiv (i, j))) := by
  funext i
  rw [hz.exact i, List.map_map, bitsValue, ← Finset.prod_pow_eq_pow_sum]
  have e : ∀ j : Fin k, takeCol j (gate b (pow2Consts w n k) + fun _ => 1 : T (.arith w (n * k))) i =
      ((2 ^ (if (b (finProdFinEquiv (i, j))).bits = 1#1 then 2 ^ j.1 else 0) : ℕ) : BitVec w) := by
    intro j
    show (if (b (finProdFinEquiv (i, j))).bits = 1#1 then
      pow2Consts w n k (finProdFinEquiv (i, j)) else 0) + 1 = _
    unfold pow2Consts
    simp only [Equiv.symm_apply_apply]
    split
    · have : 1 ≤ 2 ^ 2 ^ j.1 := Nat.one_le_two_pow
      conv_rhs => rw [show 2 ^ 2 ^ j.1 = (2 ^ 2 ^ j.1 - 1) + 1 by omega]
      rw [Nat.cast_add]
      rfl
    · simp
  simp only [Function.comp_def, e]
  rw [← Fin.prod_univ_def, ← Nat.cast_prod]
  rfl

theorem pow2_sim {σ : Fin 3} {k : ℕ} (hk : 0 < k) {b b' : T (.bool 1 (n * k))}
    {X X' : Shares (T (.bool 1 (n * k)))} (hb : Alike σ b b' X X') :
    M.Sim σ (Alike (s := .arith w n) σ
        (fun i => BitVec.ofNat w (2 ^ bitsValue fun j => b (finProdFinEquiv (i, j))))
        (fun i => BitVec.ofNat w (2 ^ bitsValue fun j => b' (finProdFinEquiv (i, j)))))
      (pow2Run k hk X) (pow2Run k hk X') := by
  have h1 := mulAbPub_sim (a := fun _ => pow2Consts w n k) (a' := fun _ => pow2Consts w n k)
    (fun _ => rfl) (fun _ => rfl) hb
  refine M.Sim.bind h1 fun d d' hd => ?_
  have hd1 := hd.addPub (c := fun _ => 1) (y := fun _ _ => 1) (y' := fun _ _ => 1)
    (fun _ => rfl) (fun _ => rfl)
  have key := tree_products (frac := 0) (sc := false) (plan := none) (σ := σ) rfl _
    ((List.finRange k).map fun j => (takeCol j _, takeCol j _, (addPub d fun _ _ => 1).map (takeCol j),
      (addPub d' fun _ _ => 1).map (takeCol j))) rfl (by
      intro t ht
      obtain ⟨j, -, rfl⟩ := List.mem_map.1 ht
      exact hd1.map (t := .arith w n) (f := takeCol j) fun _ _ => rfl) (by
      simp only [ne_eq, List.map_eq_nil_iff, List.finRange_eq_nil_iff]; omega) (by
      simp only [ne_eq, List.map_eq_nil_iff, List.finRange_eq_nil_iff]; omega)
  simp only [List.map_map, Function.comp_def] at key
  refine key.mono ?_
  rintro o o' ⟨z, z', hz, hz', h⟩
  rw [pow2_value hz, pow2_value hz'] at h
  exact h

/-- **C31** (`pow2_from_bits`): each row of bits is turned into `2` to the number it stands for. -/
theorem pow2_from_bits_value {k : ℕ} (hk : 0 < k) (hk6 : k ≤ 6) {b : T (.bool 1 (n * k))}
    {X : Shares (T (.bool 1 (n * k)))} (hb : Holds b X) :
    ∃ m, pow2FromBits (w := w) k X = .ok m ∧ M.All (Holds (s := .arith w n) fun i =>
      BitVec.ofNat w (2 ^ bitsValue fun j => b (finProdFinEquiv (i, j)))) m :=
  ⟨_, by unfold pow2FromBits; rw [dif_pos ⟨hk, hk6⟩], holds_of_sim (pow2_sim hk (hb.alike 0)) rfl⟩

/-- Without bits, or with more than six, it raises. -/
theorem pow2_from_bits_raises {k : ℕ} (hk : k = 0 ∨ 6 < k) (X : Shares (T (.bool 1 (n * k)))) :
    pow2FromBits (w := w) k X = .error .valueError := by
  unfold pow2FromBits
  rw [dif_neg (by omega)]

/-- Bits 1, 0, 1 stand for 5. -/
example : bitsValue (k := 3) ![⟨1⟩, ⟨0⟩, ⟨1⟩] = 5 := by decide

/-! ## C32: polynomials -/

/-- `Σ c_d x^d`, the coefficients in order of degree, starting with degree `i`. -/
def evalFrom {R : Type} [CommSemiring R] (x : R) : ℕ → List R → R
  | _, [] => 0
  | i, c :: cs => c * x ^ i + evalFrom x (i + 1) cs

/-- The word of an integer coefficient; a shift stands for no word. -/
def Coeff.toWord : Coeff w → Option (BitVec w)
  | .zero => some 0
  | .int c => some c
  | .word c => some c
  | .shift _ => none

theorem PolyVal.exact {frac : ℕ} {x : T (.arith w n)} {i : ℕ} {cs : List (Coeff w)}
    {acc z : T (.arith w n)} (h : PolyVal frac false x i cs acc z) {ws : List (BitVec w)}
    (hc : cs.map Coeff.toWord = ws.map some) (k : Fin n) :
    z k = acc k + evalFrom (x k) i ws := by
  induction h generalizing ws with
  | nil i acc =>
    cases ws with
    | nil => simp [evalFrom]
    | cons => cases hc
  | @skip i cs acc z h ih =>
    cases ws with
    | nil => cases hc
    | cons c ws =>
      simp only [List.map_cons, List.cons.injEq, Coeff.toWord, Option.some.injEq] at hc
      rw [ih hc.2, evalFrom, ← hc.1]
      simp
  | @term i c cs acc t z ht h ih =>
    cases ws with
    | nil => cases hc
    | cons v ws =>
      simp only [List.map_cons, List.cons.injEq] at hc
      have key : t k = v * x k ^ i := by
        cases c with
        | zero => cases ht
        | int c =>
          obtain ⟨y, hy, rfl⟩ := ht
          simp only [Coeff.toWord, Option.some.injEq] at hc
          show c * y k = _
          rw [hc.1, hy.exact k, List.map_replicate, List.prod_replicate]
        | word c =>
          obtain ⟨y, hy, ht⟩ := ht
          simp only [Coeff.toWord, Option.some.injEq] at hc
          have : t k = y k * c := congrFun (show t = _ from ht) k
          rw [this, hc.1, hy.exact k, List.map_replicate, List.prod_replicate, mul_comm]
        | shift a => cases hc.1
      rw [ih hc.2, evalFrom, ← key]
      show t k + acc k + _ = _
      rw [add_comm (t k), add_assoc]

theorem MultiVal.exact {m : ℕ} {frac : ℕ} {x : T (.arith w n)} {i : ℕ}
    {cs : List (Fin m → BitVec w)} {acc z : T (.arith w (m * n))}
    (h : MultiVal frac false x i cs acc z) (j : Fin m) (k : Fin n) :
    z (finProdFinEquiv (j, k)) = acc (finProdFinEquiv (j, k)) + evalFrom (x k) i (cs.map (· j)) := by
  induction h with
  | nil => simp [evalFrom]
  | @term i c cs y acc t z hy ht h ih =>
    have key : t (finProdFinEquiv (j, k)) = c j * x k ^ i := by
      have := congrFun (show t = _ from ht) (finProdFinEquiv (j, k))
      rw [this]
      unfold tileRows spreadCol
      rw [Equiv.symm_apply_apply, hy.exact k, List.map_replicate, List.prod_replicate, mul_comm]
    rw [ih, List.map_cons, evalFrom, ← key]
    show t _ + acc _ + _ = _
    rw [add_comm (t _), add_assoc]

/-- `z` is what `X` holds or every copy of it. -/
def BodyHolds {s : Srt} (z : T s) : Body s → Prop
  | .pub p => IsPub z p
  | .priv x => Holds z x

theorem BRel.holds {s : Srt} {σ : Fin 3} {z z' : T s} {X X' : Body s} (h : BRel σ z z' X X') :
    BodyHolds z X := by
  cases h with
  | pub h _ => exact h
  | priv h => exact h.1

theorem BRel.copies {s : Srt} {σ : Fin 3} (v : T s) : BRel σ v v (.pub fun _ => v) (.pub fun _ => v) :=
  .pub (fun _ => rfl) fun _ => rfl

theorem polynomial_val {frac : ℕ} {sc : Bool} (hw : sc = true → frac + frac + 2 ≤ w)
    {cs : List (Coeff w)} (hc : ∀ c ∈ cs, c.Ok w frac sc) (c₀ : BitVec w) {x : T (.arith w n)}
    {X : Shares (T (.arith w n))} (hx : Holds x X) :
    ∃ m, polynomial frac sc X c₀ cs = .ok m ∧
      M.All (fun o => ∃ z, BodyHolds z o ∧ PolyVal frac sc x 1 cs (fun _ => c₀) z) m := by
  obtain ⟨l, hl⟩ := termList_ok hw hc X 1 one_pos
  refine ⟨_, by unfold polynomial; rw [hl], ?_⟩
  refine (termList_sim (hx.alike 0) cs 1 one_pos l l hl hl _ _ _ _
    (BRel.copies fun _ => c₀)).left ?_
  rintro o o' ⟨z, z', hz, -, h⟩
  exact ⟨z, h.holds, hz⟩

/-- **C32** (`polynomial`, unscaled): exactly `c₀ + Σ c_d x^d` in the ring of words. -/
theorem polynomial_exact {frac : ℕ} {cs : List (Coeff w)} {ws : List (BitVec w)}
    (hc : cs.map Coeff.toWord = ws.map some) (c₀ : BitVec w) {x : T (.arith w n)}
    {X : Shares (T (.arith w n))} (hx : Holds x X) :
    ∃ m, polynomial frac false X c₀ cs = .ok m ∧
      M.All (BodyHolds (s := .arith w n) fun i => c₀ + evalFrom (x i) 1 ws) m := by
  obtain ⟨m, hm, hall⟩ := polynomial_val (frac := frac) (sc := false) (by simp) (cs := cs) (by
    intro c hcs
    cases c with
    | shift a =>
      have : Coeff.toWord (.shift a : Coeff w) ∈ ws.map some := by
        rw [← hc]; exact List.mem_map_of_mem hcs
      simp [Coeff.toWord] at this
    | _ => trivial) c₀ hx
  refine ⟨m, hm, hall.mono ?_⟩
  rintro o ⟨z, hz, hv⟩
  have e : z = fun i => c₀ + evalFrom (x i) 1 ws := funext fun i => hv.exact hc i
  exact e ▸ hz

/-- The error of a polynomial of degree `D` with coefficients of size at most `C` at a number of
size at most `B`. -/
def polyErr (frac : ℕ) (B C : ℚ) (D : ℕ) : ℚ :=
  ∑ d ∈ Finset.range D, (C * (2 * d * B ^ d) + 1) / 2 ^ frac

theorem polyErr_succ (frac : ℕ) (B C : ℚ) (D : ℕ) :
    polyErr frac B C (D + 1) = polyErr frac B C D + (C * prodErr frac B (D + 1) + 1 / 2 ^ frac) := by
  unfold polyErr prodErr
  rw [Finset.sum_range_succ]
  congr 1
  push_cast
  rw [add_sub_cancel_right]
  ring

/-- What the size bounds give for one power. -/
theorem pow_close {frac : ℕ} (hw : 2 ≤ w) {B : ℚ} (hB : 1 ≤ B) {P : ℕ}
    (hP : (P * P : ℚ) ≤ 2 ^ frac) (hr : 4 * B ^ P * (2 ^ frac * 2 ^ frac) < 2 ^ (w - 2))
    {x y : T (.arith w n)} {i : ℕ} (h : ProdVal frac true (List.replicate i x) y) (hi : i ≤ P)
    (k : Fin n) (hb : |real frac (x k)| ≤ B) :
    0 < i ∧ |real frac (x k) ^ i| ≤ B ^ i ∧
      Close frac (y k) (real frac (x k) ^ i) (prodErr frac B i) := by
  have := h.near hw hB hP hr (by simpa using hi) k
    (by intro t ht; rw [List.eq_of_mem_replicate ht]; exact hb)
  rw [List.map_replicate, List.prod_replicate, List.length_replicate] at this
  exact this

/-- One term of a scaled polynomial. -/
theorem term_close {frac : ℕ} (hw : 2 ≤ w) {B C : ℚ} (hB : 1 ≤ B) {P i : ℕ}
    (hP : (P * P : ℚ) ≤ 2 ^ frac) (hr : 2 * C * B ^ P * (2 ^ frac * 2 ^ frac) < 2 ^ (w - 2))
    (hi : 0 < i) (hiP : i ≤ P) {q : ℚ} {y c t : BitVec w} (hq : |q| ≤ B ^ i)
    (hy : Close frac y q (prodErr frac B i)) (hc : |real frac c| ≤ C)
    (ht : TruncOk .heuristic frac (y * c) t) :
    Close frac t (real frac c * q) (C * prodErr frac B i + 1 / 2 ^ frac) := by
  have hC : 0 ≤ C := (abs_nonneg _).trans hc
  have hle := prodErr_le hB hi hiP hP
  have h0 := prodErr_nonneg (frac := frac) hB hi
  have hBP : B ^ i ≤ B ^ P := pow_le_pow_right₀ hB hiP
  have hB0 : 0 ≤ B ^ i := by positivity
  rw [mul_comm (real frac c)]
  refine (hy.mul_round hw (Close.refl frac c) ?_ ht).mono ?_
  · refine lt_of_le_of_lt ?_ hr
    refine mul_le_mul_of_nonneg_right ?_ (by positivity)
    have hc' : |(c.toInt : ℚ) / 2 ^ frac| + 0 ≤ C := by rw [add_zero]; exact hc
    calc _ ≤ (2 * B ^ P) * C := mul_le_mul (by linarith) hc' (by positivity) (by positivity)
      _ = _ := by ring
  · have hc' : |(c.toInt : ℚ) / 2 ^ frac| ≤ C := hc
    rw [add_zero, mul_zero, add_zero]
    have := mul_le_mul_of_nonneg_left hc' h0
    linarith

theorem MultiVal.close {m : ℕ} {frac : ℕ} (hw : 2 ≤ w) {B C : ℚ} (hB : 1 ≤ B) (hC : 2 ≤ C) {P : ℕ}
    (hP : (P * P : ℚ) ≤ 2 ^ frac) (hr : 2 * C * B ^ P * (2 ^ frac * 2 ^ frac) < 2 ^ (w - 2))
    {x : T (.arith w n)} {i : ℕ} {cs : List (Fin m → BitVec w)} {acc z : T (.arith w (m * n))}
    (h : MultiVal frac true x i cs acc z) (j : Fin m) (k : Fin n) (hb : |real frac (x k)| ≤ B)
    (hc : ∀ c ∈ cs, |real frac (c j)| ≤ C) (hi : 0 < i) (hlen : i + cs.length ≤ P + 1) {q : ℚ}
    (ha : Close frac (acc (finProdFinEquiv (j, k))) q (polyErr frac B C (i - 1))) :
    Close frac (z (finProdFinEquiv (j, k)))
      (q + evalFrom (real frac (x k)) i (cs.map fun c => real frac (c j)))
      (polyErr frac B C (i - 1 + cs.length)) := by
  induction h generalizing q with
  | nil => simpa [evalFrom] using ha
  | @term i c cs y acc t z hy ht h ih =>
    simp only [List.length_cons] at hlen
    have hr4 : 4 * B ^ P * (2 ^ frac * 2 ^ frac) < 2 ^ (w - 2) := by
      refine lt_of_le_of_lt ?_ hr
      refine mul_le_mul_of_nonneg_right ?_ (by positivity)
      have : (0 : ℚ) ≤ B ^ P := by positivity
      nlinarith
    obtain ⟨-, h2, h3⟩ := pow_close hw hB hP hr4 hy (by omega) k hb
    have ht' := ht (finProdFinEquiv (j, k))
    unfold tileRows spreadCol at ht'
    simp only [Equiv.symm_apply_apply] at ht'
    have key := term_close hw hB hP hr hi (by omega) h2 h3 (hc c (by simp)) ht'
    have ha' := key.add ha
    have e : polyErr frac B C (i + 1 - 1) = C * prodErr frac B i + 1 / 2 ^ frac + polyErr frac B C (i - 1) := by
      obtain ⟨i, rfl⟩ : ∃ a, i = a + 1 := ⟨i - 1, by omega⟩
      rw [Nat.add_sub_cancel, polyErr_succ]
      simp only [Nat.add_sub_cancel]
      ring
    have := ih (fun c h => hc c (by simp [h])) (by omega) (by omega) (q := real frac (c j) * real frac (x k) ^ i + q)
      (by rw [e]; exact ha')
    rw [List.map_cons, evalFrom, List.length_cons]
    rw [show i + 1 - 1 + cs.length = i - 1 + (cs.length + 1) by omega] at this
    convert this using 1
    ring

/-- The number a coefficient stands for. -/
def Coeff.num (frac : ℕ) : Coeff w → ℚ
  | .zero => 0
  | .int c => c.toInt
  | .word c => real frac c
  | .shift a => 1 / 2 ^ a

theorem Close.int_mul {frac : ℕ} {y : BitVec w} {q ε : ℚ} (h : Close frac y q ε) (c : BitVec w) :
    Close frac (c * y) (c.toInt * q) (|(c.toInt : ℚ)| * ε) := by
  obtain ⟨V, e, h⟩ := h
  refine ⟨c.toInt * V, by rw [Bits.ofInt_mul, BitVec.ofInt_toInt, e], ?_⟩
  push_cast
  rw [mul_div_assoc, ← mul_sub, abs_mul]
  exact mul_le_mul_of_nonneg_left h (abs_nonneg _)

theorem Close.shift {frac a : ℕ} (hw : 2 ≤ w) {y t : BitVec w} {q ε : ℚ} (h : Close frac y q ε)
    (hr : (|q| + ε) * 2 ^ frac < 2 ^ (w - 2)) (ht : TruncOk .heuristic a y t) :
    Close frac t (1 / 2 ^ a * q) (1 / 2 ^ a * ε + 1 / 2 ^ frac) := by
  obtain ⟨V, e, h⟩ := h
  have hN : (0 : ℚ) < 2 ^ frac := by positivity
  have hA : (0 : ℚ) < 2 ^ a := by positivity
  have hV : |(V : ℚ)| < 2 ^ (w - 2) := by
    have h1 : |(V : ℚ) / 2 ^ frac| ≤ |q| + ε := by
      have := abs_sub_abs_le_abs_sub ((V : ℚ) / 2 ^ frac) q
      linarith
    rw [abs_div, abs_of_pos hN, div_le_iff₀ hN] at h1
    linarith
  rw [abs_lt] at hV
  have h0 : -2 ^ (w - 2) ≤ V := by exact_mod_cast hV.1.le
  have h1 : V < 2 ^ (w - 2) := by exact_mod_cast hV.2
  have hpow : (2 : ℤ) ^ (w - 1) = 2 * 2 ^ (w - 2) := by
    rw [show w - 1 = (w - 2) + 1 by omega, pow_succ]; ring
  have hp : (0 : ℤ) < 2 ^ (w - 2) := by positivity
  have et : y.toInt = V := by rw [e, Bits.toInt_ofInt (by omega) (by omega) (by omega)]
  have hz := ht (by rw [et]; exact h0) (by rw [et]; exact h1)
  rw [et] at hz
  obtain ⟨Z, ez, hZ⟩ : ∃ Z : ℤ, t = BitVec.ofInt w Z ∧ |(Z : ℚ) - (V : ℚ) / 2 ^ a| ≤ 1 := by
    have hNz : (0 : ℤ) < 2 ^ a := by positivity
    have hd := Int.mul_ediv_add_emod V (2 ^ a)
    have hm0 := Int.emod_nonneg V hNz.ne'
    have hm1 := Int.emod_lt_of_pos V hNz
    generalize V / 2 ^ a = D at *
    generalize V % 2 ^ a = R at *
    have e1 : (V : ℚ) / 2 ^ a = D + R / 2 ^ a := by
      rw [← hd]
      push_cast
      field_simp
    have r0 : (0 : ℚ) ≤ R / 2 ^ a := div_nonneg (by exact_mod_cast hm0) hA.le
    have r1 : (R : ℚ) / 2 ^ a ≤ 1 := by
      rw [div_le_one hA]
      exact_mod_cast hm1.le
    rcases hz with hz | hz
    · exact ⟨D, hz, by rw [e1, abs_le]; constructor <;> linarith⟩
    · exact ⟨D + 1, hz, by rw [e1, abs_le]; push_cast; constructor <;> linarith⟩
  refine ⟨Z, ez, ?_⟩
  have e2 : (Z : ℚ) / 2 ^ frac - 1 / 2 ^ a * q = 1 / 2 ^ a * ((V : ℚ) / 2 ^ frac - q) +
      ((Z : ℚ) - (V : ℚ) / 2 ^ a) / 2 ^ frac := by
    field_simp
    ring
  rw [e2]
  refine (abs_add_le _ _).trans (add_le_add ?_ ?_)
  · rw [abs_mul, abs_of_pos (by positivity : (0 : ℚ) < 1 / 2 ^ a)]
    exact mul_le_mul_of_nonneg_left h (by positivity)
  · rw [abs_div, abs_of_pos hN]
    exact div_le_div_of_nonneg_right hZ hN.le

theorem PolyVal.close {frac : ℕ} (hw : 2 ≤ w) {B C : ℚ} (hB : 1 ≤ B) (hC : 2 ≤ C) {P : ℕ}
    (hP : (P * P : ℚ) ≤ 2 ^ frac) (hr : 2 * C * B ^ P * (2 ^ frac * 2 ^ frac) < 2 ^ (w - 2))
    {x : T (.arith w n)} {i : ℕ} {cs : List (Coeff w)} {acc z : T (.arith w n)}
    (h : PolyVal frac true x i cs acc z) (k : Fin n) (hb : |real frac (x k)| ≤ B)
    (hc : ∀ c ∈ cs, |c.num frac| ≤ C) (hi : 0 < i) (hlen : i + cs.length ≤ P + 1) {q : ℚ}
    (ha : Close frac (acc k) q (polyErr frac B C (i - 1))) :
    Close frac (z k) (q + evalFrom (real frac (x k)) i (cs.map (Coeff.num frac)))
      (polyErr frac B C (i - 1 + cs.length)) := by
  have step : ∀ i, 0 < i → polyErr frac B C (i + 1 - 1) =
      C * prodErr frac B i + 1 / 2 ^ frac + polyErr frac B C (i - 1) := by
    intro i hi
    obtain ⟨i, rfl⟩ : ∃ a, i = a + 1 := ⟨i - 1, by omega⟩
    rw [Nat.add_sub_cancel, polyErr_succ]
    simp only [Nat.add_sub_cancel]
    ring
  induction h generalizing q with
  | nil => simpa [evalFrom] using ha
  | @skip i cs acc z h ih =>
    simp only [List.length_cons] at hlen
    have := ih (fun c h => hc c (by simp [h])) (by omega) (by omega) (q := q) (ha.mono (by
      rw [step i hi]
      have := prodErr_nonneg (frac := frac) hB hi
      have : (0 : ℚ) ≤ C * prodErr frac B i + 1 / 2 ^ frac := by positivity
      linarith))
    rw [List.map_cons, evalFrom, List.length_cons]
    rw [show i + 1 - 1 + cs.length = i - 1 + (cs.length + 1) by omega] at this
    convert this using 2
    simp [Coeff.num]
  | @term i c cs acc t z ht h ih =>
    simp only [List.length_cons] at hlen
    have hr4 : 4 * B ^ P * (2 ^ frac * 2 ^ frac) < 2 ^ (w - 2) := by
      refine lt_of_le_of_lt ?_ hr
      refine mul_le_mul_of_nonneg_right ?_ (by positivity)
      have : (0 : ℚ) ≤ B ^ P := by positivity
      nlinarith
    have hcC := hc c (by simp)
    have e0 := prodErr_nonneg (frac := frac) hB hi
    have key : Close frac (t k) (c.num frac * real frac (x k) ^ i)
        (C * prodErr frac B i + 1 / 2 ^ frac) := by
      cases c with
      | zero => cases ht
      | int c =>
        obtain ⟨y, hy, rfl⟩ := ht
        obtain ⟨-, h2, h3⟩ := pow_close hw hB hP hr4 hy (by omega) k hb
        refine (h3.int_mul c).mono ?_
        have h4 : |(c.toInt : ℚ)| * prodErr frac B i ≤ C * prodErr frac B i :=
          mul_le_mul_of_nonneg_right hcC e0
        have : (0 : ℚ) ≤ 1 / 2 ^ frac := by positivity
        linarith
      | word c =>
        obtain ⟨y, hy, ht⟩ := ht
        obtain ⟨-, h2, h3⟩ := pow_close hw hB hP hr4 hy (by omega) k hb
        exact term_close hw hB hP hr hi (by omega) h2 h3 hcC (ht k)
      | shift a =>
        obtain ⟨y, hy, ht⟩ := ht
        obtain ⟨-, h2, h3⟩ := pow_close hw hB hP hr4 hy (by omega) k hb
        have hcC' : (1 : ℚ) / 2 ^ a ≤ C := by
          have : |(1 : ℚ) / 2 ^ a| ≤ C := hcC
          rwa [abs_of_pos (by positivity)] at this
        refine (h3.shift hw ?_ (ht k)).mono (by
          have := mul_le_mul_of_nonneg_right hcC' e0
          linarith)
        have hle := prodErr_le hB hi (by omega) hP
        have hBP : B ^ i ≤ B ^ P := pow_le_pow_right₀ hB (by omega)
        have hN : (1 : ℚ) ≤ 2 ^ frac := one_le_pow₀ (by norm_num)
        have hBP0 : (1 : ℚ) ≤ B ^ P := one_le_pow₀ hB
        refine lt_of_le_of_lt ?_ hr4
        calc _ ≤ (4 * B ^ P) * 2 ^ frac := mul_le_mul_of_nonneg_right (by linarith) (by positivity)
          _ ≤ (4 * B ^ P) * (2 ^ frac * 2 ^ frac) := by
            refine mul_le_mul_of_nonneg_left ?_ (by positivity)
            nlinarith
    have := ih (fun c h => hc c (by simp [h])) (by omega) (by omega)
      (q := c.num frac * real frac (x k) ^ i + q) (by rw [step i hi]; exact key.add ha)
    rw [List.map_cons, evalFrom, List.length_cons]
    rw [show i + 1 - 1 + cs.length = i - 1 + (cs.length + 1) by omega] at this
    convert this using 1
    ring

theorem polyErr_zero (frac : ℕ) (B C : ℚ) : polyErr frac B C 0 = 0 := by simp [polyErr]

/-- **C32** (`polynomial`, scaled): at numbers of size at most `B`, with coefficients of size at most
`C`, the result is within `polyErr` of `c₀ + Σ c_d x^d`, as long as that fits the ring. -/
theorem polynomial_scaled {frac : ℕ} {B C : ℚ} (hB : 1 ≤ B) (hC : 2 ≤ C) {cs : List (Coeff w)}
    (hsmall : (cs.length * cs.length : ℚ) ≤ 2 ^ frac)
    (hfit : 2 * C * B ^ cs.length * (2 ^ frac * 2 ^ frac) < 2 ^ (w - 2))
    (hw : frac + frac + 2 ≤ w) (hs : ∀ c ∈ cs, c.Ok w frac true) (hc : ∀ c ∈ cs, |c.num frac| ≤ C)
    (c₀ : BitVec w) {x : T (.arith w n)} {X : Shares (T (.arith w n))} (hx : Holds x X)
    (hb : ∀ i, |real frac (x i)| ≤ B)
    (hrange : ∀ i, (|real frac c₀ + evalFrom (real frac (x i)) 1 (cs.map (Coeff.num frac))| +
      polyErr frac B C cs.length) * 2 ^ frac < 2 ^ (w - 1)) :
    ∃ m, polynomial frac true X c₀ cs = .ok m ∧
      M.All (fun o => ∃ z : T (.arith w n), BodyHolds z o ∧ ∀ i,
        |real frac (z i) - (real frac c₀ + evalFrom (real frac (x i)) 1 (cs.map (Coeff.num frac)))| ≤
          polyErr frac B C cs.length) m := by
  obtain ⟨m, hm, hall⟩ := polynomial_val (frac := frac) (sc := true) (fun _ => hw) hs c₀ hx
  refine ⟨m, hm, hall.mono ?_⟩
  rintro o ⟨z, hz, hv⟩
  refine ⟨z, hz, fun i => ?_⟩
  have key := hv.close (by omega) hB hC hsmall hfit i (hb i) hc one_pos (by omega)
    (q := real frac c₀) (by rw [Nat.sub_self, polyErr_zero]; exact Close.refl frac c₀)
  rw [Nat.sub_self, Nat.zero_add] at key
  exact key.value (by omega) (hrange i)

/-! ## C32: piecewise -/

/-- `x` lies in piece `j`: above the breakpoint before it, not above the one after it. -/
def InPiece {m : ℕ} (c : Fin m → BitVec w) (x : BitVec w) (j : Fin (m + 1)) : Prop :=
  (∀ h : j.1 < m, x.toInt ≤ (c ⟨j.1, h⟩).toInt) ∧
    (∀ h : 0 < j.1, (c ⟨j.1 - 1, by omega⟩).toInt < x.toInt)

/-- With breakpoints in order every number lies in exactly one piece. -/
theorem piece_unique {m : ℕ} {c : Fin m → BitVec w} (hc : ∀ i j, i ≤ j → (c i).toInt ≤ (c j).toInt)
    (x : BitVec w) : ∃! j, InPiece c x j := by
  classical
  let S : Finset (Fin m) := Finset.univ.filter fun i => (c i).toInt < x.toInt
  have hex : ∃ j : ℕ, j ≤ m ∧ (∀ h : j < m, x.toInt ≤ (c ⟨j, h⟩).toInt) := ⟨m, le_rfl, fun h => absurd h (lt_irrefl _)⟩
  have hmin := Nat.find_spec hex
  refine ⟨⟨Nat.find hex, by omega⟩, ⟨hmin.2, ?_⟩, ?_⟩
  · intro h
    by_contra hcon
    refine Nat.find_min hex (m := Nat.find hex - 1) (by simp only [] at h; omega) ⟨by omega, fun h' => ?_⟩
    exact not_lt.1 hcon
  · intro j hj
    apply Fin.ext
    show j.1 = Nat.find hex
    apply le_antisymm
    · by_contra hlt
      have h0 : 0 < j.1 := by omega
      have h1 := hj.2 h0
      have h2 := hmin.2 (by omega)
      have := hc ⟨Nat.find hex, by omega⟩ ⟨j.1 - 1, by omega⟩ (by rw [Fin.le_def]; simp only []; omega)
      omega
    · exact Nat.find_min' hex ⟨by omega, hj.1⟩

theorem chosen_iff {e m : ℕ} {c : Fin m → BitVec (2 ^ e)} {x : BitVec (2 ^ e)}
    (hc : ∀ i, Comparable (c i) x) (j : Fin (m + 1)) : chosen x c j = true ↔ InPiece c x j := by
  unfold chosen InPiece
  rw [Bool.and_eq_true]
  refine and_congr ?_ ?_
  · by_cases h : j.1 < m
    · rw [dif_pos h]
      have := (hc ⟨j.1, h⟩).msb_sub
      rw [Bool.not_eq_true', ← Bool.not_eq_true, this, not_lt]
      exact ⟨fun k _ => k, fun k => k h⟩
    · rw [dif_neg h]
      exact ⟨fun _ h' => absurd h' h, fun _ => rfl⟩
  · by_cases h : j.1 = 0
    · rw [dif_pos h]
      exact ⟨fun _ h' => by omega, fun _ => rfl⟩
    · rw [dif_neg h, (hc _).msb_sub]
      exact ⟨fun k _ => k, fun k => k (by omega)⟩

/-- The sum over the pieces is the one chosen. -/
theorem chooseV_eq {e m : ℕ} {c : Fin m → BitVec (2 ^ e)}
    (hm : ∀ i j, i ≤ j → (c i).toInt ≤ (c j).toInt) {x : T (.arith (2 ^ e) n)} {i : Fin n}
    (hc : ∀ k, Comparable (c k) (x i)) (f : T (.arith (2 ^ e) ((m + 1) * n))) {j : Fin (m + 1)}
    (hj : InPiece c (x i) j) : chooseV (chosenV x c) f i = f (finProdFinEquiv (j, i)) := by
  show ∑ k, gate (chosenV x c) f (finProdFinEquiv (k, i)) = _
  have val : ∀ k, gate (chosenV x c) f (finProdFinEquiv (k, i)) =
      if k = j then f (finProdFinEquiv (k, i)) else 0 := by
    intro k
    show (if (chosenV x c (finProdFinEquiv (k, i))).bits = 1#1 then f (finProdFinEquiv (k, i)) else 0) = _
    have hb : (chosenV x c (finProdFinEquiv (k, i))).bits = 1#1 ↔ k = j := by
      show BitVec.ofBool (chosen (x (finProdFinEquiv.symm (finProdFinEquiv (k, i))).2) c
        (finProdFinEquiv.symm (finProdFinEquiv (k, i))).1) = 1#1 ↔ _
      rw [Equiv.symm_apply_apply]
      have one : ∀ b : Bool, BitVec.ofBool b = 1#1 ↔ b = true := by decide
      rw [one, chosen_iff hc]
      obtain ⟨j₀, h1, h2⟩ := piece_unique hm (x i)
      exact ⟨fun h => (h2 k h).trans (h2 j hj).symm, fun h => h ▸ hj⟩
    simp only [hb]
  rw [Finset.sum_congr rfl fun k _ => val k, Finset.sum_ite_eq' Finset.univ j]
  simp

theorem piecewise_sim {e m : ℕ} (he : 0 < e) {frac : ℕ} {sc : Bool} (hw : sc = true → frac + frac + 2 ≤ 2 ^ e)
    (c : Fin m → BitVec (2 ^ e)) (c₀ : Fin (m + 1) → BitVec (2 ^ e))
    (cs : List (Fin (m + 1) → BitVec (2 ^ e))) :
    ∃ F : Shares (T (.arith (2 ^ e) n)) → M (Shares (T (.arith (2 ^ e) n))),
      (∀ X, piecewise frac sc X c c₀ cs = .ok (F X)) ∧
      ∀ {σ : Fin 3} {x x' : T (.arith (2 ^ e) n)} {X X' : Shares (T (.arith (2 ^ e) n))},
        Alike σ x x' X X' →
        M.Sim σ (fun o o' => ∃ f f', MultiVal frac sc x 1 cs (spreadCol n c₀) f ∧
          MultiVal frac sc x' 1 cs (spreadCol n c₀) f' ∧
          Alike σ (chooseV (chosenV x c) f) (chooseV (chosenV x' c) f') o o') (F X) (F X') := by
  choose l hl using fun X => multiTerms_ok (n := n) hw cs X 1 one_pos
  refine ⟨fun X => do
    let b ← pieceBits X c
    let f ← sumTerms (l X) (.pub fun _ => spreadCol n c₀)
    choosePiece f b, fun X => by simp only [piecewise, multiPolynomial, hl], ?_⟩
  intro σ x x' X X' hx
  refine M.Sim.bind (pieceBits_sim he hx c) fun b b' hb => ?_
  refine M.Sim.bind (multiTerms_sim hx cs 1 one_pos _ _ (hl X) (hl X') _ _ _ _
    (BRel.copies (spreadCol n c₀))) ?_
  rintro f f' ⟨z, z', hz, hz', hf⟩
  exact (choosePiece_sim hf hb).mono fun o o' h => ⟨z, z', hz, hz', h⟩

/-- **C32** (`polynomial_piecewise`, unscaled): with breakpoints in order, comparable to `x`, the
result is exactly the polynomial of the piece that `x` lies in. -/
theorem piecewise_exact {e m : ℕ} (he : 0 < e) {frac : ℕ} {c : Fin m → BitVec (2 ^ e)}
    (hm : ∀ i j, i ≤ j → (c i).toInt ≤ (c j).toInt) (c₀ : Fin (m + 1) → BitVec (2 ^ e))
    (cs : List (Fin (m + 1) → BitVec (2 ^ e))) {x : T (.arith (2 ^ e) n)}
    {X : Shares (T (.arith (2 ^ e) n))} (hx : Holds x X) (hc : ∀ i k, Comparable (c k) (x i)) :
    ∃ r, piecewise frac false X c c₀ cs = .ok r ∧
      M.All (fun o => ∃ z : T (.arith (2 ^ e) n), Holds z o ∧ ∀ i j, InPiece c (x i) j →
        z i = c₀ j + evalFrom (x i) 1 (cs.map (· j))) r := by
  obtain ⟨F, hF, hsim⟩ := piecewise_sim (n := n) he (frac := frac) (sc := false) (by simp) c c₀ cs
  refine ⟨F X, hF X, (hsim (hx.alike 0)).left ?_⟩
  rintro o o' ⟨f, f', hf, -, h⟩
  refine ⟨_, h.1, fun i j hj => ?_⟩
  rw [chooseV_eq hm (hc i) f hj, hf.exact j i]
  unfold spreadCol
  rw [Equiv.symm_apply_apply]

/-- **C32** (`polynomial_piecewise`, scaled): within `polyErr` of the polynomial of the piece that
`x` lies in. -/
theorem piecewise_scaled {e m : ℕ} (he : 0 < e) {frac : ℕ} {B C : ℚ} (hB : 1 ≤ B) (hC : 2 ≤ C)
    {c : Fin m → BitVec (2 ^ e)} (hm : ∀ i j, i ≤ j → (c i).toInt ≤ (c j).toInt)
    (c₀ : Fin (m + 1) → BitVec (2 ^ e)) {cs : List (Fin (m + 1) → BitVec (2 ^ e))}
    (hsmall : (cs.length * cs.length : ℚ) ≤ 2 ^ frac)
    (hfit : 2 * C * B ^ cs.length * (2 ^ frac * 2 ^ frac) < 2 ^ (2 ^ e - 2))
    (hw : frac + frac + 2 ≤ 2 ^ e) (hcs : ∀ d ∈ cs, ∀ j, |real frac (d j)| ≤ C)
    {x : T (.arith (2 ^ e) n)} {X : Shares (T (.arith (2 ^ e) n))} (hx : Holds x X)
    (hb : ∀ i, |real frac (x i)| ≤ B) (hc : ∀ i k, Comparable (c k) (x i))
    (hrange : ∀ i j, InPiece c (x i) j →
      (|real frac (c₀ j) + evalFrom (real frac (x i)) 1 (cs.map fun d => real frac (d j))| +
        polyErr frac B C cs.length) * 2 ^ frac < 2 ^ (2 ^ e - 1)) :
    ∃ r, piecewise frac true X c c₀ cs = .ok r ∧
      M.All (fun o => ∃ z : T (.arith (2 ^ e) n), Holds z o ∧ ∀ i j, InPiece c (x i) j →
        |real frac (z i) -
          (real frac (c₀ j) + evalFrom (real frac (x i)) 1 (cs.map fun d => real frac (d j)))| ≤
            polyErr frac B C cs.length) r := by
  obtain ⟨F, hF, hsim⟩ := piecewise_sim (n := n) he (frac := frac) (sc := true) (fun _ => hw) c c₀ cs
  refine ⟨F X, hF X, (hsim (hx.alike 0)).left ?_⟩
  rintro o o' ⟨f, f', hf, -, h⟩
  refine ⟨_, h.1, fun i j hj => ?_⟩
  rw [chooseV_eq hm (hc i) f hj]
  have key := hf.close (by omega) hB hC hsmall hfit j i (hb i) (fun d hd => hcs d hd j) one_pos (by omega)
    (q := real frac (c₀ j)) (by
      rw [Nat.sub_self, polyErr_zero]
      unfold spreadCol
      rw [Equiv.symm_apply_apply]
      exact Close.refl frac (c₀ j))
  rw [Nat.sub_self, Nat.zero_add] at key
  exact key.value (by omega) (hrange i j hj)

/-! ## C07 -/

/-- **C07** for `polynomial_piecewise`. -/
theorem piecewise_secrecy {e m : ℕ} (he : 0 < e) {frac : ℕ} {sc : Bool}
    (hw : sc = true → frac + frac + 2 ≤ 2 ^ e) (c : Fin m → BitVec (2 ^ e))
    (c₀ : Fin (m + 1) → BitVec (2 ^ e)) (cs : List (Fin (m + 1) → BitVec (2 ^ e))) (σ : Fin 3)
    (x x' : T (.arith (2 ^ e) n)) :
    ∃ F : Shares (T (.arith (2 ^ e) n)) → M (Shares (T (.arith (2 ^ e) n))),
      (∀ X, piecewise frac sc X c c₀ cs = .ok (F X)) ∧
        M.view σ (share x >>= F) = M.view σ (share x' >>= F) := by
  obtain ⟨F, hF, hsim⟩ := piecewise_sim (n := n) he hw c c₀ cs
  exact ⟨F, hF, hides_of_sim fun _ _ h => hsim h⟩

/-- **C07** for `pow`. -/
theorem pow_secrecy {frac p : ℕ} {sc : Bool} (hp : 0 < p) (hw : sc = true → frac + frac + 2 ≤ w)
    (σ : Fin 3) (x x' : T (.arith w n)) :
    ∃ F : Shares (T (.arith w n)) → M (Shares (T (.arith w n))),
      (∀ X, pow frac sc p X = .ok (F X)) ∧
        M.view σ (share x >>= F) = M.view σ (share x' >>= F) := by
  choose F hF using fun X => pow_ok (n := n) hp (.inr hw) X
  exact ⟨F, hF, hides_of_sim fun _ _ h => pow_products hp h (hF _) (hF _)⟩

/-- **C07** for `polynomial`. -/
theorem polynomial_secrecy {frac : ℕ} {sc : Bool} (hw : sc = true → frac + frac + 2 ≤ w)
    {cs : List (Coeff w)} (hc : ∀ c ∈ cs, c.Ok w frac sc) (c₀ : BitVec w) (σ : Fin 3)
    (x x' : T (.arith w n)) :
    ∃ F : Shares (T (.arith w n)) → M (Body (.arith w n)),
      (∀ X, polynomial frac sc X c₀ cs = .ok (F X)) ∧
        M.view σ (share x >>= F) = M.view σ (share x' >>= F) := by
  choose l hl using fun X => termList_ok (n := n) hw hc X 1 one_pos
  refine ⟨fun X => sumTerms (l X) (.pub fun _ _ => c₀), fun X => by unfold polynomial; rw [hl], ?_⟩
  exact hides_of_sim fun _ _ h => termList_sim h cs 1 one_pos _ _ (hl _) (hl _) (fun _ => c₀)
    (fun _ => c₀) _ _ (BRel.copies (s := .arith w n) fun _ => c₀)

/-- The default sigmoid (aby3.py:4226-4230) meets the conditions of `piecewise_scaled` on 64-bit
words with 10 fractional bits, for every number up to 2^30 in size: breakpoints -4, -1.5, 1.5, 4,
pieces of degree one. -/
example : 2 * (2 : ℚ) * (2 ^ 30) ^ 1 * (2 ^ 10 * 2 ^ 10) < 2 ^ (2 ^ 6 - 2) ∧
    ∀ i j : Fin 4, i ≤ j → (![-4096#64, -1536#64, 1536#64, 4096#64] i).toInt ≤
      (![-4096#64, -1536#64, 1536#64, 4096#64] j).toInt := by
  refine ⟨by norm_num, by decide⟩

/-- A number in the middle piece. -/
example : InPiece ![-4096#64, -1536#64, 1536#64, 4096#64] 100#64 2 := by
  refine ⟨fun _ => ?_, fun _ => ?_⟩
  · show (100#64).toInt ≤ (1536#64).toInt
    decide
  · show (-1536#64 : BitVec 64).toInt < (100#64).toInt
    decide

end Verif.Aby3
