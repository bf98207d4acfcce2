import Verif.Crt.Lemmas
import Mathlib.Algebra.BigOperators.Intervals
import Mathlib.Algebra.Order.BigOperators.Ring.Finset
import Mathlib.Data.Fintype.BigOperators
import Mathlib.Tactic.FinCases
import Mathlib.Tactic.NormNum.GCD
import Mathlib.Tactic.IntervalCases

/-!
# What int100 tensors compute

C16: sums, differences, products and matrix products are exact. C17: `mod` and `truncate` are the
residue and the exact floor division of the centred value.
-/

namespace Verif.Crt

open Finset

variable {k : ℕ}

/-- The value of an expression over the integers. -/
def Expr.value {n : ℕ} (vals : Fin n → ℤ) : Expr n → ℤ
  | .var i => vals i
  | .const z => z
  | .add x y => x.value vals + y.value vals
  | .sub x y => x.value vals - y.value vals
  | .mul x y => x.value vals * y.value vals
  | .neg x => -x.value vals

/-- The integer of smallest absolute value that a tensor element stands for. -/
def centred (F : Factory k) (x : Backing k) : ℤ := (F.toBigint x).bmod (modulus F.m)

/-- `v` fits: it is the centred representative of its residue class modulo `M`. -/
def Fits (M : ℕ) (v : ℤ) : Prop := -(M / 2 : ℕ) ≤ v ∧ v < ((M + 1) / 2 : ℕ)

theorem toBigint_eq {F : Factory k} (G : Good F) {x : Backing k} {v : ℤ} (h : Rep F x v) :
    F.toBigint x = v % modulus F.m := by
  unfold Factory.toBigint
  have : ∑ i, x i * (cofactor F.m i * F.q i % modulus F.m) ≡ v [ZMOD modulus F.m] := by
    refine Int.ModEq.trans (Int.ModEq.sum fun i _ => (Int.mod_modEq _ _).mul_left _) ?_
    refine G.crt fun j => ?_
    rw [← Finset.add_sum_erase _ _ (mem_univ j)]
    have h2 : ∑ i ∈ univ.erase j, x i * (cofactor F.m i * F.q i) ≡ 0 [ZMOD F.m j] := by
      rw [Int.modEq_zero_iff_dvd]
      exact Finset.dvd_sum fun i hi =>
        ((dvd_cofactor (G.mpos i) (Finset.ne_of_mem_erase hi).symm).mul_right _).mul_left _
    have h3 : x j * (cofactor F.m j * F.q j) ≡ v [ZMOD F.m j] := by
      have := (G.qspec j).mul (h j ▸ Int.mod_modEq v (F.m j) : x j ≡ v [ZMOD F.m j])
      rw [one_mul, mul_comm] at this
      exact this
    simpa using h3.add h2
  exact this

theorem centred_eq {F : Factory k} (G : Good F) {x : Backing k} {v : ℤ} (h : Rep F x v)
    (hv : Fits (modulus F.m) v) : centred F x = v := by
  unfold centred
  rw [toBigint_eq G h, Int.emod_bmod]
  obtain ⟨h0, h1⟩ := hv
  have hM : 0 < modulus F.m := by exact_mod_cast G.modulus_pos
  apply Int.bmod_eq_of_le <;> push_cast at * <;> omega

/-- **C16, arithmetic.** For every list of moduli that the constructor accepts, every expression in
sums, differences, products and negations, and all integers: the tensor result stands for the exact
integer result, as long as that fits; `int32` intermediate results never spoil it, however large the
intermediate integers are. `to_bigint` is the result modulo the modulus. -/
theorem crt_arithmetic {m : Fin k → ℕ} {F : Factory k} (hF : Factory.make m = .ok F) {n : ℕ}
    (e : Expr n) (vals : Fin n → ℤ) :
    F.toBigint (e.run F fun i => F.decompose (vals i)) = e.value vals % modulus m ∧
    (Fits (modulus m) (e.value vals) →
      centred F (e.run F fun i => F.decompose (vals i)) = e.value vals) := by
  obtain ⟨G, rfl⟩ := make_good hF
  have h := G.run (env := fun i => F.decompose (vals i)) (fun i => G.decompose (vals i))
    (Expr.value vals) (fun _ => rfl) (fun _ => rfl) (fun _ _ => rfl) (fun _ _ => rfl)
    (fun _ _ => rfl) (fun _ => rfl) e
  exact ⟨toBigint_eq G h, centred_eq G h⟩

/-- The residues of an integer matrix. -/
def encodeMat (F : Factory k) {p n : ℕ} (X : Fin p → Fin n → ℤ) : Fin k → Fin p → Fin n → ℤ :=
  fun i a j => F.decompose (X a j) i

theorem matmulPart_eq {F : Factory k} (G : Good F) {p n r : ℕ} (X : Fin p → Fin n → ℤ)
    (Y : Fin n → Fin r → ℤ) (left right : ℕ)
    (h : #{j : Fin n | left ≤ j.val ∧ j.val < right} ≤ 1024) (i : Fin k) (a : Fin p) (b : Fin r) :
    F.matmulPart left right (encodeMat F X) (encodeMat F Y) i a b
      = (∑ j : Fin n with left ≤ j.val ∧ j.val < right, X a j * Y j b) % F.m i := by
  unfold Factory.matmulPart
  have lo : ∀ z, 0 ≤ F.decompose z i := fun z => G.lo (G.decompose z) i
  have hi : ∀ z, F.decompose z i ≤ 1447 := fun z => G.hi' (G.decompose z) i
  have h0 : 0 ≤ ∑ j : Fin n with left ≤ j.val ∧ j.val < right, encodeMat F X i a j * encodeMat F Y i j b :=
    Finset.sum_nonneg fun j _ => mul_nonneg (lo _) (lo _)
  have h1 : ∑ j : Fin n with left ≤ j.val ∧ j.val < right, encodeMat F X i a j * encodeMat F Y i j b
      ≤ 1024 * (1447 * 1447) := by
    refine (Finset.sum_le_card_nsmul _ _ (1447 * 1447) fun j _ =>
      (G.mul_bound (lo _) (hi _) (lo _) (hi _)).2).trans ?_
    rw [nsmul_eq_mul]
    have : ((#{j : Fin n | left ≤ j.val ∧ j.val < right} : ℕ) : ℤ) ≤ 1024 := by exact_mod_cast h
    nlinarith
  rw [wrap32_eq (by omega) (by omega)]
  exact Int.ModEq.sum fun j _ => (Int.mod_modEq (X a j) (F.m i)).mul (Int.mod_modEq (Y j b) (F.m i))

theorem card_chunk {n : ℕ} (left right : ℕ) :
    #{j : Fin n | left ≤ j.val ∧ j.val < right} ≤ right - left := by
  rw [← Nat.card_Ico]
  refine Finset.card_le_card_of_injOn (fun j : Fin n => j.val) (fun j hj => ?_)
    (fun a _ b _ h => Fin.ext h)
  simpa using hj

/-- **C16, matrix products.** For matrices of any size (any number of columns, in parts of 1024), the
result stands for the exact integer matrix product; no sum of `int32` products overflows. -/
theorem crt_matmul {m : Fin k → ℕ} {F : Factory k} (hF : Factory.make m = .ok F) {p n r : ℕ}
    (X : Fin p → Fin n → ℤ) (Y : Fin n → Fin r → ℤ) (a : Fin p) (b : Fin r) :
    F.toBigint (fun i => F.matmul (encodeMat F X) (encodeMat F Y) i a b)
      = (∑ j, X a j * Y j b) % modulus m ∧
    (Fits (modulus m) (∑ j, X a j * Y j b) →
      centred F (fun i => F.matmul (encodeMat F X) (encodeMat F Y) i a b) = ∑ j, X a j * Y j b) := by
  obtain ⟨G, rfl⟩ := make_good hF
  suffices h : Rep F (fun i => F.matmul (encodeMat F X) (encodeMat F Y) i a b) (∑ j, X a j * Y j b) from
    ⟨toBigint_eq G h, centred_eq G h⟩
  intro i
  simp only [Factory.matmul]
  split_ifs with hn
  · rw [matmulPart_eq G X Y 0 n ((card_chunk 0 n).trans (by omega))]
    congr 1
    exact Finset.sum_congr (by ext j; simp) fun _ _ => rfl
  · have part : ∀ c i a b, F.matmulPart (c * 1024) ((c + 1) * 1024) (encodeMat F X) (encodeMat F Y) i a b
        = (∑ j : Fin n with c * 1024 ≤ j.val ∧ j.val < (c + 1) * 1024, X a j * Y j b) % F.m i :=
      fun c => matmulPart_eq G X Y _ _ ((card_chunk _ _).trans (by omega))
    have fold : ∀ (cs : List ℕ) (z : Fin k → Fin p → Fin r → ℤ) (v : ℤ), z i a b = v % F.m i →
        (cs.map fun c => F.matmulPart (c * 1024) ((c + 1) * 1024) (encodeMat F X)
          (encodeMat F Y)).foldl (fun s t i a b => wrap32 (s i a b + t i a b) % F.m i) z i a b
          = (v + (cs.map fun c => ∑ j : Fin n with c * 1024 ≤ j.val ∧ j.val < (c + 1) * 1024,
            X a j * Y j b).sum) % F.m i := by
      intro cs
      induction cs with
      | nil => intro z v hz; simpa using hz
      | cons c cs ih =>
        intro z v hz
        rw [List.map_cons, List.foldl_cons, List.map_cons, List.sum_cons, ← add_assoc]
        refine ih _ _ ?_
        have l0 := Int.emod_nonneg v (G.mpos' i).ne'
        have l1 := Int.emod_lt_of_pos v (G.mpos' i)
        have l2 := G.m_le i
        rw [hz, part]
        generalize hw : (∑ j : Fin n with c * 1024 ≤ j.val ∧ j.val < (c + 1) * 1024, X a j * Y j b) = w
        have l3 := Int.emod_nonneg w (G.mpos' i).ne'
        have l4 := Int.emod_lt_of_pos w (G.mpos' i)
        rw [wrap32_eq (by omega) (by omega), ← Int.add_emod]
    obtain ⟨N, hN⟩ : ∃ N, (n + 1023) / 1024 = N + 1 := ⟨(n + 1023) / 1024 - 1, by omega⟩
    rw [hN, List.range_succ_eq_map, List.map_cons]
    simp only
    rw [fold _ _ _ (part 0 i a b)]
    congr 1
    have e : (∑ j : Fin n with 0 * 1024 ≤ j.val ∧ j.val < (0 + 1) * 1024, X a j * Y j b)
        + ((List.map Nat.succ (List.range N)).map fun c =>
          ∑ j : Fin n with c * 1024 ≤ j.val ∧ j.val < (c + 1) * 1024, X a j * Y j b).sum
        = ∑ c ∈ range (N + 1), ∑ j : Fin n with c * 1024 ≤ j.val ∧ j.val < (c + 1) * 1024,
          X a j * Y j b := by
      rw [← List.sum_cons, ← List.map_cons (f := fun c =>
        ∑ j : Fin n with c * 1024 ≤ j.val ∧ j.val < (c + 1) * 1024, X a j * Y j b), ←
        List.range_succ_eq_map]
      rfl
    rw [e]
    have e2 : ∀ c, ({j : Fin n | c * 1024 ≤ j.val ∧ j.val < (c + 1) * 1024} : Finset (Fin n))
        = ({j : Fin n | j.val / 1024 = c} : Finset (Fin n)) := by
      intro c; ext j; simp only [mem_filter, mem_univ, true_and]; omega
    simp only [e2]
    exact Finset.sum_fiberwise_of_maps_to (fun j _ => by
      rw [mem_range]; have := j.isLt; omega) _

/-- **C16, sums.** `reduce_sum` is exact as long as the number of elements times the largest modulus
stays below `2^31` (for int100: up to 1 498 591 elements). -/
theorem reduce_sum_partial {m : Fin k → ℕ} {F : Factory k} (hF : Factory.make m = .ok F) {n : ℕ}
    (hn : ∀ i, n * (m i - 1) < 2 ^ 31) (X : Fin n → ℤ) :
    F.toBigint (F.reduceSum fun j => F.decompose (X j)) = (∑ j, X j) % modulus m ∧
    (Fits (modulus m) (∑ j, X j) → centred F (F.reduceSum fun j => F.decompose (X j)) = ∑ j, X j) := by
  obtain ⟨G, rfl⟩ := make_good hF
  suffices h : Rep F (F.reduceSum fun j => F.decompose (X j)) (∑ j, X j) from
    ⟨toBigint_eq G h, centred_eq G h⟩
  intro i
  simp only [Factory.reduceSum]
  have h0 : 0 ≤ ∑ j, F.decompose (X j) i := Finset.sum_nonneg fun j _ => G.lo (G.decompose _) i
  have h1 : ∑ j, F.decompose (X j) i ≤ n * ((F.m i : ℤ) - 1) := by
    refine (Finset.sum_le_card_nsmul _ _ ((F.m i : ℤ) - 1) fun j _ => by
      have := G.hi (G.decompose (X j)) i; omega).trans ?_
    simp
  have h2 : (n : ℤ) * ((F.m i : ℤ) - 1) < 2 ^ 31 := by
    have h3 := hn i
    have h4 := G.mpos i
    zify [h4] at h3
    exact_mod_cast h3
  rw [wrap32_eq (by omega) (by omega)]
  exact Int.ModEq.sum fun j _ => Int.mod_modEq (X j) (F.m i)

/-- The `int100` factory exists. -/
theorem make100 : ∃ F, Factory.make moduli100 = .ok F := by
  rw [make_iff]
  refine ⟨by norm_num, fun i => ?_, fun i j => ?_⟩
  · fin_cases i <;> decide
  · revert i j; decide

/-- Beyond that, `reduce_sum` is wrong: 1 500 000 elements, each holding `-1`. Their sum is
`-1500000`, which fits by far, but the component modulo 1433 overflows `int32`. -/
theorem reduce_sum_false : ∃ F, Factory.make moduli100 = .ok F ∧
    Fits (modulus moduli100) (∑ _j : Fin 1500000, (-1)) ∧
    centred F (F.reduceSum fun _ : Fin 1500000 => F.decompose (-1)) ≠ ∑ _j : Fin 1500000, (-1) := by
  obtain ⟨F, hF⟩ := make100
  refine ⟨F, hF, ?_, ?_⟩
  · simp only [Finset.sum_const, Finset.card_univ, Fintype.card_fin, modulus, moduli100]
    constructor <;> decide
  · obtain ⟨G, hm⟩ := make_good hF
    intro h
    -- the component modulo 1433
    have hx : ∀ i, F.reduceSum (fun _ : Fin 1500000 => F.decompose (-1)) i
        = wrap32 (1500000 * ((-1) % (F.m i : ℤ))) % F.m i := by
      intro i
      simp [Factory.reduceSum, Factory.decompose]
    have hmod : F.toBigint (F.reduceSum fun _ : Fin 1500000 => F.decompose (-1))
        ≡ -1500000 [ZMOD modulus F.m] := by
      have h1 := Int.bmod_emod (x := F.toBigint (F.reduceSum fun _ : Fin 1500000 => F.decompose (-1)))
        (m := modulus F.m)
      unfold centred at h
      rw [h] at h1
      simp only [Finset.sum_const, Finset.card_univ, Fintype.card_fin] at h1
      exact h1.symm
    -- but every component of `to_bigint x` is the component of `x`
    have hrep : ∀ x : Backing 10, (∀ i, 0 ≤ x i ∧ x i < F.m i) → ∀ v, F.toBigint x ≡ v [ZMOD modulus F.m] →
        x 1 = v % F.m 1 := by
      intro x hx v hv
      have hd : (F.m 1 : ℤ) ∣ modulus F.m := ⟨_, (mul_cofactor (G.mpos 1)).symm⟩
      have h2 := hv.of_dvd hd
      have h3 : F.toBigint x ≡ x 1 [ZMOD F.m 1] := by
        unfold Factory.toBigint
        refine ((Int.mod_modEq _ _).of_dvd hd).trans ?_
        refine ((Int.ModEq.sum fun i _ => (Int.mod_modEq _ _).mul_left _).of_dvd hd).trans ?_
        rw [← Finset.add_sum_erase _ _ (mem_univ 1)]
        have h2 : ∑ i ∈ univ.erase 1, x i * (cofactor F.m i * F.q i) ≡ 0 [ZMOD F.m 1] := by
          rw [Int.modEq_zero_iff_dvd]
          exact Finset.dvd_sum fun i hi =>
            ((dvd_cofactor (G.mpos i) (Finset.ne_of_mem_erase hi).symm).mul_right _).mul_left _
        simpa using ((G.qspec 1).mul_left (x 1)).add h2
      have h4 := h3.symm.trans h2
      rw [← h4]
      exact (Int.emod_eq_of_lt (hx 1).1 (hx 1).2).symm
    have h5 := hrep _ (fun i => by
      rw [hx]; exact ⟨Int.emod_nonneg _ (G.mpos' i).ne', Int.emod_lt_of_pos _ (G.mpos' i)⟩) _ hmod
    rw [hx, show F.m 1 = 1433 by rw [hm]; rfl] at h5
    revert h5
    decide

/-- `z - x` for a Python integer `z` is wrong: int100 computes `x - z`. -/
theorem rsub_false : ∃ F, Factory.make moduli100 = .ok F ∧
    centred F (F.rsub 0 (F.decompose 1)) ≠ 0 - 1 := by
  obtain ⟨F, hF⟩ := make100
  refine ⟨F, hF, ?_⟩
  obtain ⟨G, hm⟩ := make_good hF
  unfold Factory.rsub
  rw [centred_eq G (G.sub (G.decompose 1) (G.decompose 0)) (by
    rw [hm]; unfold modulus moduli100; constructor <;> decide)]
  decide

/-- In general `z - x` returns the negated difference. -/
theorem rsub_negated {m : Fin k → ℕ} {F : Factory k} (hF : Factory.make m = .ok F) (z v : ℤ) :
    F.toBigint (F.rsub z (F.decompose v)) = -(z - v) % modulus m := by
  obtain ⟨G, rfl⟩ := make_good hF
  rw [Factory.rsub, toBigint_eq G (G.sub (G.decompose v) (G.decompose z))]
  congr 1; ring

/-- The number of true entries, counted. -/
theorem count_eq_iff (P : Fin k → Prop) [DecidablePred P] :
    (∑ i, if P i then (1 : ℤ) else 0) = k ↔ ∀ i, P i := by
  constructor
  · intro h i
    by_contra hi
    have : ∑ j, (if P j then (1 : ℤ) else 0) < ∑ _j : Fin k, (1 : ℤ) :=
      Finset.sum_lt_sum (fun j _ => by split_ifs <;> norm_num) ⟨i, mem_univ i, by simp [hi]⟩
    rw [h] at this
    simp at this
  · intro h
    simp [h]

/-- **C16, equality.** `equal` returns 1 exactly when the two integers agree modulo the modulus (in
particular, when they are equal, if both fit), otherwise 0. -/
theorem crt_equal {m : Fin k → ℕ} {F : Factory k} (hF : Factory.make m = .ok F) (v w : ℤ) :
    F.equal (F.decompose v) (F.decompose w) = (if v ≡ w [ZMOD modulus m] then 1 else 0) ∧
    (Fits (modulus m) v → Fits (modulus m) w →
      F.equal (F.decompose v) (F.decompose w) = if v = w then 1 else 0) ∧
    F.equalZero (F.decompose v) = if (modulus m : ℤ) ∣ v then 1 else 0 := by
  obtain ⟨G, rfl⟩ := make_good hF
  have key : ∀ v w, (∀ i, F.decompose v i = F.decompose w i) ↔ v ≡ w [ZMOD modulus F.m] := by
    intro v w
    constructor
    · exact fun h => G.crt h
    · exact fun h i => h.of_dvd ⟨_, (mul_cofactor (G.mpos i)).symm⟩
  have h1 : F.equal (F.decompose v) (F.decompose w) = if v ≡ w [ZMOD modulus F.m] then 1 else 0 := by
    unfold Factory.equal
    rw [if_congr ((count_eq_iff _).trans (key v w)) rfl rfl]
  refine ⟨h1, fun hv hw => ?_, ?_⟩
  · rw [h1]
    refine if_congr ⟨fun h => ?_, fun h => h ▸ rfl⟩ rfl rfl
    rw [← centred_eq G (G.decompose v) hv, ← centred_eq G (G.decompose w) hw]
    unfold centred
    rw [toBigint_eq G (G.decompose v), toBigint_eq G (G.decompose w)]
    rw [show v % (modulus F.m : ℤ) = w % (modulus F.m : ℤ) from h]
  · unfold Factory.equalZero
    rw [if_congr ((count_eq_iff _).trans ((forall_congr' fun i => ?_).trans (key v 0))) rfl rfl,
      if_congr Int.modEq_zero_iff_dvd rfl rfl]
    simp [Factory.decompose]

/-- **C17, decoding.** `to_native` returns every integer that fits `int32`, on NumPy and on TensorFlow
backings, if the floating-point sum is accurate to `ε`. -/
theorem crt_decode {m : Fin k → ℕ} {F : Factory k} (hF : Factory.make m = .ok F)
    {fl : Backing k → ℚ} {ε : ℚ} (hfl : Approx F fl ε) (tf : Bool) (v : ℤ)
    (hv : |(v : ℚ)| < (modulus m : ℚ) * (1 / 2 - ε)) (h0 : -2 ^ 31 ≤ v) (h1 : v < 2 ^ 31) :
    F.decode tf fl (F.decompose v) = v := by
  obtain ⟨G, rfl⟩ := make_good hF
  have key := G.mod_exact hfl (G.decompose v) hv (2 ^ 32)
  have fin : ∀ z : ℤ, z ≡ v [ZMOD 2 ^ 32] → wrap32 (z % 2 ^ 32) = v := by
    intro z hz
    unfold wrap32
    rw [show (z % 2 ^ 32) = v % 2 ^ 32 from hz]
    have := Int.emod_bmod (x := v) (n := 2 ^ 32)
    rw [show (v % 2 ^ 32 : ℤ) = v % ((2 ^ 32 : ℕ) : ℤ) by norm_num, this]
    exact Int.bmod_eq_of_le (by omega) (by omega)
  cases tf with
  | true =>
    refine fin _ ?_
    refine (wrap64_modEq32 _).trans (Int.ModEq.trans ?_ key)
    refine Int.ModEq.sub ((wrap32_modEq _).trans ?_) (wrap64_modEq32 _)
    exact Int.ModEq.sum fun i _ => (wrap32_modEq _).mul_left _
  | false =>
    refine fin _ ?_
    refine (wrap64_modEq32 _).trans (Int.ModEq.trans ?_ key)
    exact Int.ModEq.sub (wrap64_modEq32 _) (wrap64_modEq32 _)

/-- **C17, `mod`.** For every integer `v` within half the modulus (less the floating-point error) and
every `K` that is a power of two up to `2^30` or small enough: `x % K` holds `v mod K`, for negative
`v` too. -/
theorem crt_mod {m : Fin k → ℕ} {F : Factory k} (hF : Factory.make m = .ok F)
    {fl : Backing k → ℚ} {ε : ℚ} (hfl : Approx F fl ε) (v : ℤ)
    (hv : |(v : ℚ)| < (modulus m : ℚ) * (1 / 2 - ε)) {K : ℕ}
    (hK : (∃ a ≤ 30, K = 2 ^ a) ∨ (0 < K ∧ (∑ i, (m i : ℤ)) * K < 2 ^ 31)) :
    F.mod fl (F.decompose v) K = F.decompose (v % K) := by
  obtain ⟨G, rfl⟩ := make_good hF
  unfold Factory.mod
  rw [G.crtMod_eq hfl (G.decompose v) hv]
  rcases hK with ⟨a, ha, rfl⟩ | h
  · exact .inl (pow_dvd_pow 2 (by omega))
  · exact .inr h

/-- **C17, `truncate`.** Under the same conditions, if `K = base ^ amount` is coprime to the modulus,
`truncate` holds the exact floor `⌊v / K⌋`, for negative `v` too; if it is not coprime, it raises. -/
theorem crt_truncate {m : Fin k → ℕ} {F : Factory k} (hF : Factory.make m = .ok F)
    {fl : Backing k → ℚ} {ε : ℚ} (hfl : Approx F fl ε) (v : ℤ)
    (hv : |(v : ℚ)| < (modulus m : ℚ) * (1 / 2 - ε)) (base amount : ℕ)
    (hK : (∃ a ≤ 30, base ^ amount = 2 ^ a) ∨
      (0 < base ^ amount ∧ (∑ i, (m i : ℤ)) * (base ^ amount : ℕ) < 2 ^ 31)) :
    F.truncate fl (F.decompose v) amount base =
      if Nat.Coprime (base ^ amount) (modulus m) then some (F.decompose (v / (base ^ amount : ℕ)))
      else none := by
  have hmod := crt_mod hF hfl v hv hK
  obtain ⟨G, rfl⟩ := make_good hF
  unfold Factory.truncate
  have inv := Helpers.inverse_correct_partial ((base ^ amount : ℕ) : ℤ) (modulus F.m) (by positivity)
    G.modulus_pos
  rw [Int.gcd_natCast_natCast] at inv
  split_ifs with hc
  · have : Helpers.inverse ((base ^ amount : ℕ) : ℤ) (modulus F.m) ≠ none := by
      rw [Ne, inv.2, not_not]; exact hc
    obtain ⟨b, hb⟩ := Option.ne_none_iff_exists'.1 this
    rw [hb, Option.map_some, hmod]
    congr 1
    have hspec := ((inv.1 b).1 hb).2.2.2
    have h := G.mul (G.sub (G.decompose v) (G.decompose (v % (base ^ amount : ℕ)))) (G.decompose b)
    funext i
    rw [h i]
    generalize ((base ^ amount : ℕ) : ℤ) = K at *
    have e : v - v % K = K * (v / K) := by have := Int.mul_ediv_add_emod v K; linarith
    have hd : (F.m i : ℤ) ∣ modulus F.m := ⟨_, (mul_cofactor (G.mpos i)).symm⟩
    have h2 : (v - v % K) * b ≡ v / K [ZMOD F.m i] := by
      rw [e]
      calc K * (v / K) * b = (v / K) * (K * b) := by ring
        _ ≡ (v / K) * 1 [ZMOD F.m i] := (hspec.of_dvd hd).mul_left _
        _ = v / K := by ring
    exact h2
  · rw [inv.2.2 hc]; rfl

end Verif.Crt
