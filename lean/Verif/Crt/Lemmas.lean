import Verif.Crt.Model
import Verif.Helpers.Props
import Mathlib.RingTheory.Coprime.Lemmas
import Mathlib.Data.Int.ModEq
import Mathlib.Algebra.BigOperators.ModEq
import Mathlib.Algebra.Order.BigOperators.Group.Finset
import Mathlib.Algebra.BigOperators.Field
import Mathlib.Tactic.Positivity
import Mathlib.Tactic.FieldSimp
import Mathlib.Data.Nat.GCD.BigOperators

/-! # Lemmas on Chinese-remainder tensors -/

namespace Verif.Crt

open Finset

theorem wrap32_eq {z : ℤ} (h0 : -2 ^ 31 ≤ z) (h1 : z < 2 ^ 31) : wrap32 z = z := by
  unfold wrap32
  apply Int.bmod_eq_of_le <;> omega

theorem wrap64_eq {z : ℤ} (h0 : -2 ^ 63 ≤ z) (h1 : z < 2 ^ 63) : wrap64 z = z := by
  unfold wrap64
  apply Int.bmod_eq_of_le <;> omega

theorem wrap32_modEq (z : ℤ) : wrap32 z ≡ z [ZMOD 2 ^ 32] := by
  have := Int.bmod_emod (x := z) (m := 2 ^ 32)
  exact this

theorem wrap64_modEq (z : ℤ) : wrap64 z ≡ z [ZMOD 2 ^ 64] := by
  have := Int.bmod_emod (x := z) (m := 2 ^ 64)
  exact this

theorem wrap64_modEq32 (z : ℤ) : wrap64 z ≡ z [ZMOD 2 ^ 32] :=
  (wrap64_modEq z).of_mul_left (m := 2 ^ 32) (n := 2 ^ 32)

variable {k : ℕ}

/-- What the constructor establishes. -/
structure Good (F : Factory k) : Prop where
  kpos : 0 < k
  mpos : ∀ i, 0 < F.m i
  small : ∀ i, 1024 * F.m i ^ 2 < 2 ^ 31 - 1
  coprime : Pairwise fun i j => Nat.Coprime (F.m i) (F.m j)
  qspec : ∀ i, cofactor F.m i * F.q i ≡ 1 [ZMOD F.m i]
  qlo : ∀ i, 0 ≤ F.q i
  qhi : ∀ i, F.q i < F.m i

theorem modulus_eq (m : Fin k → ℕ) (i : Fin k) : modulus m = m i * ∏ j ∈ univ.erase i, m j :=
  (Finset.mul_prod_erase _ _ (mem_univ i)).symm

theorem cofactor_eq {m : Fin k → ℕ} {i : Fin k} (h : 0 < m i) :
    cofactor m i = ((∏ j ∈ univ.erase i, m j : ℕ) : ℤ) := by
  unfold cofactor
  rw [modulus_eq m i, Nat.mul_div_cancel_left _ h]

theorem mul_cofactor {m : Fin k → ℕ} {i : Fin k} (h : 0 < m i) :
    (m i : ℤ) * cofactor m i = modulus m := by
  rw [cofactor_eq h, modulus_eq m i]; push_cast; rfl

theorem dvd_cofactor {m : Fin k → ℕ} {i j : Fin k} (h : 0 < m i) (hij : j ≠ i) :
    (m j : ℤ) ∣ cofactor m i := by
  rw [cofactor_eq h]
  exact Int.natCast_dvd_natCast.2 (Finset.dvd_prod_of_mem _ (by simp [hij]))

theorem gcd_cofactor {m : Fin k → ℕ} {i : Fin k} (h : 0 < m i) :
    Int.gcd (cofactor m i) (m i) = 1 ↔ ∀ j, j ≠ i → Nat.Coprime (m j) (m i) := by
  rw [cofactor_eq h, Int.gcd_natCast_natCast]
  change Nat.Coprime _ _ ↔ _
  rw [Nat.coprime_prod_left_iff]
  simp

/-- The constructor succeeds exactly on non-empty lists of pairwise coprime moduli between 1 and
1448. -/
theorem make_iff (m : Fin k → ℕ) : (∃ F, Factory.make m = .ok F) ↔
    0 < k ∧ (∀ i, 0 < m i ∧ 1024 * m i ^ 2 < 2 ^ 31 - 1) ∧
      Pairwise fun i j => Nat.Coprime (m i) (m j) := by
  unfold Factory.make
  constructor
  · rintro ⟨F, h⟩
    split_ifs at h with h0 h1 h2 h3
    simp only [not_exists, not_not] at h1 h2 h3
    have hp : ∀ i, 0 < m i := fun i => Nat.pos_of_ne_zero (h1 i)
    refine ⟨Nat.pos_of_ne_zero h0, fun i => ⟨hp i, h2 i⟩, fun i j hij => ?_⟩
    have h4 := h3 j
    have h5 := (Helpers.inverse_correct_partial (cofactor m j) (m j) (by unfold cofactor; positivity)
      (by exact_mod_cast hp j)).2
    rw [h5, ne_eq, not_not, gcd_cofactor (hp j)] at h4
    exact h4 i hij
  · rintro ⟨h0, h1, h2⟩
    rw [if_neg h0.ne', if_neg (by simpa using fun i => (h1 i).1.ne'),
      if_neg (by simp only [not_exists, not_not]; exact fun i => (h1 i).2), if_neg]
    · exact ⟨_, rfl⟩
    · simp only [not_exists]
      intro i
      rw [(Helpers.inverse_correct_partial (cofactor m i) (m i) (by unfold cofactor; positivity)
        (by exact_mod_cast (h1 i).1)).2, ne_eq, not_not, gcd_cofactor (h1 i).1]
      exact fun j hj => h2 hj

theorem make_good {m : Fin k → ℕ} {F : Factory k} (h : Factory.make m = .ok F) :
    Good F ∧ F.m = m := by
  have h' := (make_iff m).1 ⟨F, h⟩
  unfold Factory.make at h
  split_ifs at h with h0 h1 h2 h3
  simp only [Except.ok.injEq] at h
  subst h
  simp only [not_exists] at h3
  have key : ∀ i, ∃ b, Helpers.inverse (cofactor m i) (m i) = some b :=
    fun i => Option.ne_none_iff_exists'.1 (h3 i)
  have spec : ∀ i, 0 ≤ (Helpers.inverse (cofactor m i) (m i)).getD 0 ∧
      (Helpers.inverse (cofactor m i) (m i)).getD 0 < m i ∧
      cofactor m i * (Helpers.inverse (cofactor m i) (m i)).getD 0 ≡ 1 [ZMOD m i] := by
    intro i
    obtain ⟨b, hb⟩ := key i
    rw [hb, Option.getD_some]
    exact (((Helpers.inverse_correct_partial (cofactor m i) (m i) (by unfold cofactor; positivity)
      (by exact_mod_cast (h'.2.1 i).1)).1 b).1 hb).2
  exact ⟨⟨h'.1, fun i => (h'.2.1 i).1, fun i => (h'.2.1 i).2, h'.2.2, fun i => (spec i).2.2,
    fun i => (spec i).1, fun i => (spec i).2.1⟩, rfl⟩

/-- `x` holds the integer `v`: each component is the residue. -/
def Rep (F : Factory k) (x : Backing k) (v : ℤ) : Prop := ∀ i, x i = v % F.m i

namespace Good
variable {F : Factory k} (G : Good F)
include G

theorem mpos' (i : Fin k) : (0 : ℤ) < F.m i := by exact_mod_cast G.mpos i

theorem m_le (i : Fin k) : (F.m i : ℤ) ≤ 1448 := by
  by_contra h
  have h1 : 1449 ≤ F.m i := by omega
  have h2 := G.small i
  have : 1449 ^ 2 ≤ F.m i ^ 2 := Nat.pow_le_pow_left h1 2
  omega

theorem lo {x : Backing k} {v : ℤ} (h : Rep F x v) (i : Fin k) : 0 ≤ x i := by
  rw [h i]; exact Int.emod_nonneg _ (G.mpos' i).ne'

theorem hi {x : Backing k} {v : ℤ} (h : Rep F x v) (i : Fin k) : x i < F.m i := by
  rw [h i]; exact Int.emod_lt_of_pos _ (G.mpos' i)

theorem hi' {x : Backing k} {v : ℤ} (h : Rep F x v) (i : Fin k) : x i ≤ 1447 := by
  have := G.hi h i; have := G.m_le i; omega

theorem decompose (z : ℤ) : Rep F (F.decompose z) z := fun _ => rfl

theorem add {x y : Backing k} {v w : ℤ} (hx : Rep F x v) (hy : Rep F y w) :
    Rep F (F.add x y) (v + w) := by
  intro i
  have := G.lo hx i; have := G.hi' hx i; have := G.lo hy i; have := G.hi' hy i
  unfold Factory.add
  rw [wrap32_eq (by omega) (by omega), hx i, hy i, ← Int.add_emod]

theorem sub {x y : Backing k} {v w : ℤ} (hx : Rep F x v) (hy : Rep F y w) :
    Rep F (F.sub x y) (v - w) := by
  intro i
  have := G.lo hx i; have := G.hi' hx i; have := G.lo hy i; have := G.hi' hy i
  unfold Factory.sub
  rw [wrap32_eq (by omega) (by omega), hx i, hy i, ← Int.sub_emod]

theorem neg {x : Backing k} {v : ℤ} (hx : Rep F x v) : Rep F (F.neg x) (-v) := by
  intro i
  have := G.lo hx i; have := G.hi' hx i
  unfold Factory.neg
  rw [wrap32_eq (by omega) (by omega), hx i]
  exact (Int.mod_modEq v _).neg

theorem mul_bound {a b : ℤ} (h0 : 0 ≤ a) (h1 : a ≤ 1447) (h2 : 0 ≤ b) (h3 : b ≤ 1447) :
    0 ≤ a * b ∧ a * b ≤ 1447 * 1447 :=
  ⟨mul_nonneg h0 h2, mul_le_mul h1 h3 h2 (by norm_num)⟩

theorem mul {x y : Backing k} {v w : ℤ} (hx : Rep F x v) (hy : Rep F y w) :
    Rep F (F.mul x y) (v * w) := by
  intro i
  have := G.mul_bound (G.lo hx i) (G.hi' hx i) (G.lo hy i) (G.hi' hy i)
  unfold Factory.mul
  rw [wrap32_eq (by omega) (by omega), hx i, hy i, ← Int.mul_emod]

theorem run {n : ℕ} {env : Fin n → Backing k} {vals : Fin n → ℤ} (h : ∀ i, Rep F (env i) (vals i))
    (ev : Expr n → ℤ) (hv : ∀ i, ev (.var i) = vals i) (hc : ∀ z, ev (.const z) = z)
    (ha : ∀ x y, ev (.add x y) = ev x + ev y) (hs : ∀ x y, ev (.sub x y) = ev x - ev y)
    (hm : ∀ x y, ev (.mul x y) = ev x * ev y) (hn : ∀ x, ev (.neg x) = -ev x) (e : Expr n) :
    Rep F (e.run F env) (ev e) := by
  induction e with
  | var i => rw [hv]; exact h i
  | const z => rw [hc]; exact G.decompose z
  | add x y hx hy => rw [ha]; exact G.add hx hy
  | sub x y hx hy => rw [hs]; exact G.sub hx hy
  | mul x y hx hy => rw [hm]; exact G.mul hx hy
  | neg x hx => rw [hn]; exact G.neg hx

/-- Numbers that agree modulo every modulus agree modulo the product. -/
theorem crt {a b : ℤ} (h : ∀ i, a ≡ b [ZMOD F.m i]) : a ≡ b [ZMOD modulus F.m] := by
  rw [Int.modEq_iff_dvd]
  have := Finset.prod_dvd_of_coprime (t := univ) (s := fun i => (F.m i : ℤ)) (z := b - a)
    (fun i _ j _ hij => Int.isCoprime_iff_gcd_eq_one.2
      ((Int.gcd_natCast_natCast _ _).trans (G.coprime hij)))
    (fun i _ => (Int.modEq_iff_dvd).1 (h i))
  simpa [modulus] using this

theorem modulus_pos : (0 : ℤ) < modulus F.m := by
  exact_mod_cast Finset.prod_pos fun i _ => G.mpos i

/-- The explicit recombination before rounding. -/
theorem sum_ts {x : Backing k} {v : ℤ} (h : Rep F x v) :
    ∑ i, F.ts x i * cofactor F.m i ≡ v [ZMOD modulus F.m] := by
  refine G.crt fun j => ?_
  have hz : ∀ i ∈ univ, i ≠ j → F.ts x i * cofactor F.m i ≡ 0 [ZMOD F.m j] := fun i _ hij =>
    ((Int.modEq_zero_iff_dvd.2 (dvd_cofactor (G.mpos i) hij.symm)).mul_left _).trans (by simp)
  have h1 : ∑ i, F.ts x i * cofactor F.m i ≡ F.ts x j * cofactor F.m j [ZMOD F.m j] := by
    rw [← Finset.add_sum_erase _ _ (mem_univ j)]
    have h2 : ∑ i ∈ univ.erase j, F.ts x i * cofactor F.m i ≡ 0 [ZMOD F.m j] := by
      rw [Int.modEq_zero_iff_dvd]
      exact Finset.dvd_sum fun i hi =>
        (dvd_cofactor (G.mpos i) (Finset.ne_of_mem_erase hi).symm).mul_left _
    simpa using h2.add_left (F.ts x j * cofactor F.m j)
  refine h1.trans ?_
  have hb := G.mul_bound (G.lo h j) (G.hi' h j) (G.qlo j)
    (by have := G.qhi j; have := G.m_le j; omega)
  have ht : F.ts x j ≡ v * F.q j [ZMOD F.m j] := by
    unfold Factory.ts
    rw [wrap32_eq (by omega) (by omega), h j]
    exact (Int.mod_modEq _ _).trans ((Int.mod_modEq _ _).mul_right _)
  calc F.ts x j * cofactor F.m j ≡ v * F.q j * cofactor F.m j [ZMOD F.m j] := ht.mul_right _
    _ = v * (cofactor F.m j * F.q j) := by ring
    _ ≡ v * 1 [ZMOD F.m j] := (G.qspec j).mul_left _
    _ = v := by ring

theorem ts_lo {x : Backing k} (i : Fin k) : 0 ≤ F.ts x i := Int.emod_nonneg _ (G.mpos' i).ne'

theorem ts_hi {x : Backing k} (i : Fin k) : F.ts x i < F.m i := Int.emod_lt_of_pos _ (G.mpos' i)

end Good

/-- `fl` computes the sum of the fractions `t_i / m_i` with an error of at most `ε`. -/
def Approx (F : Factory k) (fl : Backing k → ℚ) (ε : ℚ) : Prop :=
  ∀ t : Backing k, (∀ i, 0 ≤ t i ∧ t i < F.m i) → |fl t - ∑ i, (t i : ℚ) / F.m i| ≤ ε

theorem round_eq_of {x : ℚ} {c : ℤ} (h : |x - c| < 1 / 2) : round x = c := by
  rw [round_eq, Int.floor_eq_iff]
  rw [abs_lt] at h
  constructor <;> linarith [h.1, h.2]

namespace Good
variable {F : Factory k} (G : Good F)
include G

/-- The rounding finds the right multiple of the modulus, so the recombination is exact. -/
theorem recombine {fl : Backing k → ℚ} {ε : ℚ} (hfl : Approx F fl ε) {x : Backing k} {v : ℤ}
    (h : Rep F x v) (hv : |(v : ℚ)| < (modulus F.m : ℚ) * (1 / 2 - ε)) :
    ∑ i, F.ts x i * cofactor F.m i - round (fl (F.ts x)) * modulus F.m = v := by
  obtain ⟨c, hc⟩ := (Int.modEq_iff_dvd).1 (G.sum_ts h).symm
  have hM : (0 : ℚ) < modulus F.m := by exact_mod_cast G.modulus_pos
  have e1 : ∑ i, (F.ts x i : ℚ) / F.m i = (v : ℚ) / modulus F.m + c := by
    have h2 : ∀ i, (F.ts x i : ℚ) / F.m i = F.ts x i * cofactor F.m i / modulus F.m := by
      intro i
      have h3 : (F.m i : ℚ) * cofactor F.m i = modulus F.m := by
        exact_mod_cast mul_cofactor (G.mpos i)
      have h4 : (F.m i : ℚ) ≠ 0 := by exact_mod_cast (G.mpos i).ne'
      rw [div_eq_div_iff h4 hM.ne', ← h3]; ring
    rw [Finset.sum_congr rfl fun i _ => h2 i, ← Finset.sum_div]
    have h5 : (∑ i, (F.ts x i : ℚ) * cofactor F.m i) = v + modulus F.m * c := by
      have : (∑ i, F.ts x i * cofactor F.m i) = v + modulus F.m * c := by linarith
      exact_mod_cast this
    rw [h5]; field_simp
  have h6 := hfl (F.ts x) fun i => ⟨G.ts_lo i, G.ts_hi i⟩
  rw [e1] at h6
  have h7 : |(v : ℚ) / modulus F.m| < 1 / 2 - ε := by
    rw [abs_div, abs_of_pos hM, div_lt_iff₀ hM]; linarith
  have h8 : round (fl (F.ts x)) = c := by
    apply round_eq_of
    have : fl (F.ts x) - c = (fl (F.ts x) - ((v : ℚ) / modulus F.m + c)) + (v : ℚ) / modulus F.m := by
      ring
    rw [this]
    exact (abs_add_le _ _).trans_lt (by linarith)
  rw [h8]; linarith

/-- `crt_mod` before its `int32` effects. -/
theorem mod_exact {fl : Backing k → ℚ} {ε : ℚ} (hfl : Approx F fl ε) {x : Backing k} {v : ℤ}
    (h : Rep F x v) (hv : |(v : ℚ)| < (modulus F.m : ℚ) * (1 / 2 - ε)) (K : ℤ) :
    ∑ i, F.ts x i * (cofactor F.m i % K) - round (fl (F.ts x)) * ((modulus F.m : ℤ) % K)
      ≡ v [ZMOD K] := by
  have h1 := G.recombine hfl h hv
  refine Int.ModEq.trans (Int.ModEq.sub ?_ ?_) (congrArg (· % K) h1 : _ ≡ _ [ZMOD K])
  · exact Int.ModEq.sum fun i _ => (Int.mod_modEq _ _).mul_left _
  · exact (Int.mod_modEq _ _).mul_left _

/-- The rounded sum lies between `0` and `k`. -/
theorem alpha_range {fl : Backing k → ℚ} {ε : ℚ} (hfl : Approx F fl ε) (hε : ε < 1 / 2)
    (x : Backing k) : 0 ≤ round (fl (F.ts x)) ∧ round (fl (F.ts x)) ≤ k := by
  have h6 := hfl (F.ts x) fun i => ⟨G.ts_lo i, G.ts_hi i⟩
  rw [abs_le] at h6
  have h1 : 0 ≤ ∑ i, (F.ts x i : ℚ) / F.m i := Finset.sum_nonneg fun i _ =>
    div_nonneg (by exact_mod_cast G.ts_lo i) (by positivity)
  have h2 : ∑ i, (F.ts x i : ℚ) / F.m i ≤ k := by
    have : ∑ i, (F.ts x i : ℚ) / F.m i ≤ ∑ _i : Fin k, (1 : ℚ) := Finset.sum_le_sum fun i _ => by
      rw [div_le_one (by exact_mod_cast G.mpos i)]
      exact_mod_cast (G.ts_hi i).le
    simpa using this
  rw [round_eq]
  constructor
  · rw [Int.le_floor]; push_cast; linarith [h6.1]
  · rw [← Int.lt_add_one_iff, Int.floor_lt]; push_cast; linarith [h6.2]

/-- `crt_mod` is the residue: for a power of two up to `2^30`, and for every `K` for which the sum
cannot overflow. -/
theorem crtMod_eq {fl : Backing k → ℚ} {ε : ℚ} (hfl : Approx F fl ε) {x : Backing k}
    {v : ℤ} (h : Rep F x v) (hv : |(v : ℚ)| < (modulus F.m : ℚ) * (1 / 2 - ε)) {K : ℕ}
    (hK : K ∣ 2 ^ 32 ∨ (0 < K ∧ (∑ i, (F.m i : ℤ)) * K < 2 ^ 31)) :
    F.crtMod fl x K = v % K := by
  have key := G.mod_exact hfl h hv K
  have hε : ε < 1 / 2 := by
    have hM : (0 : ℚ) < modulus F.m := by exact_mod_cast G.modulus_pos
    by_contra hc
    have h0 := abs_nonneg (v : ℚ)
    have : (modulus F.m : ℚ) * (1 / 2 - ε) ≤ 0 :=
      mul_nonpos_of_nonneg_of_nonpos hM.le (by linarith)
    linarith
  unfold Factory.crtMod
  simp only
  rcases hK with hK | ⟨hK0, hK⟩
  · have hd : (K : ℤ) ∣ 2 ^ 32 := by exact_mod_cast Int.natCast_dvd_natCast.2 hK
    have w : ∀ z : ℤ, wrap32 z ≡ z [ZMOD K] := fun z => (wrap32_modEq z).of_dvd hd
    exact ((w _).trans ((w _).sub (w _))).trans key
  · have hK0' : (0 : ℤ) < K := by exact_mod_cast hK0
    have hu0 : 0 ≤ ∑ i, F.ts x i * (cofactor F.m i % K) :=
      Finset.sum_nonneg fun i _ => mul_nonneg (G.ts_lo i) (Int.emod_nonneg _ hK0'.ne')
    have hu1 : ∑ i, F.ts x i * (cofactor F.m i % K) ≤ (∑ i, (F.m i : ℤ)) * K := by
      rw [Finset.sum_mul]
      refine Finset.sum_le_sum fun i _ => ?_
      exact mul_le_mul (G.ts_hi i).le (Int.emod_lt_of_pos _ hK0').le (Int.emod_nonneg _ hK0'.ne')
        (by positivity)
    obtain ⟨ha0, ha1⟩ := G.alpha_range hfl hε x
    have hks : (k : ℤ) ≤ ∑ i, (F.m i : ℤ) := by
      have : ∑ _i : Fin k, (1 : ℤ) ≤ ∑ i, (F.m i : ℤ) :=
        Finset.sum_le_sum fun i _ => by have := G.mpos i; omega
      simpa using this
    have hv0 : 0 ≤ round (fl (F.ts x)) * ((modulus F.m : ℤ) % K) :=
      mul_nonneg ha0 (Int.emod_nonneg _ hK0'.ne')
    have hv1 : round (fl (F.ts x)) * ((modulus F.m : ℤ) % K) ≤ (∑ i, (F.m i : ℤ)) * K :=
      mul_le_mul (ha1.trans hks) (Int.emod_lt_of_pos _ hK0').le (Int.emod_nonneg _ hK0'.ne')
        (by positivity)
    rw [wrap32_eq (z := ∑ i, _) (by omega) (by omega), wrap32_eq (z := round _ * _) (by omega)
      (by omega), wrap32_eq (by omega) (by omega)]
    exact key

end Good

end Verif.Crt
