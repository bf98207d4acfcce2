import Verif.Sampling.Model
import Mathlib.Data.List.Nodup
import Mathlib.Tactic.Linarith
import Mathlib.Tactic.Ring

/-! # Seeded sampling does not reuse keystream (C20) -/

namespace Verif.Sampling

/-- The `n`-th replacement word lies here: `E - 1` of the `E` elements of a block are used. -/
def replacement (E c n : ℕ) : Pos := (BitVec.ofNat 32 (c + n / (E - 1)), n % (E - 1))

/-- The state after `n` replacements. -/
def At (E c n : ℕ) (g : Gen) : Prop :=
  ∃ q r, g.counter = BitVec.ofNat 32 (c + q) ∧ g.inner = r ∧ n = (E - 1) * q + r ∧ r ≤ E - 1

theorem At.next {E c n : ℕ} {g : Gen} (hE : 2 ≤ E) (h : At E c n g) :
    (g.next E).1 = replacement E c n ∧ At E c (n + 1) (g.next E).2 := by
  obtain ⟨q, r, h1, h2, h3, h4⟩ := h
  obtain ⟨g1, g2⟩ := g
  simp only at h1 h2
  subst h1 h2
  unfold Gen.next replacement
  by_cases hc : g2 + 1 = E
  · have hr : g2 = E - 1 := by omega
    have hn : n = (E - 1) * (q + 1) + 0 := by rw [h3, hr]; ring
    simp only [hc, if_true]
    refine ⟨?_, q + 1, 1, ?_, rfl, by omega, by omega⟩
    · rw [hn, Nat.mul_add_div (by omega), Nat.mul_add_mod]
      simp only [Nat.zero_div, Nat.zero_mod, add_zero, Prod.mk.injEq, and_true]
      rw [← add_assoc, BitVec.ofNat_add (c + q)]; rfl
    · show _ = BitVec.ofNat 32 (c + (q + 1))
      rw [← add_assoc, BitVec.ofNat_add (c + q)]; rfl
  · simp only [hc, if_false]
    refine ⟨?_, q, g2 + 1, rfl, rfl, by omega, by omega⟩
    rw [h3, Nat.mul_add_div (by omega), Nat.mul_add_mod, Nat.div_eq_of_lt (by omega),
      Nat.mod_eq_of_lt (by omega), add_zero]

/-- The replacements are read in order. -/
theorem reads_eq {E c : ℕ} (hE : 2 ≤ E) (m n : ℕ) (g : Gen) (h : At E c n g) :
    Gen.reads E m g = (List.range' n m).map (replacement E c) ∧
      At E c (n + m) ((fun g => (g.next E).2)^[m] g) := by
  induction m generalizing n g with
  | zero => exact ⟨rfl, h⟩
  | succ m ih =>
    obtain ⟨h1, h2⟩ := h.next hE
    obtain ⟨h3, h4⟩ := ih (n + 1) _ h2
    refine ⟨?_, ?_⟩
    · rw [Gen.reads, h1, h3, List.range'_succ, List.map_cons]
    · rw [Function.iterate_succ_apply, show n + (m + 1) = n + 1 + m by ring]; exact h4

theorem primary_inj {E c i j : ℕ} (hc : c < 2 ^ 32) (hi : i / E < c) (hj : j / E < c)
    (h : primary E i = primary E j) : i = j := by
  unfold primary at h
  obtain ⟨h1, h2⟩ := Prod.mk.inj h
  have h3 : i / E = j / E := by
    have := congrArg BitVec.toNat h1
    rw [BitVec.toNat_ofNat, BitVec.toNat_ofNat, Nat.mod_eq_of_lt (by omega),
      Nat.mod_eq_of_lt (by omega)] at this
    exact this
  rw [← Nat.div_add_mod i E, ← Nat.div_add_mod j E, h3, h2]

theorem replacement_inj {E c i j : ℕ} (hi : c + i / (E - 1) < 2 ^ 32) (hj : c + j / (E - 1) < 2 ^ 32)
    (h : replacement E c i = replacement E c j) : i = j := by
  unfold replacement at h
  obtain ⟨h1, h2⟩ := Prod.mk.inj h
  have h3 : i / (E - 1) = j / (E - 1) := by
    have := congrArg BitVec.toNat h1
    rw [BitVec.toNat_ofNat, BitVec.toNat_ofNat, Nat.mod_eq_of_lt hi, Nat.mod_eq_of_lt hj] at this
    omega
  rw [← Nat.div_add_mod i (E - 1), ← Nat.div_add_mod j (E - 1), h3, h2]

theorem primary_ne {E c i j : ℕ} (hi : i / E < c) (hj : c + j / (E - 1) < 2 ^ 32) :
    primary E i ≠ replacement E c j := by
  intro h
  unfold primary replacement at h
  have := congrArg BitVec.toNat (Prod.mk.inj h).1
  generalize j / (E - 1) = x at *
  rw [BitVec.toNat_ofNat, BitVec.toNat_ofNat, Nat.mod_eq_of_lt (by omega), Nat.mod_eq_of_lt hj] at this
  omega

theorem mem_runReads {E c : ℕ} (hE : 2 ≤ E) (rejs : List ℕ) (i n : ℕ) (g : Gen) (h : At E c n g)
    (p : Pos) (hp : p ∈ runReads E i rejs g) :
    (∃ j, i ≤ j ∧ j < i + rejs.length ∧ p = primary E j) ∨
      ∃ k, n ≤ k ∧ k < n + rejs.sum ∧ p = replacement E c k := by
  induction rejs generalizing i n g with
  | nil => cases hp
  | cons m rest ih =>
    obtain ⟨h1, h2⟩ := reads_eq hE m n g h
    rw [runReads, List.mem_cons, List.mem_append, h1] at hp
    rw [List.length_cons, List.sum_cons]
    rcases hp with rfl | hp | hp
    · exact Or.inl ⟨i, le_refl _, by omega, rfl⟩
    · obtain ⟨k, hk, rfl⟩ := List.mem_map.1 hp
      rw [List.mem_range'_1] at hk
      exact Or.inr ⟨k, hk.1, by omega, rfl⟩
    · rcases ih (i + 1) (n + m) _ h2 hp with ⟨j, h3, h4, rfl⟩ | ⟨k, h3, h4, rfl⟩
      · exact Or.inl ⟨j, by omega, by omega, rfl⟩
      · exact Or.inr ⟨k, by omega, by omega, rfl⟩

theorem nodup_runReads {E c N C : ℕ} (hE : 2 ≤ E) (hN : c + N / (E - 1) < 2 ^ 32) (hC : C / E < c)
    (rejs : List ℕ) (i n : ℕ) (g : Gen) (h : At E c n g) (hi : i + rejs.length ≤ C)
    (hn : n + rejs.sum ≤ N) : (runReads E i rejs g).Nodup := by
  have hb : ∀ k ≤ N, c + k / (E - 1) < 2 ^ 32 := fun k hk =>
    lt_of_le_of_lt (Nat.add_le_add_left (Nat.div_le_div_right hk) _) hN
  have hc : c < 2 ^ 32 := lt_of_le_of_lt (Nat.le_add_right _ _) hN
  have hp : ∀ j ≤ C, j / E < c := fun j hj => lt_of_le_of_lt (Nat.div_le_div_right hj) hC
  induction rejs generalizing i n g with
  | nil => exact List.nodup_nil
  | cons m rest ih =>
    obtain ⟨h1, h2⟩ := reads_eq hE m n g h
    rw [List.length_cons] at hi
    rw [List.sum_cons] at hn
    rw [runReads, List.nodup_cons, List.nodup_append', List.mem_append, h1]
    refine ⟨?_, ?_, ih (i + 1) (n + m) _ h2 (by omega) (by omega), ?_⟩
    · rintro (hm | hm)
      · obtain ⟨k, hk, e⟩ := List.mem_map.1 hm
        rw [List.mem_range'_1] at hk
        exact primary_ne (hp i (by omega)) (hb k (by omega)) e.symm
      · rcases mem_runReads hE rest _ _ _ h2 _ hm with ⟨j, h3, h4, e⟩ | ⟨k, h3, h4, e⟩
        · have := primary_inj hc (hp i (by omega)) (hp j (by omega)) e
          omega
        · exact primary_ne (hp i (by omega)) (hb k (by omega)) e
    · refine List.Nodup.map_on (fun a ha b hb' e => ?_) List.nodup_range'
      rw [List.mem_range'_1] at ha hb'
      exact replacement_inj (hb a (by omega)) (hb b (by omega)) e
    · intro p hp1 hp2
      obtain ⟨a, ha, rfl⟩ := List.mem_map.1 hp1
      rw [List.mem_range'_1] at ha
      rcases mem_runReads hE rest _ _ _ h2 _ hp2 with ⟨j, h3, h4, e⟩ | ⟨k, h3, h4, e⟩
      · exact primary_ne (hp j (by omega)) (hb a (by omega)) e.symm
      · have := replacement_inj (hb a (by omega)) (hb k (by omega)) e
        omega

/-- **C20 (partial).** For every element size, tensor length and number of rejections of each element:
all keystream positions read by one seeded call are distinct. Missing: calls that need `2^32` blocks
(256 GiB of keystream) or more; those do reuse positions, `keystream_wraps_false`. -/
theorem keystream_nodup_partial (size : ℕ) (hs : size ∈ [1, 2, 4, 8, 16]) (rejections : List ℕ)
    (hb : rejections.length * size / 64 + 1 + rejections.sum / (64 / size - 1) < 2 ^ 32) :
    (keystream size rejections).Nodup := by
  have hE : 2 ≤ 64 / size ∧ size * (64 / size) = 64 ∧ 0 < size := by
    simp only [List.mem_cons, List.not_mem_nil, or_false] at hs
    rcases hs with rfl | rfl | rfl | rfl | rfl <;> decide
  unfold keystream
  refine nodup_runReads (c := rejections.length * size / 64 + 1) (N := rejections.sum)
    (C := rejections.length) hE.1 hb ?_ rejections 0 0 _ ⟨0, 0, rfl, rfl, by simp, by omega⟩
    (by omega) (by omega)
  have : rejections.length / (64 / size) = rejections.length * size / 64 := by
    conv_rhs => rw [← hE.2.1, mul_comm size, Nat.mul_div_mul_right _ _ hE.2.2]
  omega

/-- **C20 fails beyond that.** The block counter has 32 bits: a replacement that comes `2^32` blocks
after another reads the same position. -/
theorem keystream_wraps_false (E c n : ℕ) (hE : 2 ≤ E) :
    replacement E c (n + 2 ^ 32 * (E - 1)) = replacement E c n := by
  generalize hW : (2 : ℕ) ^ 32 = W
  unfold replacement
  rw [Nat.add_mul_div_right _ _ (by omega), Nat.add_mul_mod_self_right, ← add_assoc]
  refine Prod.ext ?_ rfl
  apply BitVec.eq_of_toNat_eq
  rw [BitVec.toNat_ofNat, BitVec.toNat_ofNat, hW, Nat.add_mod_right]

/-- The last element of each extra block is never used; nothing is lost but randomness. -/
theorem last_unused (E c n : ℕ) (hE : 2 ≤ E) : (replacement E c n).2 ≠ E - 1 := by
  have := Nat.mod_lt n (show 0 < E - 1 by omega)
  unfold replacement
  simp only
  omega

/-- Three 64-bit elements, of which the second is rejected nine times: two replacement blocks. -/
example : keystream 8 [0, 9, 1] = [(0, 0), (0, 1), (1, 0), (1, 1), (1, 2), (1, 3), (1, 4), (1, 5),
    (1, 6), (2, 0), (2, 1), (0, 2), (2, 2)] ∧ (keystream 8 [0, 9, 1]).Nodup :=
  ⟨by decide +kernel, keystream_nodup_partial 8 (by decide) _ (by decide)⟩

end Verif.Sampling
