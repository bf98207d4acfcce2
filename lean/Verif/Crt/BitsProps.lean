import Verif.Crt.Props

/-!
# Bits of int100 tensors, and floating-point error

`bits` extracts the bits of the centred value (two's complement), or of the non-negative
representative. The hypotheses on the floating-point sum are discharged for sums in any rounding with
a relative error, in particular `float32`.
-/

namespace Verif.Crt

open Finset

variable {k : ℕ}

/-- The sum of the fractions `t_i / m_i` from left to right, each operation rounded by `rnd`
(int100.py:80-85, 99-104, 133-138). -/
def flsum (rnd : ℚ → ℚ) (F : Factory k) (t : Backing k) : ℚ :=
  (List.finRange k).foldl (fun s i => rnd (s + rnd ((t i : ℚ) / F.m i))) 0

theorem flsum_aux {rnd : ℚ → ℚ} {u : ℚ} (hu : 0 ≤ u) (hr : ∀ x, |rnd x - x| ≤ u * |x|) {F : Factory k}
    (G : Good F) (t : Backing k) (ht : ∀ i, 0 ≤ t i ∧ t i < F.m i) (hk : u * (k * (k + 4)) ≤ 1)
    (l : List (Fin k)) (n : ℕ) (hn : n + l.length ≤ k) (s S : ℚ) (hS0 : 0 ≤ S) (hS1 : S ≤ n)
    (hs : |s - S| ≤ u * (n * (n + 4))) :
    |l.foldl (fun s i => rnd (s + rnd ((t i : ℚ) / F.m i))) s
      - (S + (l.map fun i => (t i : ℚ) / F.m i).sum)|
      ≤ u * ((n + l.length : ℕ) * ((n + l.length : ℕ) + 4)) := by
  induction l generalizing n s S with
  | nil => simpa using hs
  | cons i l ih =>
    have hm : (0 : ℚ) < F.m i := by exact_mod_cast G.mpos i
    obtain ⟨f, hf⟩ : ∃ f : ℚ, f = (t i : ℚ) / F.m i := ⟨_, rfl⟩
    have hf0 : 0 ≤ f := by
      rw [hf]; exact div_nonneg (by exact_mod_cast (ht i).1) hm.le
    have hf1 : f ≤ 1 := by
      rw [hf, div_le_one hm]; exact_mod_cast (ht i).2.le
    have hn' : (n : ℚ) + 1 ≤ k := by
      have : n + 1 ≤ k := by simp at hn; omega
      exact_mod_cast this
    have hn0 : (0 : ℚ) ≤ n := by positivity
    have he : u * (n * (n + 4)) ≤ 1 := by
      refine le_trans (mul_le_mul_of_nonneg_left ?_ hu) hk
      nlinarith
    have hu1 : u ≤ 1 := by
      have : u * 1 ≤ u * (k * (k + 4)) := mul_le_mul_of_nonneg_left (by nlinarith) hu
      linarith
    have h1 := hr f
    rw [abs_of_nonneg hf0] at h1
    have h1' : |rnd f - f| ≤ u := h1.trans (by nlinarith)
    have h2 := hr (s + rnd f)
    have h3 : |s + rnd f| ≤ n + 3 := by
      have e : s + rnd f = (s - S) + (rnd f - f) + (S + f) := by ring
      rw [e]
      refine (abs_add_le _ _).trans ?_
      have := abs_add_le (s - S) (rnd f - f)
      have : |S + f| ≤ n + 1 := by rw [abs_of_nonneg (by linarith)]; linarith
      linarith
    have h4 : |rnd (s + rnd f) - (S + f)| ≤ u * ((n + 1) * (n + 1 + 4)) := by
      have e : rnd (s + rnd f) - (S + f)
          = (rnd (s + rnd f) - (s + rnd f)) + ((s - S) + (rnd f - f)) := by ring
      rw [e]
      refine (abs_add_le _ _).trans ?_
      have h5 := abs_add_le (s - S) (rnd f - f)
      have h6 : u * |s + rnd f| ≤ u * (n + 3) := mul_le_mul_of_nonneg_left h3 hu
      nlinarith
    have := ih (n + 1) (by simp at hn; omega) (rnd (s + rnd f)) (S + f) (by linarith)
      (by push_cast; linarith) (by push_cast; exact h4)
    rw [List.foldl_cons, List.map_cons, List.sum_cons, ← hf, ← add_assoc]
    have e : n + (i :: l).length = n + 1 + l.length := by simp; omega
    rw [e]
    exact this

/-- The floating-point sum is accurate: with relative error `u` per operation and `k` moduli the error
is at most `u * k * (k + 4)`. -/
theorem approx_float {rnd : ℚ → ℚ} {u : ℚ} (hu : 0 ≤ u) (hr : ∀ x, |rnd x - x| ≤ u * |x|)
    {F : Factory k} (G : Good F) (hk : u * (k * (k + 4)) ≤ 1) :
    Approx F (flsum rnd F) (u * (k * (k + 4))) := by
  intro t ht
  have := flsum_aux hu hr G t ht hk (List.finRange k) 0 (by simp) 0 0 le_rfl (by simp) (by simp)
  rw [zero_add] at this
  have e : ((List.finRange k).map fun i => (t i : ℚ) / F.m i).sum = ∑ i, (t i : ℚ) / F.m i := by
    rw [← List.sum_ofFn, List.ofFn_eq_map]
  rw [e] at this
  unfold flsum
  simpa using this

/-- **C17 for int100 in `float32`.** With any rounding of relative error `2^-24`, truncation by up to
30 bits is exact floor division for every `v` of absolute value below `M * (1/2 - 140 / 2^24)`. -/
theorem int100_truncate {rnd : ℚ → ℚ} (hr : ∀ x, |rnd x - x| ≤ 1 / 2 ^ 24 * |x|) {F : Factory 10}
    (hF : Factory.make moduli100 = .ok F) (v : ℤ)
    (hv : |(v : ℚ)| < (modulus moduli100 : ℚ) * (1 / 2 - 140 / 2 ^ 24)) (amount : ℕ)
    (ha : amount ≤ 30) :
    F.truncate (flsum rnd F) (F.decompose v) amount = some (F.decompose (v / 2 ^ amount)) := by
  have G := (make_good hF).1
  have hfl := approx_float (u := 1 / 2 ^ 24) (by norm_num) hr G (by norm_num)
  have h := crt_truncate hF hfl v (by
    refine hv.trans_le (mul_le_mul_of_nonneg_left ?_ (by positivity))
    norm_num) 2 amount (.inl ⟨amount, ha, rfl⟩)
  rw [h, if_pos]
  · push_cast; rfl
  · refine Nat.Coprime.pow_left _ ?_
    unfold modulus moduli100
    decide

example : ∃ F, Factory.make moduli100 = .ok F ∧
    F.truncate (flsum id F) (F.decompose (-5)) 1 = some (F.decompose (-3)) := by
  obtain ⟨F, hF⟩ := make100
  refine ⟨F, hF, ?_⟩
  have := int100_truncate (rnd := id) (fun x => by simp) hF (-5) (by
    unfold modulus moduli100; simp [Fin.prod_univ_succ]; norm_num) 1 (by norm_num)
  simpa using this

/-- The precomputed inverses of `int100`. -/
def inverses100 : Fin 10 → ℤ := ![183, 147, 713, 324, 566, 987, 784, 973, 763, 488]

theorem inverses100_spec : ∀ i, cofactor moduli100 i * inverses100 i ≡ 1 [ZMOD moduli100 i] := by
  unfold cofactor modulus moduli100 inverses100 Int.ModEq; decide

theorem inverses100_range : ∀ i, 0 ≤ inverses100 i ∧ inverses100 i < moduli100 i := by
  unfold moduli100 inverses100; decide

theorem make100_q {F : Factory 10} (hF : Factory.make moduli100 = .ok F) :
    F = ⟨moduli100, inverses100⟩ := by
  obtain ⟨G, hm⟩ := make_good hF
  obtain ⟨m, q⟩ := F
  simp only at hm
  subst hm
  congr 1
  funext i
  have h1 := G.qspec i
  have h2 : cofactor moduli100 i * inverses100 i ≡ 1 [ZMOD moduli100 i] := inverses100_spec i
  have h3 := G.qlo i
  have h4 := G.qhi i
  have h5 := inverses100_range i
  simp only at h1 h3 h4
  have h6 : q i ≡ inverses100 i [ZMOD moduli100 i] := by
    calc q i = q i * 1 := by ring
      _ ≡ q i * (cofactor moduli100 i * inverses100 i) [ZMOD moduli100 i] := h2.symm.mul_left _
      _ = (cofactor moduli100 i * q i) * inverses100 i := by ring
      _ ≡ 1 * inverses100 i [ZMOD moduli100 i] := h1.mul_right _
      _ = inverses100 i := by ring
  have h7 : q i % moduli100 i = inverses100 i % moduli100 i := h6
  rwa [Int.emod_eq_of_lt h3 h4, Int.emod_eq_of_lt h5.1 h5.2] at h7

/-- **C17 is false for large `K` that are not powers of two.** `x % 1000000` of `x = -300` is not the
residue, even with an exact sum: `int32` overflows in `crt_mod`. -/
theorem crt_mod_false : ∃ F, Factory.make moduli100 = .ok F ∧ Nat.Coprime 1000000 (modulus moduli100) ∧
    ∃ fl, Approx F fl 0 ∧ F.crtMod fl (F.decompose (-300)) 1000000 ≠ -300 % 1000000 := by
  obtain ⟨F, hF⟩ := make100
  have hq := make100_q hF
  refine ⟨F, hF, by unfold modulus moduli100; decide, fun t => ∑ i, (t i : ℚ) / F.m i,
    fun t _ => by simp, ?_⟩
  have hts : F.ts (F.decompose (-300)) = ![346, 323, 292, 523, 609, 607, 761, 638, 630, 99] := by
    rw [hq]; funext i; revert i
    unfold Factory.ts Factory.decompose moduli100 inverses100 wrap32; decide
  have halpha : round (∑ i, ((F.ts (F.decompose (-300)) i : ℤ) : ℚ) / F.m i) = 4 := by
    apply round_eq_of
    rw [hts, hq]
    simp [Fin.sum_univ_succ, moduli100]
    norm_num [abs_lt]
  unfold Factory.crtMod
  simp only
  rw [halpha, hts, hq]
  unfold cofactor modulus moduli100 wrap32
  decide

/-! ## Bits -/

theorem binarize_mod (v : ℤ) (s : ℕ) : Factory.binarize (v % (2 ^ s : ℕ)) s = Factory.binarize v s := by
  unfold Factory.binarize
  refine List.map_congr_left fun j hj => ?_
  have hj := List.mem_range.1 hj
  obtain ⟨r, rfl⟩ := Nat.exists_eq_add_of_lt hj
  have e := Int.mul_ediv_add_emod v ((2 ^ (j + r + 1) : ℕ) : ℤ)
  generalize v / ((2 ^ (j + r + 1) : ℕ) : ℤ) = c at e
  generalize v % ((2 ^ (j + r + 1) : ℕ) : ℤ) = d at e
  subst e
  have h : ((2 ^ (j + r + 1) : ℕ) : ℤ) * c + d = d + 2 ^ j * (2 * (2 ^ r * c)) := by
    push_cast; ring
  rw [h, Int.add_mul_ediv_left _ _ (by positivity)]
  omega

theorem binarize_append (v : ℤ) (s t : ℕ) :
    Factory.binarize v (s + t) = Factory.binarize v s ++ Factory.binarize (v / 2 ^ s) t := by
  unfold Factory.binarize
  rw [List.range_add, List.map_append, List.map_map]
  congr 1
  refine List.map_congr_left fun j _ => ?_
  simp only [Function.comp]
  rw [pow_add, ← Int.ediv_ediv_of_nonneg (by positivity)]

/-- The integer chunks of `v`. -/
def intChunks : List ℕ → ℤ → List ℤ
  | [], _ => []
  | s :: ss, v => v % (2 ^ s : ℕ) :: intChunks ss (v / (2 ^ s : ℕ))

theorem intChunks_bits (ss : List ℕ) (v : ℤ) :
    ((intChunks ss v).zip ss).flatMap (fun c => Factory.binarize c.1 c.2)
      = Factory.binarize v ss.sum := by
  induction ss generalizing v with
  | nil => rfl
  | cons s ss ih =>
    rw [intChunks, List.zip_cons_cons, List.flatMap_cons, ih, List.sum_cons, binarize_append,
      binarize_mod]
    push_cast; rfl

theorem abs_ediv_le (v : ℤ) {d : ℤ} (hd : 0 < d) : |v / d| ≤ |v| := by
  rcases le_or_gt 0 v with h | h
  · rw [abs_of_nonneg h, abs_of_nonneg (Int.ediv_nonneg h hd.le)]
    exact Int.ediv_le_self _ h
  · have h1 : v / d < 0 := Int.ediv_neg_of_neg_of_pos h hd
    rw [abs_of_neg h, abs_of_neg h1]
    have h2 := Int.mul_ediv_add_emod v d
    have h3 := Int.emod_lt_of_pos v hd
    nlinarith

variable {F : Factory k}

theorem nextRemaining_rep (G : Good F) {x : Backing k} {v w : ℤ} (hx : Rep F x v) {s : ℕ}
    (hs : Helpers.inverse ((2 ^ s : ℕ) : ℤ) (modulus F.m) ≠ none) {c : ℤ}
    (hw : v - c ≡ (2 ^ s : ℕ) * w [ZMOD modulus F.m]) : Rep F (F.nextRemaining x s c) w := by
  obtain ⟨b, hb⟩ := Option.ne_none_iff_exists'.1 hs
  have inv := (Helpers.inverse_correct_partial ((2 ^ s : ℕ) : ℤ) (modulus F.m) (by positivity)
    G.modulus_pos).1 b |>.1 hb
  have h := G.mul (G.sub hx (G.decompose c)) (G.decompose b)
  intro i
  have hd : (F.m i : ℤ) ∣ modulus F.m := ⟨_, (mul_cofactor (G.mpos i)).symm⟩
  unfold Factory.nextRemaining
  rw [hb, Option.getD_some, h i]
  refine Int.ModEq.of_dvd hd ?_
  calc (v - c) * b ≡ (2 ^ s : ℕ) * w * b [ZMOD modulus F.m] := hw.mul_right _
    _ = w * ((2 ^ s : ℕ) * b) := by ring
    _ ≡ w * 1 [ZMOD modulus F.m] := inv.2.2.2.mul_left _
    _ = w := by ring

theorem chunks_eq (G : Good F) {fl : Backing k → ℚ} {ε : ℚ} (hfl : Approx F fl ε) (ss : List ℕ)
    (hss : ∀ s ∈ ss, s ≤ 16 ∧ Helpers.inverse ((2 ^ s : ℕ) : ℤ) (modulus F.m) ≠ none)
    {x : Backing k} {v : ℤ} (hx : Rep F x v)
    (hv : |(v : ℚ)| < (modulus F.m : ℚ) * (1 / 2 - ε)) : F.chunks fl ss x = intChunks ss v := by
  induction ss generalizing x v with
  | nil => rfl
  | cons s ss ih =>
    have hs := hss s List.mem_cons_self
    have hc : F.crtMod fl x (2 ^ s) = v % (2 ^ s : ℕ) :=
      G.crtMod_eq hfl hx hv (.inl (pow_dvd_pow 2 (by omega)))
    simp only [Factory.chunks, intChunks]
    rw [hc]
    congr 1
    refine ih (fun t ht => hss t (List.mem_cons_of_mem _ ht)) (nextRemaining_rep G hx hs.2 ?_) ?_
    · have e : v - v % (2 ^ s : ℕ) = (2 ^ s : ℕ) * (v / (2 ^ s : ℕ)) := by
        have := Int.mul_ediv_add_emod v ((2 ^ s : ℕ) : ℤ); linarith
      rw [e]
    · refine lt_of_le_of_lt ?_ hv
      exact_mod_cast abs_ediv_le v (d := (2 ^ s : ℕ)) (by positivity)

theorem chunkSizes_sum (n : ℕ) : (Factory.chunkSizes n).sum = n := by
  unfold Factory.chunkSizes
  split_ifs with h
  · simp; omega
  · simp; omega

theorem chunkSizes_le (n : ℕ) : ∀ s ∈ Factory.chunkSizes n, 0 < s ∧ s ≤ 16 := by
  intro s hs
  unfold Factory.chunkSizes at hs
  rcases List.mem_append.1 hs with h | h
  · rw [List.eq_of_mem_replicate h]; omega
  · split_ifs at h with h0
    · rw [List.mem_singleton.1 h]; omega
    · cases h

/-- The top bit of the last chunk is the sign. -/
theorem last_chunk (ss : List ℕ) (hne : ss ≠ []) (hpos : ∀ s ∈ ss, 0 < s) (v : ℤ)
    (h0 : -2 ^ (ss.sum - 1) ≤ v) (h1 : v < 2 ^ (ss.sum - 1)) :
    (2 ^ (ss.getLast?.getD 0) / 2 ≤ (intChunks ss v).getLast?.getD 0) ↔ v < 0 := by
  induction ss generalizing v with
  | nil => exact absurd rfl hne
  | cons s ss ih =>
    rcases eq_or_ne ss [] with rfl | hss
    · obtain ⟨r, rfl⟩ : ∃ r, s = r + 1 := ⟨s - 1, by have := hpos s (by simp); omega⟩
      simp only [List.sum_cons, List.sum_nil, add_zero, Nat.add_sub_cancel] at h0 h1
      simp only [intChunks, List.getLast?_singleton, Option.getD_some]
      push_cast
      rw [pow_succ, Int.mul_ediv_cancel _ (by norm_num)]
      have hP : (0 : ℤ) < 2 ^ r := by positivity
      generalize (2 : ℤ) ^ r = P at *
      rcases lt_or_ge v 0 with h | h
      · rw [← Int.add_emod_right, Int.emod_eq_of_lt (by omega) (by omega)]; omega
      · rw [Int.emod_eq_of_lt (by omega) (by omega)]; omega
    · have hs := hpos s (by simp)
      obtain ⟨t, ts, rfl⟩ := List.exists_cons_of_ne_nil hss
      have ht := hpos t (by simp)
      have e1 : (s :: t :: ts).getLast? = (t :: ts).getLast? := by simp
      have e2 : (intChunks (s :: t :: ts) v).getLast?
          = (intChunks (t :: ts) (v / (2 ^ s : ℕ))).getLast? := by
        simp only [intChunks]; rw [List.getLast?_cons_cons]
      rw [e1, e2]
      have hsum : (s :: t :: ts).sum - 1 = s + ((t :: ts).sum - 1) := by
        simp only [List.sum_cons]; omega
      rw [hsum, pow_add] at h0 h1
      have hP : (0 : ℤ) < ((2 ^ s : ℕ) : ℤ) := by positivity
      rw [ih hss (fun u hu => hpos u (List.mem_cons_of_mem _ hu)) (v / (2 ^ s : ℕ))
        (by rw [Int.le_ediv_iff_mul_le hP]; push_cast; linarith)
        (by rw [Int.ediv_lt_iff_lt_mul hP]; push_cast; linarith)]
      constructor
      · intro h; by_contra hc
        exact absurd (Int.ediv_nonneg (not_lt.1 hc) hP.le) (by omega)
      · exact fun h => Int.ediv_neg_of_neg_of_pos h hP

/-- **C17, bits.** For odd moduli and every `v` in range, `bits()` returns the bits of `v` in two's
complement, and with `ensure_positive_interpretation` the bits of the non-negative representative
`v mod M`, least significant first, `⌈log2 M⌉` of them. -/
theorem crt_bits {m : Fin k → ℕ} (hF : Factory.make m = .ok F) (hodd : Nat.Coprime 2 (modulus m))
    (h1 : 1 < modulus m) {fl : Backing k → ℚ} {ε : ℚ} (hfl : Approx F fl ε) (hε : 0 ≤ ε) (v : ℤ)
    (hv : |(v : ℚ)| < (modulus m : ℚ) * (1 / 2 - ε)) (hε' : ε < 1 / 4)
    (positive : Bool) :
    F.bits fl positive (F.decompose v) =
      some ((List.range (Nat.clog 2 (modulus m))).map fun j =>
        (if positive then v % modulus m else v) / 2 ^ j % 2) := by
  obtain ⟨G, rfl⟩ := make_good hF
  set M := modulus F.m with hM
  have hMpos : (0 : ℤ) < M := G.modulus_pos
  have hinv : ∀ s : ℕ, Helpers.inverse ((2 ^ s : ℕ) : ℤ) M ≠ none := by
    intro s
    rw [Ne, (Helpers.inverse_correct_partial ((2 ^ s : ℕ) : ℤ) M (by positivity) hMpos).2, not_not,
      Int.gcd_natCast_natCast]
    exact hodd.pow_left s
  have hclog : M ≤ 2 ^ Nat.clog 2 M := Nat.le_pow_clog (by norm_num) _
  have hcpos : 0 < Nat.clog 2 M := Nat.clog_pos (by norm_num) h1
  obtain ⟨ss, hss⟩ : ∃ ss, Factory.chunkSizes (Nat.clog 2 M) = ss := ⟨_, rfl⟩
  have hsum : ss.sum = Nat.clog 2 M := by rw [← hss, chunkSizes_sum]
  have hle : ∀ s ∈ ss, 0 < s ∧ s ≤ 16 := hss ▸ chunkSizes_le _
  have hne : ss ≠ [] := by
    rintro rfl; simp at hsum; omega
  have hplain : F.chunks fl ss (F.decompose v) = intChunks ss v :=
    chunks_eq G hfl ss (fun s h => ⟨(hle s h).2, hinv s⟩) (G.decompose v) hv
  have hvM : |(v : ℚ)| < M / 2 := lt_of_lt_of_le hv (by
    have : (0 : ℚ) ≤ M := by positivity
    nlinarith)
  have hrange : -2 ^ (ss.sum - 1) ≤ v ∧ v < 2 ^ (ss.sum - 1) := by
    rw [hsum]
    have e : (2 : ℤ) ^ Nat.clog 2 M = 2 * 2 ^ (Nat.clog 2 M - 1) := by
      rw [← pow_succ']; congr 1; omega
    have h2 : (M : ℤ) ≤ 2 * 2 ^ (Nat.clog 2 M - 1) := by rw [← e]; exact_mod_cast hclog
    rw [abs_lt] at hvM
    have h3 : -(M : ℤ) < 2 * v := by
      have : -(M : ℚ) < 2 * v := by linarith [hvM.1]
      exact_mod_cast this
    have h4 : 2 * v < (M : ℤ) := by
      have : 2 * (v : ℚ) < M := by linarith [hvM.2]
      exact_mod_cast this
    omega
  have hmsb := last_chunk ss hne (fun s h => (hle s h).1) v hrange.1 hrange.2
  unfold Factory.bits
  simp only [← hM, hss]
  rw [if_neg (by
    simp only [Bool.or_eq_true, Bool.and_eq_true, List.isEmpty_iff, List.any_eq_true,
      Option.isNone_iff_eq_none, not_or, not_and, not_exists]
    exact ⟨fun _ => hne, fun s _ => hinv s⟩), hplain]
  congr 1
  cases positive with
  | false =>
    simp only [Bool.false_and, Bool.false_eq_true, if_false]
    rw [intChunks_bits, hsum]; rfl
  | true =>
    simp only [Bool.true_and, if_true, decide_eq_true_eq, hmsb]
    split_ifs with hneg
    · -- negative: the corrected chunks are those of `v + M`
      have hvm : v % M = v + M := by
        rw [abs_lt] at hvM
        have h3 : -(M : ℤ) < 2 * v := by
          have : -(M : ℚ) < 2 * v := by linarith [hvM.1]
          exact_mod_cast this
        rw [← Int.add_emod_right, Int.emod_eq_of_lt (by omega) (by omega)]
      obtain ⟨s, rest, rfl⟩ := List.exists_cons_of_ne_nil hne
      have hs1 := hle s (by simp)
      have hP : (0 : ℤ) < ((2 ^ s : ℕ) : ℤ) := by positivity
      have hP2 : ((2 ^ s : ℕ) : ℤ) ≤ 2 ^ 16 := by
        exact_mod_cast Nat.pow_le_pow_right (by norm_num) hs1.2
      have hc : F.crtMod fl (F.decompose v) (2 ^ s) = v % (2 ^ s : ℕ) :=
        G.crtMod_eq hfl (G.decompose v) hv (.inl (pow_dvd_pow 2 (by omega)))
      have hchunk : wrap32 (F.crtMod fl (F.decompose v) (2 ^ s) + (M : ℤ) % (2 ^ s : ℕ)) % (2 ^ s : ℕ)
          = (v + M) % (2 ^ s : ℕ) := by
        rw [hc]
        have a0 := Int.emod_nonneg v hP.ne'
        have a1 := Int.emod_lt_of_pos v hP
        have b0 := Int.emod_nonneg (M : ℤ) hP.ne'
        have b1 := Int.emod_lt_of_pos (M : ℤ) hP
        rw [wrap32_eq (by omega) (by omega), ← Int.add_emod]
      have key : F.chunksCorrected fl (s :: rest) (F.decompose v) = intChunks (s :: rest) (v + M) := by
        simp only [Factory.chunksCorrected, intChunks]
        rw [← hM, hchunk]
        congr 1
        refine chunks_eq G hfl rest (fun t ht => ⟨(hle t (List.mem_cons_of_mem _ ht)).2, hinv t⟩)
          (nextRemaining_rep G (G.decompose v) (hinv s) ?_) ?_
        · have e : (2 ^ s : ℕ) * ((v + M) / (2 ^ s : ℕ)) = (v + M) - (v + M) % (2 ^ s : ℕ) := by
            have := Int.mul_ediv_add_emod (v + M) ((2 ^ s : ℕ) : ℤ); linarith
          rw [e, Int.modEq_iff_dvd]
          exact ⟨1, by ring⟩
        · have hvneg : v + (M : ℤ) < M := by omega
          have hv0 : 0 ≤ v + (M : ℤ) := by rw [← hvm]; exact Int.emod_nonneg _ hMpos.ne'
          have hMq : (0 : ℚ) < M := by exact_mod_cast hMpos
          rcases Nat.lt_or_ge 1 s with h2 | h2
          · have h4 : (4 : ℤ) ≤ ((2 ^ s : ℕ) : ℤ) := by
              exact_mod_cast Nat.pow_le_pow_right (n := 2) (by norm_num) h2
            have h5 : 4 * ((v + M) / ((2 ^ s : ℕ) : ℤ)) < M := by
              have h6 := Int.mul_ediv_add_emod (v + M) ((2 ^ s : ℕ) : ℤ)
              have h7 := Int.emod_nonneg (v + M) hP.ne'
              have h8 : 0 ≤ (v + M) / ((2 ^ s : ℕ) : ℤ) := Int.ediv_nonneg hv0 hP.le
              nlinarith
            have h9 : (0 : ℤ) ≤ (v + M) / ((2 ^ s : ℕ) : ℤ) := Int.ediv_nonneg hv0 hP.le
            have h10 : (4 : ℚ) * (((v + M) / ((2 ^ s : ℕ) : ℤ) : ℤ) : ℚ) < M := by exact_mod_cast h5
            rw [abs_of_nonneg (by exact_mod_cast h9)]
            nlinarith
          · have hs0 : s = 1 := by omega
            subst hs0
            have hcl : Nat.clog 2 M = 1 := by
              unfold Factory.chunkSizes at hss
              rcases Nat.eq_zero_or_pos (Nat.clog 2 M / 16) with h | h
              · rw [h] at hss
                simp only [List.replicate_zero, List.nil_append] at hss
                split_ifs at hss with h'
                · have := (List.cons.inj hss).1; omega
              · obtain ⟨n, hn⟩ : ∃ n, Nat.clog 2 M / 16 = n + 1 := ⟨_, (Nat.succ_pred_eq_of_pos h).symm⟩
                rw [hn, List.replicate_succ, List.cons_append] at hss
                have := (List.cons.inj hss).1; omega
            rw [hcl] at hclog
            rw [Int.ediv_eq_zero_of_lt hv0 (by push_cast; omega)]
            simp only [Int.cast_zero, abs_zero]
            exact mul_pos hMq (by linarith)
      rw [key, intChunks_bits, hsum, ← hvm]; rfl
    · rw [intChunks_bits, hsum]
      have hvm : v % M = v := by
        rw [abs_lt] at hvM
        have h4 : 2 * v < (M : ℤ) := by
          have : 2 * (v : ℚ) < M := by linarith [hvM.2]
          exact_mod_cast this
        exact Int.emod_eq_of_lt (by omega) (by omega)
      rw [hvm]; rfl

end Verif.Crt
