import Verif.Bits.KernelLemmas

/-!
# C45: the bit kernels compute their bit permutation on every word

`v.getLsbD i` is bit `i` of the word `v`, and `false` beyond the width.
-/

namespace Verif.Bits

/-! ## Gathering -/

/-- `bit_gather(start, stride)`: bit `j` of the result is bit `start + j·stride` of the word. -/
theorem bit_gather_spec {w : ℕ} (start stride : ℕ) (v : BitVec w) (j : ℕ) (hj : j < w) :
    (gather start stride v).getLsbD j = v.getLsbD (start + j * stride) := by
  rw [gather_bit]
  simp [hj]

example : gather 1 2 0b11011010#8 = 0b1011#8 := by decide

/-- The 128-bit kernel, which shifts the word along and stops when nothing is left, computes the
same function. -/
theorem bit_gather_128 (start stride : ℕ) (v : BitVec 128) (hs : start < 128) (h1 : 1 ≤ stride)
    (h2 : stride < 128) : gather128 start stride v = some (gather start stride v) := by
  unfold gather128
  rw [if_pos ⟨hs, h1, h2⟩]
  congr 1
  have := gather128Loop_eq start stride h1 v 128 0 (v >>> start) 0
    (fun j => by rw [BitVec.getLsbD_ushiftRight]; congr 1; omega) rfl rfl
  rwa [Nat.zero_mul, Nat.add_zero] at this

example : gather128 1 2 (0b11011010#128) = some 0b1011#128 := by decide +kernel

/-- `bit_split_and_gather(stride)` gives `stride` words; bit `j` of word `s` is bit `s + j·stride`
of the input, and every bit `d` of the input is found in word `d mod stride` at position
`d / stride`, so nothing is lost or repeated. -/
theorem bit_split_and_gather_spec {w : ℕ} (stride : ℕ) (v : BitVec w) (h0 : stride ≠ 0)
    (hd : stride ∣ w) :
    ∃ rows, splitGather stride v = some rows ∧ rows.length = stride ∧
      (∀ s < stride, ∀ j < w, (rows.getD s 0).getLsbD j = v.getLsbD (s + j * stride)) ∧
      (∀ d < w, v.getLsbD d = (rows.getD (d % stride) 0).getLsbD (d / stride)) := by
  have key : ∀ s < stride, ∀ j < w,
      (((List.range stride).map fun s => gather s stride v).getD s 0).getLsbD j =
        v.getLsbD (s + j * stride) := by
    intro s hs j hj
    rw [List.getD_eq_getElem?_getD, List.getElem?_map, List.getElem?_range hs]
    exact bit_gather_spec s stride v j hj
  refine ⟨_, if_pos ⟨h0, Nat.mod_eq_zero_of_dvd hd⟩, by simp, key, ?_⟩
  intro d hdw
  rw [key _ (Nat.mod_lt _ (Nat.pos_of_ne_zero h0)) _ (lt_of_le_of_lt (Nat.div_le_self _ _) hdw),
    Nat.mul_comm, Nat.mod_add_div]

example : splitGather 2 0b11011010#8 = some [0b1100#8, 0b1011#8] := by decide

/-- A stride that does not divide the width is refused. -/
theorem bit_split_and_gather_refused {w : ℕ} (stride : ℕ) (v : BitVec w) (h : ¬ stride ∣ w) :
    splitGather stride v = none :=
  if_neg fun hc => h (Nat.dvd_of_mod_eq_zero hc.2)

example : splitGather 3 0b11011010#8 = none := bit_split_and_gather_refused 3 _ (by decide)

/-! ## Reversal -/

/-- `bit_reverse` on 64-bit words puts bit `i` at position `63 - i`. -/
theorem bit_reverse_64 (v : BitVec 64) : reverse64 v = v.reverse := by
  apply BitVec.eq_of_getLsbD_eq
  intro i hi
  rw [reverse64_bit v i hi, BitVec.getLsbD_reverse, BitVec.getMsbD_eq_getLsbD]
  simp [hi]

/-- `bit_reverse` on 128-bit words puts bit `i` at position `127 - i`. -/
theorem bit_reverse_128 (v : BitVec 128) : reverse128 v = v.reverse := by
  apply BitVec.eq_of_getLsbD_eq
  intro i hi
  rw [reverse128_bit v i hi, BitVec.getLsbD_reverse, BitVec.getMsbD_eq_getLsbD]
  simp [hi]

/-- Bit by bit, and it undoes itself. -/
theorem bit_reverse_spec (v : BitVec 64) (u : BitVec 128) :
    (∀ i < 64, (reverse64 v).getLsbD i = v.getLsbD (63 - i)) ∧
    (∀ i < 128, (reverse128 u).getLsbD i = u.getLsbD (127 - i)) ∧
    reverse64 (reverse64 v) = v ∧ reverse128 (reverse128 u) = u := by
  refine ⟨fun i hi => reverse64_bit v i hi, fun i hi => reverse128_bit u i hi, ?_, ?_⟩
  · apply BitVec.eq_of_getLsbD_eq
    intro i hi
    rw [reverse64_bit _ i hi, reverse64_bit _ _ (by omega)]
    congr 1; omega
  · apply BitVec.eq_of_getLsbD_eq
    intro i hi
    rw [reverse128_bit _ i hi, reverse128_bit _ _ (by omega)]
    congr 1; omega

example : reverse64 0b1101#64 = 0xB000000000000000#64 := by decide
example : reverse128 0b1101#128 = 0xB0000000000000000000000000000000#128 := by decide +kernel

/-! ## Positions -/

/-- The xor of the numbers in a list. -/
def xorAll (ds : List ℕ) : ℕ := ds.foldr (· ^^^ ·) 0

/-- The positions of the set bits, lowest first. -/
def setBits {w : ℕ} (v : BitVec w) : List ℕ := (List.range w).filter fun d => v.getLsbD d

theorem xorSpan_spec {w : ℕ} (v : BitVec w) : ∀ (n d : ℕ),
    xorSpan v d n = BitVec.ofNat 64 (xorAll ((List.range' d n).filter fun i => v.getLsbD i))
  | 0, _ => by simp [xorSpan, xorAll]
  | n + 1, d => by
      rw [xorSpan, xorSpan_spec v n (d + 1), List.range'_succ]
      cases h : v.getLsbD d
      · simp [List.filter_cons, h]
      · simp [List.filter_cons, h, xorAll, BitVec.ofNat_xor]

/-- `xor_indices` on words of up to 64 bits, and on 128-bit words, is the xor of the positions of the
set bits. (The positions fit in the word: the widths are 64 and 128.) -/
theorem xor_indices_spec {w : ℕ} (v : BitVec w) (hw : w = 64 ∨ w = 128) :
    (xorIndices v).toNat = xorAll (setBits v) := by
  have hlt : xorAll (setBits v) < 2 ^ 7 := by
    have : ∀ l : List ℕ, (∀ d ∈ l, d < 2 ^ 7) → xorAll l < 2 ^ 7 := by
      intro l
      induction l with
      | nil => intro _; decide
      | cons d l ih =>
          intro h
          exact Nat.xor_lt_two_pow (h d (by simp)) (ih fun e he => h e (by simp [he]))
    apply this
    intro d hd
    have := List.mem_range.1 (List.mem_filter.1 hd).1
    rcases hw with rfl | rfl <;> omega
  rw [xorIndices_eq, xorSpan_spec, ← List.range_eq_range']
  rw [BitVec.toNat_setWidth, BitVec.toNat_ofNat]
  change xorAll (setBits v) % 2 ^ 64 % 2 ^ w = _
  rw [Nat.mod_eq_of_lt (lt_trans hlt (by decide)), Nat.mod_eq_of_lt]
  rcases hw with rfl | rfl
  · exact lt_trans hlt (by decide)
  · exact lt_trans hlt (by decide)

example : xorIndices (0b1011000#64) = 1#64 := by decide +kernel
example : setBits (0b1011000#64) = [3, 4, 6] ∧ xorAll [3, 4, 6] = 1 := by decide

/-- On a word with one set bit it is the position of that bit. -/
theorem xor_indices_one_hot (w j : ℕ) (hj : j < w) (hw : w = 64 ∨ w = 128) :
    (xorIndices (BitVec.twoPow w j)).toNat = j := by
  rw [xor_indices_spec _ hw]
  have : setBits (BitVec.twoPow w j) = [j] := by
    unfold setBits
    have e : (fun d => (BitVec.twoPow w j).getLsbD d) = (fun d => d == j) := by
      funext d
      rw [BitVec.getLsbD_twoPow, Bool.eq_iff_iff]
      simp only [hj, decide_true, Bool.true_and, decide_eq_true_eq, beq_iff_eq]
      exact eq_comm
    rw [e, List.filter_beq, List.nodup_range.count,
      if_pos (List.mem_range.2 hj)]
    rfl
  rw [this]
  simp [xorAll]

example : (xorIndices (BitVec.twoPow 128 77)).toNat = 77 :=
  xor_indices_one_hot 128 77 (by decide) (Or.inr rfl)

/-! ## Sharing: every kernel commutes with xor -/

/-- The kernels are linear over xor, so applying them to each share applies them to the secret. -/
theorem kernels_xor :
    (∀ {w : ℕ} (s t : ℕ) (a b : BitVec w), gather s t (a ^^^ b) = gather s t a ^^^ gather s t b) ∧
    (∀ a b : BitVec 64, reverse64 (a ^^^ b) = reverse64 a ^^^ reverse64 b) ∧
    (∀ a b : BitVec 128, reverse128 (a ^^^ b) = reverse128 a ^^^ reverse128 b) ∧
    (∀ {w : ℕ} (a b : BitVec w), xorIndices (a ^^^ b) = xorIndices a ^^^ xorIndices b) := by
  refine ⟨fun s t a b => gather_xor s t a b, ?_, ?_, ?_⟩
  · intro a b
    apply BitVec.eq_of_getLsbD_eq
    intro i hi
    simp only [BitVec.getLsbD_xor, reverse64_bit _ i hi]
  · intro a b
    apply BitVec.eq_of_getLsbD_eq
    intro i hi
    simp only [BitVec.getLsbD_xor, reverse128_bit _ i hi]
  · intro w a b
    rw [xorIndices_eq, xorIndices_eq, xorIndices_eq, xorSpan_xor, BitVec.setWidth_xor]

/-! ## Running ors -/

/-- `prefix_ORs(b, k)` on a word whose bits from `k` on, and whose sign bit, are clear: bit `i` says
whether some bit at `i` or above is set. -/
theorem prefix_ORs_spec {w : ℕ} (k : ℕ) (hk : k ≤ w) (b : BitVec w)
    (hb : ∀ j, k ≤ j ∨ j = w - 1 → b.getLsbD j = false) (i : ℕ) :
    (prefixOrs k b).getLsbD i = true ↔ ∃ j, i ≤ j ∧ j < k ∧ b.getLsbD j = true := by
  by_cases hi : i < w
  · unfold prefixOrs
    rw [orLoop_bit _ 1 b i hi le_rfl]
    have hkn : k ≤ 2 ^ Nat.clog 2 k := Nat.le_pow_clog (by decide) k
    constructor
    · rintro ⟨m, hm, h⟩
      have hlt : min (i + m * 1) (w - 1) < k ∧ min (i + m * 1) (w - 1) ≠ w - 1 := by
        by_contra hc
        rw [hb _ (by omega)] at h
        exact absurd h (by decide)
      refine ⟨_, ?_, hlt.1, h⟩
      omega
    · rintro ⟨j, h1, h2, h⟩
      refine ⟨j - i, by omega, ?_⟩
      rw [Nat.mul_one, show min (i + (j - i)) (w - 1) = j by omega]
      exact h
  · rw [BitVec.getLsbD_of_ge _ _ (by omega)]
    constructor
    · intro h; exact absurd h (by decide)
    · rintro ⟨j, h1, h2, _⟩; omega

example : prefixOrs 6 0b00010100#8 = 0b00011111#8 := by decide

/-- `y ^ (y >> 1)` of the running ors keeps the top set bit only: if `j` is the top set bit of `b`
the result is `2^j`, and it is `0` for `0` (the position found by fp_normalize, fp.py:222-223). -/
theorem top_bit_spec {w : ℕ} (k : ℕ) (hk : k ≤ w) (b : BitVec w)
    (hb : ∀ j, k ≤ j ∨ j = w - 1 → b.getLsbD j = false) :
    (∀ j, b.getLsbD j = true → (∀ i, j < i → b.getLsbD i = false) →
      prefixOrs k b ^^^ (prefixOrs k b).sshiftRight 1 = BitVec.twoPow w j) ∧
    (b = 0 → prefixOrs k b ^^^ (prefixOrs k b).sshiftRight 1 = 0) := by
  classical
  have hv : ∀ i, (prefixOrs k b).getLsbD i = decide (∃ j, i ≤ j ∧ j < k ∧ b.getLsbD j = true) := by
    intro i
    rw [Bool.eq_iff_iff, prefix_ORs_spec k hk b hb i]
    simp
  constructor
  · intro j hj htop
    have hjk : j < k ∧ j ≠ w - 1 := by
      by_contra hc
      rw [hb j (by omega)] at hj
      exact absurd hj (by decide)
    have hv' : ∀ i, (prefixOrs k b).getLsbD i = decide (i ≤ j) := by
      intro i
      rw [hv i, decide_eq_decide]
      constructor
      · rintro ⟨a, h1, _, h3⟩
        by_contra hc
        rw [htop a (by omega)] at h3
        exact absurd h3 (by decide)
      · intro h; exact ⟨j, h, hjk.1, hj⟩
    apply BitVec.eq_of_getLsbD_eq
    intro i hi
    rw [BitVec.getLsbD_xor, sshiftRight_bit _ _ _ hi, hv', hv', BitVec.getLsbD_twoPow]
    have : (min (i + 1) (w - 1) ≤ j) ↔ i + 1 ≤ j := by omega
    rw [Bool.eq_iff_iff]
    simp only [this, bne_iff_ne, ne_eq, decide_eq_decide, Bool.and_eq_true, decide_eq_true_eq]
    omega
  · rintro rfl
    have hv' : ∀ i, (prefixOrs k (0 : BitVec w)).getLsbD i = false := by
      intro i
      rw [hv i]
      simp
    apply BitVec.eq_of_getLsbD_eq
    intro i hi
    rw [BitVec.getLsbD_xor, sshiftRight_bit _ _ _ hi, hv', hv']
    simp

example : prefixOrs 6 0b00010100#8 ^^^ (prefixOrs 6 0b00010100#8).sshiftRight 1 = BitVec.twoPow 8 4 := by
  decide

/-- The higher bits must be clear: with the sign bit set, `prefix_ORs(b, 3)` reports set bits among
the three low positions of a word that has none. -/
theorem prefix_ORs_high_false : ¬ ∀ (b : BitVec 8) (i : ℕ), i < 3 →
    ((prefixOrs 3 b).getLsbD i = true ↔ ∃ j, i ≤ j ∧ j < 3 ∧ b.getLsbD j = true) := by
  intro h
  have := (h 0b1000#8 0 (by decide)).1 (by decide)
  obtain ⟨j, _, h2, h3⟩ := this
  have : j = 0 ∨ j = 1 ∨ j = 2 := by omega
  rcases this with rfl | rfl | rfl <;> exact absurd h3 (by decide)

end Verif.Bits
