import Verif.Aby3.B2a

/-!
# C21, C22, C23, C24, C27: adders, carry, conversions, bit extraction, oblivious transfer

Every theorem holds for all sharings of the operands, all tensor sizes and all draws. `Holds v x`
says that `x` is a consistent replicated sharing of `v`. That none of these protocols tells a
server anything is part of `closed_secrecy` (C07).
-/

namespace Verif.Aby3

open Verif

variable {w n : ℕ}

theorem holds_of_sim {s : Srt} {m m' : M (Shares (T s))} {v v' u : T s} 
    (h : M.Sim 0 (Alike 0 v v') m m') (e : v = u) : M.All (Holds u) m := by
  subst e
  exact h.left fun _ _ h => h.1

attribute [local irreducible] M.All M.Sim

/-! ## C21 -/

/-- **C21**, Kogge-Stone on whole words: the adder returns a sharing of the sum modulo `2^w`. -/
theorem ppa_sum (hw : w ≤ 128) {x y : T (.bool w n)} {X Y : Shares (T (.bool w n))}
    (hx : Holds x X) (hy : Holds y Y) :
    ∃ m, ppa none X Y = .ok m ∧ M.All (Holds fun i => ⟨(x i).bits + (y i).bits⟩) m :=
  ⟨_, rfl, holds_of_sim (ppaFull_sim hw (hx.alike 0) (hy.alike 0)) rfl⟩

theorem lowBits_ofNat (k : ℕ) (x : BitVec w) (hk : k ≤ w) :
    lowBits k x = BitVec.ofNat w (x.toNat % 2 ^ k) := by
  apply BitVec.eq_of_toNat_eq
  simp only [lowBits, BitVec.toNat_setWidth, BitVec.toNat_ofNat]

/-- **C21**, Kogge-Stone with `n_bits = k`, for `1 ≤ k ≤ 63`: a sharing of the sum modulo `2^k`.
-/
theorem ppa_sum_nBits {k : ℕ} (h0 : 0 < k) (hk : k ≤ 63) (hkw : k ≤ w) {x y : T (.bool w n)}
    {X Y : Shares (T (.bool w n))} (hx : Holds x X) (hy : Holds y Y) :
    ∃ m, ppa (some k) X Y = .ok m ∧ M.All (Holds fun i =>
      ⟨BitVec.ofNat w (((x i).bits.toNat + (y i).bits.toNat) % 2 ^ k)⟩) m := by
  have hcl : ¬ Nat.clog 2 w < Nat.clog 2 k := not_lt.2 (Nat.clog_mono_right 2 hkw)
  have key : ∀ a b : BitVec w, lowBits k (a + b)
      = BitVec.ofNat w ((a.toNat + b.toNat) % 2 ^ k) := by
    intro a b
    rw [lowBits_ofNat k _ hkw, BitVec.toNat_add, Nat.mod_mod_of_dvd _ (pow_dvd_pow 2 hkw)]
  rcases Nat.lt_or_ge k w with hlt | hge
  · have hp : ksPlan w (some k)
        = .ok (Nat.clog 2 k, some ((BitVec.ofNat 64 ((1 <<< k) - 1)).signExtend w)) := by
      simp [ksPlan, h0.ne', hcl, hlt, show k ≤ 64 by omega]
    refine ⟨_, by rw [ppa, hp], ?_⟩
    refine holds_of_sim (ksRun_sim _ (hx.alike 0) (hy.alike 0)) ?_
    funext i
    exact XBits.ext ((ksOut_some hk _ _).trans (key _ _))
  · obtain rfl : k = w := by omega
    have hp : ksPlan k (some k) = .ok (Nat.clog 2 k, none) := by
      simp [ksPlan, h0.ne']
    refine ⟨_, by rw [ppa, hp], ?_⟩
    refine holds_of_sim (ksRun_sim _ (hx.alike 0) (hy.alike 0)) ?_
    funext i
    refine XBits.ext ((ksVal_full (by omega) _ _).trans ?_)
    apply BitVec.eq_of_toNat_eq
    simp

/-- **C21 fails** for `n_bits = 64` on 128-bit words: the final mask `(1 << 64) - 1` is stored in
an `int64` array and becomes `-1` (aby3.py:3530-3534), so nothing is masked. `2^64 + 0` modulo
`2^64` is `0`, but the adder returns a sharing of `2^64`. -/
theorem ppa_nBits_64_false {x y : T (.bool 128 n)} {X Y : Shares (T (.bool 128 n))}
    (hx : Holds x X) (hy : Holds y Y) (ex : ∀ i, (x i).bits = 1#128 <<< 64)
    (ey : ∀ i, (y i).bits = 0#128) :
    ∃ m, ppa (some 64) X Y = .ok m ∧ M.All (Holds fun _ => ⟨1#128 <<< 64⟩) m := by
  have hp : ksPlan 128 (some 64) = .ok (6, some (BitVec.allOnes 128)) := by decide +kernel
  refine ⟨_, by rw [ppa, hp], ?_⟩
  refine holds_of_sim (ksRun_sim _ (hx.alike 0) (hy.alike 0)) ?_
  have key : ksOut (6, some (BitVec.allOnes 128)) (1#128 <<< 64) 0#128 = 1#128 <<< 64 := by
    decide +kernel
  funext i
  refine XBits.ext (Eq.trans ?_ key)
  rw [← ex i, ← ey i]
  rfl

/-- **C21 fails** for `64 < n_bits < 128` on 128-bit words: the final mask does not fit a NumPy
integer and the adder raises. -/
theorem ppa_nBits_large_false {k : ℕ} (h : 64 < k) (hk : k < 128) (X Y : Shares (T (.bool 128 n))) :
    ppa (some k) X Y = .error .overflowError := by
  have : ksPlan 128 (some k) = .error .overflowError := by
    have : ¬ Nat.clog 2 128 < Nat.clog 2 k := not_lt.2 (Nat.clog_mono_right 2 hk.le)
    simp [ksPlan, show k ≠ 0 by omega, this, hk, show ¬ k ≤ 64 by omega]
  rw [ppa, this]

theorem sk_all {keep copy : ℕ → BitVec w} {r : ℕ} {x y : T (.bool w n)}
    {X Y : Shares (T (.bool w n))} (hx : Holds x X) (hy : Holds y Y) :
    M.All (Holds (blift2 (skVal keep copy r) x y)) (skRun keep copy r X Y) :=
  holds_of_sim (skRun_sim keep copy r (hx.alike 0) (hy.alike 0)) rfl

/-- **C21**, Sklansky on 64-bit words. -/
theorem sklansky64_sum {x y : T (.bool 64 n)} {X Y : Shares (T (.bool 64 n))} (hx : Holds x X)
    (hy : Holds y Y) :
    M.All (Holds fun i => ⟨(x i).bits + (y i).bits⟩) (skRun skKeep64 skCopy64 6 X Y) := by
  refine holds_of_sim (skRun_sim _ _ _ (hx.alike 0) (hy.alike 0)) ?_
  funext i
  refine XBits.ext (BitVec.eq_of_getLsbD_eq fun j hj => ?_)
  exact Bits.sk_sum _ _ _ _ 6 skMasks64 j hj (by omega)

/-- **C21**, Sklansky on 128-bit words. -/
theorem sklansky128_sum {x y : T (.bool 128 n)} {X Y : Shares (T (.bool 128 n))} (hx : Holds x X)
    (hy : Holds y Y) :
    M.All (Holds fun i => ⟨(x i).bits + (y i).bits⟩) (skRun skKeep128 skCopy128 7 X Y) := by
  refine holds_of_sim (skRun_sim _ _ _ (hx.alike 0) (hy.alike 0)) ?_
  funext i
  refine XBits.ext (BitVec.eq_of_getLsbD_eq fun j hj => ?_)
  exact Bits.sk_sum _ _ _ _ 7 skMasks128 j hj (by omega)

/-- **C21**, Sklansky with `n_bits = k ≤ 64`: only the first `k` bits of the result are those of
the sum. -/
theorem sklansky64_nBits_partial {k : ℕ} (hk : k ≤ 64) {x y : T (.bool 64 n)}
    {X Y : Shares (T (.bool 64 n))} (hx : Holds x X) (hy : Holds y Y) :
    ∃ z : T (.bool 64 n), M.All (Holds z) (skRun skKeep64 skCopy64 (Nat.clog 2 k) X Y) ∧
      ∀ i j, j < k → (z i).bits.getLsbD j = ((x i).bits + (y i).bits).getLsbD j := by
  refine ⟨_, sk_all hx hy, fun i j hj => ?_⟩
  have hcl : Nat.clog 2 k ≤ 6 :=
    (Nat.clog_mono_right 2 hk).trans (by rw [show (64 : ℕ) = 2 ^ 6 from rfl, Nat.clog_pow 2 6 (by norm_num)])
  refine Bits.sk_sum _ _ _ _ _ (fun l hl => skMasks64 l (by omega)) j (by omega) ?_
  have := Nat.le_pow_clog (b := 2) (by norm_num) k
  omega

/-- **C21 fails** for Sklansky with `n_bits`: there is no final mask (aby3.py:3464-3469), so
`2 + 0` with `n_bits = 1` is a sharing of `2`, not of `0`. -/
theorem sklansky64_nBits_false {x y : T (.bool 64 n)} {X Y : Shares (T (.bool 64 n))}
    (hx : Holds x X) (hy : Holds y Y) (ex : ∀ i, (x i).bits = 2) (ey : ∀ i, (y i).bits = 0) :
    M.All (Holds fun _ => ⟨2⟩) (skRun skKeep64 skCopy64 (Nat.clog 2 1) X Y) := by
  refine holds_of_sim (skRun_sim _ _ _ (hx.alike 0) (hy.alike 0)) ?_
  have key : skVal skKeep64 skCopy64 (Nat.clog 2 1) 2 0 = 2 := by decide +kernel
  funext i
  refine XBits.ext (Eq.trans ?_ key)
  rw [← ex i, ← ey i]
  rfl

/-- Sharings exist for every value, so none of these theorems is vacuous. -/
theorem exists_holds {s : Srt} (v a b : T s) :
    Holds v ![(a, b), (b, v - a - b), (v - a - b, a)] := by
  refine ⟨fun i => by fin_cases i <;> rfl, ?_⟩
  show a + b + (v - a - b) = v
  abel

/-! ## C22 -/

theorem clog_fit {e pos : ℕ} (h : pos < 2 ^ e) : 2 ^ Nat.clog 2 (pos + 1) ≤ 2 ^ e :=
  Nat.pow_le_pow_right (by norm_num)
    ((Nat.clog_mono_right 2 h).trans (Nat.clog_pow 2 e (by norm_num)).le)

/-- **C22.** On words of `2^e` bits and for every position below the width, the circuit returns a
sharing of the carry out of position `pos`: whether the sum of the two operands, both cut to their
first `pos + 1` bits, reaches `2^(pos + 1)`. -/
theorem carry_out {e pos : ℕ} (hp : pos < 2 ^ e) {x y : T (.bool (2 ^ e) n)}
    {X Y : Shares (T (.bool (2 ^ e) n))} (hx : Holds x X) (hy : Holds y Y) :
    M.All (Holds fun i => ⟨if 2 ^ (pos + 1) ≤ (x i).bits.toNat % 2 ^ (pos + 1)
        + (y i).bits.toNat % 2 ^ (pos + 1) then 1 else 0⟩) (carry pos X Y) := by
  refine holds_of_sim (carry_sim pos (hx.alike 0) (hy.alike 0)) ?_
  funext i
  refine XBits.ext ((carryV_eq (clog_fit hp) _ _).trans ?_)
  rw [BitVec.carry]
  simp only [Bool.toNat_false, Nat.add_zero, ge_iff_le]
  by_cases hc : 2 ^ (pos + 1) ≤ (x i).bits.toNat % 2 ^ (pos + 1) + (y i).bits.toNat % 2 ^ (pos + 1)
  · simp [hc, facBits]
  · simp [hc, facBits]

/-- The carry out of position 7 of the bytes 200 and 100. -/
example : 7 < 2 ^ 3 ∧ 2 ^ (7 + 1) ≤ 200 % 2 ^ (7 + 1) + 100 % 2 ^ (7 + 1) := by decide

/-! ## C23 -/

/-- **C23**, arithmetic to boolean: a sharing of the same word. -/
theorem a2b_value (hw : w ≤ 128) {x : T (.arith w n)} {X : Shares (T (.arith w n))}
    (hx : Holds x X) :
    ∃ m, a2b none X = .ok m ∧ M.All (Holds (s := .bool w n) fun i => ⟨x i⟩) m := by
  obtain ⟨m, _, h, _, hs⟩ := a2b_none_sim hw (hx.alike 0)
  exact ⟨m, h, holds_of_sim hs rfl⟩

/-- **C23**, arithmetic to boolean with `nbits = k`: a sharing of the word modulo `2^k`. -/
theorem a2b_value_nBits {k : ℕ} (h0 : 0 < k) (hk : k ≤ 63) (hkw : k ≤ w) {x : T (.arith w n)}
    {X : Shares (T (.arith w n))} (hx : Holds x X) :
    ∃ m, a2b (some k) X = .ok m ∧
      M.All (Holds (s := .bool w n) fun i => ⟨BitVec.ofNat w ((x i).toNat % 2 ^ k)⟩) m := by
  obtain ⟨m, _, h, _, hs⟩ := a2b_some_sim h0 hk hkw (hx.alike 0)
  refine ⟨m, h, holds_of_sim hs ?_⟩
  funext i
  exact XBits.ext (lowBits_ofNat k (x i) hkw)

/-- **C23**, boolean to arithmetic: a sharing of the same word. -/
theorem b2a_value (hw : w ≤ 128) {x : T (.bool w n)} {X : Shares (T (.bool w n))}
    (hx : Holds x X) : M.All (Holds (s := .arith w n) fun i => (x i).bits) (b2a X) :=
  holds_of_sim (b2a_sim hw (hx.alike 0)) rfl

/-- **C23**, boolean to arithmetic bit by bit, with `nbits = k`: a sharing of the word modulo
`2^k`; of the whole word for `k = w`. -/
theorem b2aBits_value {k : ℕ} (hk : k ≤ w) {x : T (.bool w n)} {X : Shares (T (.bool w n))}
    (hx : Holds x X) :
    M.All (Holds (s := .arith w n) fun i => BitVec.ofNat w ((x i).bits.toNat % 2 ^ k))
      (b2aBits X k) := by
  refine holds_of_sim (b2aBits_sim (hx.alike 0) k hk) ?_
  funext i
  exact lowBits_ofNat k _ hk

/-- **C23**: `b2a` after `a2b` is a sharing of the same value. -/
theorem a2b_b2a (hw : w ≤ 128) {x : T (.arith w n)} {X : Shares (T (.arith w n))}
    (hx : Holds x X) : ∃ m, a2b none X = .ok m ∧ M.All (Holds x) (m >>= b2a) := by
  obtain ⟨m, h, hm⟩ := a2b_value hw hx
  exact ⟨m, h, M.All.bind hm fun _ hy => b2a_value hw hy⟩

/-- **C23**: `a2b` after `b2a` is a sharing of the same value and never raises. -/
theorem b2a_a2b (hw : w ≤ 128) {x : T (.bool w n)} {X : Shares (T (.bool w n))}
    (hx : Holds x X) :
    M.All (fun Y => ∃ m, a2b none Y = .ok m ∧ M.All (Holds x) m) (b2a X) :=
  M.All.mono (b2a_value hw hx) fun _ hy => a2b_value hw hy

/-! ## C24 -/

/-- **C24**, arithmetic sharings: on words of `2^e` bits and for every position `0 < i < 2^e`,
`bit_extract` is a sharing of bit `i`. -/
theorem bitExtract_value {e i : ℕ} (h0 : 0 < i) (hi : i < 2 ^ e) {x : T (.arith (2 ^ e) n)}
    {X : Shares (T (.arith (2 ^ e) n))} (hx : Holds x X) :
    ∃ m, bitExtract i X = .ok m ∧
      M.All (Holds (s := .bool 1 n) fun j => ⟨BitVec.ofBool ((x j).toNat.testBit i)⟩) m := by
  obtain ⟨k, rfl⟩ := Nat.exists_eq_succ_of_ne_zero h0.ne'
  obtain ⟨m, _, h, _, hs⟩ := bitExtract_sim h0 (clog_fit (Nat.lt_of_succ_lt hi)) hi (hx.alike 0)
  exact ⟨m, h, holds_of_sim hs rfl⟩

/-- **C24**, boolean sharings: every position, including 0. -/
theorem bitExtractB_value {i : ℕ} (hi : i < w) {x : T (.bool w n)} {X : Shares (T (.bool w n))}
    (hx : Holds x X) :
    Holds (s := .bool 1 n) (fun j => ⟨BitVec.ofBool ((x j).bits.toNat.testBit i)⟩)
      (bitExtractB i X) := (bitExtractB_alike hi (hx.alike 0)).1

/-- **C24**, sign: on words of `2^e ≥ 2` bits `msb` is a sharing of the sign. -/
theorem msb_value {e : ℕ} (he : 0 < e) {x : T (.arith (2 ^ e) n)}
    {X : Shares (T (.arith (2 ^ e) n))} (hx : Holds x X) :
    M.All (Holds (s := .bool 1 n) fun j => ⟨BitVec.ofBool (decide ((x j).toInt < 0))⟩) (msb X) := by
  refine holds_of_sim (msb_sim he (hx.alike 0)) ?_
  funext j
  refine XBits.ext (congrArg BitVec.ofBool ?_)
  exact BitVec.msb_eq_toInt

/-- **C24 fails** at position 0 of an arithmetic sharing: the carry circuit is asked for position
`-1` and raises (aby3.py:3563-3564, 5418-5432). -/
theorem bitExtract_zero_false (X : Shares (T (.arith w n))) : bitExtract 0 X = .error .typeError :=
  rfl

/-! ## C27 -/

/-- **C27**, oblivious transfer: whatever the masks and the three roles, the receiver gets exactly
the message its bit selects, element by element. -/
theorem ot_value (sender receiver helper : Fin 3) (m0 m1 : T (.bool w n)) (c : T (.bool 1 n)) :
    M.All (fun r => ∀ i, r i = if (c i).bits = 1#1 then m1 i else m0 i)
      (ot sender receiver helper m0 m1 c c) :=
  M.All.mono (ot_holds sender receiver helper m0 m1 c) fun _ h i => by rw [h]; rfl

/-- **C27**, private `x`: `mul_ab(x, b)` is an arithmetic sharing of `x` where the bit is set and
of `0` elsewhere. -/
theorem mulAb_value {x : T (.arith w n)} {X : Shares (T (.arith w n))} (hx : Holds x X)
    {b : T (.bool 1 n)} {B : Shares (T (.bool 1 n))} (hb : Holds b B) :
    M.All (Holds fun i => if (b i).bits = 1#1 then x i else 0) (mulAb X B) :=
  holds_of_sim (mulAb_sim (hx.alike 0) (hb.alike 0)) rfl

/-- **C27**, public `x`. -/
theorem mulAbPub_value {x : T (.arith w n)} {X : Pub (T (.arith w n))} (hx : IsPub x X)
    {b : T (.bool 1 n)} {B : Shares (T (.bool 1 n))} (hb : Holds b B) :
    M.All (Holds fun i => if (b i).bits = 1#1 then x i else 0) (mulAbPub X B) :=
  holds_of_sim (mulAbPub_sim hx hx (hb.alike 0)) rfl

/-- The hypotheses are met by any value and any two draws. -/
example : Holds (s := .bool 1 2) ![⟨1⟩, ⟨0⟩] ![(![⟨1⟩, ⟨1⟩], 0), (0, ![⟨1⟩, ⟨0⟩] - ![⟨1⟩, ⟨1⟩] - 0),
    (![⟨1⟩, ⟨0⟩] - ![⟨1⟩, ⟨1⟩] - 0, ![⟨1⟩, ⟨1⟩])] := exists_holds _ _ _

end Verif.Aby3
