import Verif.Aby3.Norm
import Verif.Aby3.PolyLemmas
import Verif.Aby3.CircuitProps
import Verif.Bits.KernelProps

/-!
# Lemmas: normalisation
-/

namespace Verif.Aby3

open Verif

/-! ## Words -/

section Words

variable {w : ℕ}

/-- What `topBitS` computes. -/
def topV (k : ℕ) (b : BitVec w) : BitVec w :=
  Bits.prefixOrs k b ^^^ (Bits.prefixOrs k b).sshiftRight 1

/-- What `cutS` computes. -/
def cutV (m : ℕ) (b : BitVec w) : BitVec w := (b <<< (w - m)).sshiftRight (w - m)

theorem eq_twoPow {v : BitVec w} {j : ℕ} (h : ∀ i < w, v.getLsbD i = decide (i = j)) :
    v = BitVec.twoPow w j := by
  apply BitVec.eq_of_getLsbD_eq
  intro i hi
  rw [h i hi, BitVec.getLsbD_twoPow, Bool.eq_iff_iff]
  simp only [decide_eq_true_eq, Bool.and_eq_true]
  omega

theorem twoPow_bit (i j : ℕ) (hj : j < w) : (BitVec.twoPow w j).getLsbD i = decide (i = j) := by
  rw [BitVec.getLsbD_twoPow, Bool.eq_iff_iff]
  simp only [decide_eq_true_eq, Bool.and_eq_true]
  omega

theorem small_bit {x : BitVec w} {p j : ℕ} (hx : x.toNat < 2 ^ p) (hj : p ≤ j) :
    x.getLsbD j = false :=
  Nat.testBit_lt_two_pow (lt_of_lt_of_le hx (Nat.pow_le_pow_right (by decide) hj))

theorem log_bit {x : BitVec w} (h : x ≠ 0) : x.getLsbD (Nat.log 2 x.toNat) = true := by
  have h0 : x.toNat ≠ 0 := fun hc => h (BitVec.eq_of_toNat_eq hc)
  have h1 := Nat.pow_log_le_self 2 h0
  have h2 := Nat.lt_pow_succ_log_self (by decide : 1 < 2) x.toNat
  show x.toNat.testBit _ = true
  rw [Nat.testBit_eq_decide_div_mod_eq]
  have : x.toNat / 2 ^ Nat.log 2 x.toNat = 1 := by
    apply Nat.div_eq_of_lt_le
    · simpa using h1
    · rw [pow_succ] at h2; omega
  rw [this]; rfl

theorem cutV_small {m : ℕ} (h0 : 0 < m) (hm : m ≤ w) {x : BitVec w} (hx : x.toNat < 2 ^ (m - 1)) :
    cutV m (lowBits m x) = x := by
  have e : lowBits m x = x := by
    rw [lowBits_ofNat m x hm, Nat.mod_eq_of_lt (lt_of_lt_of_le hx
      (Nat.pow_le_pow_right (by decide) (by omega)))]
    simp
  rw [e]
  unfold cutV
  apply BitVec.eq_of_getLsbD_eq
  intro i hi
  rw [Bits.sshiftRight_bit _ _ _ hi, BitVec.getLsbD_shiftLeft]
  by_cases h : i + (w - m) ≤ w - 1
  · rw [Nat.min_eq_left h]
    have h1 : i + (w - m) < w := by omega
    have h2 : ¬ i + (w - m) < w - m := by omega
    have h3 : i + (w - m) - (w - m) = i := by omega
    simp only [h1, h2, h3, decide_true, decide_false, Bool.not_false, Bool.true_and]
  · rw [Nat.min_eq_right (by omega), small_bit hx (show m - 1 ≤ i by omega),
      small_bit hx (show m - 1 ≤ w - 1 - (w - m) by omega)]
    simp

theorem topV_small {k p : ℕ} (hk : k ≤ w) {x : BitVec w} (hx : x.toNat < 2 ^ p) (hp : p ≤ k)
    (hp' : p < w) (h : x ≠ 0) : topV k x = BitVec.twoPow w (Nat.log 2 x.toNat) := by
  refine (Bits.top_bit_spec k hk x fun j hj => small_bit hx (by omega)).1 _ (log_bit h) ?_
  intro i hi
  have h2 := Nat.lt_pow_succ_log_self (by decide : 1 < 2) x.toNat
  exact small_bit h2 hi

theorem topV_zero {k : ℕ} (hk : k ≤ w) : topV k (0 : BitVec w) = 0 :=
  (Bits.top_bit_spec k hk 0 fun j _ => by simp).2 rfl

theorem reverse_twoPow {j : ℕ} (hj : j < w) :
    (BitVec.twoPow w j).reverse = BitVec.twoPow w (w - 1 - j) := by
  apply eq_twoPow
  intro i hi
  rw [BitVec.getLsbD_reverse, BitVec.getMsbD_eq_getLsbD, twoPow_bit _ _ hj, Bool.eq_iff_iff]
  simp only [hi, decide_true, Bool.true_and, decide_eq_true_eq]
  omega

theorem lowBits_bit' (k : ℕ) (x : BitVec w) (i : ℕ) (hi : i < w) :
    (lowBits k x).getLsbD i = (decide (i < k) && x.getLsbD i) := by
  unfold lowBits
  rw [BitVec.getLsbD_setWidth, BitVec.getLsbD_setWidth]
  simp [hi]

/-- The low bits of a single bit moved down from the top. -/
theorem shifted_twoPow {j q r : ℕ} (hj : j < w) (hq : q + r ≤ w) :
    lowBits q ((BitVec.twoPow w j).sshiftRight r) =
      if r ≤ j ∧ j < q + r then BitVec.twoPow w (j - r) else 0 := by
  apply BitVec.eq_of_getLsbD_eq
  intro i hi
  rw [lowBits_bit' _ _ _ hi, Bits.sshiftRight_bit _ _ _ hi, twoPow_bit _ _ hj]
  split
  · rename_i h
    rw [twoPow_bit _ _ (by omega), Bool.eq_iff_iff]
    simp only [Bool.and_eq_true, decide_eq_true_eq]
    omega
  · have h0 : (0 : BitVec w).getLsbD i = false := by simp
    rw [h0, Bool.eq_false_iff]
    simp only [ne_eq, Bool.and_eq_true, decide_eq_true_eq]
    omega

/-- The scale found by `__fp_normalize`. -/
def expV (rev : BitVec w → BitVec w) (frac m : ℕ) (x : BitVec w) : BitVec w :=
  lowBits (2 * frac) ((rev (topV m (cutV m (lowBits m x)))).sshiftRight (w - 2 * frac))

theorem expV_eq {rev : BitVec w → BitVec w} (hrev : ∀ v, rev v = v.reverse) {frac m : ℕ}
    (h0 : 0 < m) (hm : m ≤ w) (hmf : m < 2 * frac) (hf : 2 * frac ≤ w) {x : BitVec w}
    (hx : x.toNat < 2 ^ (m - 1)) (hne : x ≠ 0) :
    expV rev frac m x = BitVec.twoPow w (2 * frac - 1 - Nat.log 2 x.toNat) := by
  have hj : Nat.log 2 x.toNat < m - 1 :=
    Nat.log_lt_of_lt_pow (fun hc => hne (BitVec.eq_of_toNat_eq hc)) hx
  unfold expV
  rw [cutV_small h0 hm hx, topV_small hm hx (by omega) (by omega) hne, hrev,
    reverse_twoPow (by omega), shifted_twoPow (by omega) (by omega),
    if_pos (by omega)]
  congr 1
  omega

/-- The scale found by the logarithm. -/
def logExpV (rev : BitVec w → BitVec w) (frac m : ℕ) (x : BitVec w) : BitVec w :=
  lowBits (2 * frac) ((rev (topV m (cutV m (lowBits m x)))).sshiftRight (w - 2 * frac - 1))

theorem logExpV_eq {rev : BitVec w → BitVec w} (hrev : ∀ v, rev v = v.reverse) {frac m : ℕ}
    (h0 : 0 < m) (hm : m ≤ w) (hmf : m < 2 * frac) (hf : 2 * frac < w) {x : BitVec w}
    (hx : x.toNat < 2 ^ (m - 1)) (hne : x ≠ 0) :
    logExpV rev frac m x =
      if x.toNat = 1 then 0 else BitVec.twoPow w (2 * frac - Nat.log 2 x.toNat) := by
  have h1 : x.toNat ≠ 0 := fun hc => hne (BitVec.eq_of_toNat_eq hc)
  have hj : Nat.log 2 x.toNat < m - 1 := Nat.log_lt_of_lt_pow h1 hx
  unfold logExpV
  rw [cutV_small h0 hm hx, topV_small hm hx (by omega) (by omega) hne, hrev,
    reverse_twoPow (by omega), shifted_twoPow (by omega) (by omega)]
  by_cases h : x.toNat = 1
  · rw [if_pos h, h, if_neg]
    simp only [Nat.log_one_right]
    omega
  · have hl : 1 ≤ Nat.log 2 x.toNat := Nat.log_pos (by decide) (by omega)
    rw [if_neg h, if_pos (by omega)]
    congr 1
    omega

/-- The integer logarithm found by the logarithm. -/
def posV (m q : ℕ) (x : BitVec w) : BitVec w :=
  lowBits q (Bits.xorIndices (topV m (cutV m (lowBits m x))))

theorem posV_eq (hw : w = 64 ∨ w = 128) {m : ℕ} (h0 : 0 < m) (hm : m ≤ w) {x : BitVec w}
    (hx : x.toNat < 2 ^ (m - 1)) (hne : x ≠ 0) :
    posV m ((Nat.log 2 w + 1) * 2) x = BitVec.ofNat w (Nat.log 2 x.toNat) := by
  have hj : Nat.log 2 x.toNat < m - 1 :=
    Nat.log_lt_of_lt_pow (fun hc => hne (BitVec.eq_of_toNat_eq hc)) hx
  unfold posV
  rw [cutV_small h0 hm hx, topV_small hm hx (by omega) (by omega) hne]
  have hq : (Nat.log 2 w + 1) * 2 ≤ w := by
    rcases hw with rfl | rfl
    · have : Nat.log 2 64 = 6 := Nat.log_pow (by decide) 6
      omega
    · have : Nat.log 2 128 = 7 := Nat.log_pow (by decide) 7
      omega
  rw [lowBits_ofNat _ _ hq, Bits.xor_indices_one_hot w _ (by omega) hw, Nat.mod_eq_of_lt]
  have h2 := Nat.lt_pow_succ_log_self (by decide : 1 < 2) w
  calc Nat.log 2 x.toNat < w := by omega
    _ < 2 ^ (Nat.log 2 w + 1) := h2
    _ ≤ _ := Nat.pow_le_pow_right (by decide) (by omega)

/-- The words of the square root reduction: position of the scale, and its half. -/
def sqrtZ (s : ℕ) (x : BitVec w) : BitVec w := topV w (x <<< s) <<< 1

theorem sqrtZ_eq {s : ℕ} (hs : s + 2 ≤ w) {x : BitVec w} (hx : x.toNat < 2 ^ (w - 2 - s))
    (hne : x ≠ 0) : sqrtZ s x = BitVec.twoPow w (Nat.log 2 x.toNat + s + 1) := by
  have h1 : x.toNat ≠ 0 := fun hc => hne (BitVec.eq_of_toNat_eq hc)
  have hj : Nat.log 2 x.toNat < w - 2 - s := Nat.log_lt_of_lt_pow h1 hx
  have hlt : x.toNat * 2 ^ s < 2 ^ (w - 2) := by
    calc x.toNat * 2 ^ s < 2 ^ (w - 2 - s) * 2 ^ s := Nat.mul_lt_mul_of_pos_right hx (by positivity)
      _ = 2 ^ (w - 2) := by rw [← pow_add]; congr 1; omega
  have hn : (x <<< s).toNat = x.toNat * 2 ^ s := by
    rw [BitVec.toNat_shiftLeft, Nat.shiftLeft_eq, Nat.mod_eq_of_lt]
    exact lt_of_lt_of_le hlt (Nat.pow_le_pow_right (by decide) (by omega))
  have hl : Nat.log 2 (x.toNat * 2 ^ s) = Nat.log 2 x.toNat + s := by
    clear hn hlt hj hx
    induction s with
    | zero => simp
    | succ s ih =>
      rw [pow_succ, ← mul_assoc, Nat.log_mul_base (by decide) (by positivity), ih (by omega)]
      omega
  unfold sqrtZ
  rw [topV_small (p := w - 2) le_rfl (by rw [hn]; exact hlt) (by omega) (by omega) ?_, hn, hl]
  · apply eq_twoPow
    intro i hi
    rw [BitVec.getLsbD_shiftLeft, twoPow_bit _ _ (by omega), Bool.eq_iff_iff]
    simp only [hi, decide_true, Bool.true_and, Bool.and_eq_true, Bool.not_eq_true',
      decide_eq_false_iff_not, decide_eq_true_eq]
    omega
  · intro hc
    have : (x <<< s).toNat = 0 := by rw [hc]; rfl
    rw [hn] at this
    rcases Nat.mul_eq_zero.1 this with h | h
    · exact h1 h
    · exact absurd h (by positivity)

theorem half_twoPow {p q : ℕ} (hp : p + 1 < w) (hq : p / 2 < q) :
    lowBits q (Bits.gather 0 2 (BitVec.twoPow w p ||| (BitVec.twoPow w p).sshiftRight 1)) =
      BitVec.twoPow w (p / 2) := by
  apply eq_twoPow
  intro i hi
  rw [lowBits_bit' _ _ _ hi, Bits.bit_gather_spec _ _ _ _ hi, BitVec.getLsbD_or]
  by_cases h : 0 + i * 2 < w
  · rw [Bits.sshiftRight_bit _ _ _ h, twoPow_bit _ _ (by omega), twoPow_bit _ _ (by omega),
      Bool.eq_iff_iff]
    simp only [Bool.and_eq_true, Bool.or_eq_true, decide_eq_true_eq]
    omega
  · rw [BitVec.getLsbD_of_ge _ _ (by omega), BitVec.getLsbD_of_ge _ _ (by omega), Bool.eq_iff_iff]
    simp only [Bool.or_false, Bool.and_false, Bool.false_eq_true, false_iff, decide_eq_true_eq]
    omega

end Words

/-! ## Protocols -/

variable {w n : ℕ} {σ : Fin 3}

attribute [local irreducible] M.All M.Sim

theorem orLoopS_sim (r : ℕ) : ∀ (e : ℕ) {c c' : T (.bool w n)} {x x' : Shares (T (.bool w n))},
    Alike σ c c' x x' →
    M.Sim σ (Alike σ (blift (Bits.orLoop r e) c) (blift (Bits.orLoop r e) c')) (orLoopS r e x)
      (orLoopS r e x') := by
  induction r with
  | zero => exact fun e _ _ _ _ h => .pure h
  | succ r ih =>
    intro e c c' x x' h
    unfold orLoopS
    exact .bind (bor2_sim h (h.bsar e)) fun y y' hy => ih (2 * e) hy

theorem topBitS_sim (k : ℕ) {c c' : T (.bool w n)} {x x' : Shares (T (.bool w n))}
    (h : Alike σ c c' x x') :
    M.Sim σ (Alike σ (blift (topV k) c) (blift (topV k) c')) (topBitS k x) (topBitS k x') := by
  unfold topBitS prefixOrsS
  exact .bind (orLoopS_sim _ 1 h) fun y y' hy => .pure (hy.bxor2 (hy.bsar 1))

theorem Alike.cutS (m : ℕ) {c c' : T (.bool w n)} {x x' : Shares (T (.bool w n))}
    (h : Alike σ c c' x x') :
    Alike σ (Aby3.blift (cutV m) c) (Aby3.blift (cutV m) c') (cutS m x) (cutS m x') :=
  (h.bshl (w - m)).bsar (w - m)

theorem rev_xor {rev : BitVec w → BitVec w} (hrev : ∀ v, rev v = v.reverse) (a b : BitVec w) :
    rev (a ^^^ b) = rev a ^^^ rev b := by
  rw [hrev, hrev, hrev]
  apply BitVec.eq_of_getLsbD_eq
  intro i hi
  simp only [BitVec.getLsbD_xor, BitVec.getLsbD_reverse, BitVec.getMsbD_eq_getLsbD, hi, decide_true,
    Bool.true_and]

theorem normCore_sim {rev : BitVec w → BitVec w} (hrev : ∀ v, rev v = v.reverse) {frac m : ℕ}
    {plan : Option (BitVec w × BitVec w)} (hp : mulPlan w frac true true = .ok plan)
    (hf : 2 * frac ≤ w) {bits bits' : M (Shares (T (.bool w n)))} {c c' : T (.arith w n)}
    (hb : M.Sim σ (Alike σ (toBool (alift (lowBits m) c)) (toBool (alift (lowBits m) c'))) bits bits')
    {x x' : Shares (T (.arith w n))} (hx : Alike σ c c' x x') :
    M.Sim σ (fun o o' => Alike σ (alift (expV rev frac m) c) (alift (expV rev frac m) c') o.2 o'.2 ∧
        Rounded σ (.by .heuristic frac) (fun i => c i * expV rev frac m (c i) : T (.arith w n))
          (fun i => c' i * expV rev frac m (c' i) : T (.arith w n)) o.1 o'.1)
      (normCore rev frac m plan bits x) (normCore rev frac m plan bits' x') := by
  unfold normCore
  refine .bind hb fun b b' hb => ?_
  refine .bind (topBitS_sim m (hb.cutS m)) fun z z' hz => ?_
  refine .bind (b2aBits_sim ((hz.blift (rev_xor hrev)).bsar (w - 2 * frac)) (2 * frac) hf)
    fun e e' he => ?_
  refine .bind (mulS_sim hp hx he) fun s s' hs => .pure ⟨he, hs⟩

theorem normalizePos_sim {rev : BitVec w → BitVec w} (hrev : ∀ v, rev v = v.reverse) {frac m : ℕ}
    (h0 : 0 < m) (h63 : m ≤ 63) (hm : m ≤ w) (hmf : m < 2 * frac) (hf : 2 * frac + 2 ≤ w)
    {c c' : T (.arith w n)} {x x' : Shares (T (.arith w n))} (hx : Alike σ c c' x x') :
    ∃ p p', normalizePos rev frac m x = .ok p ∧ normalizePos rev frac m x' = .ok p' ∧
    M.Sim σ (fun o o' => Alike σ (alift (expV rev frac m) c) (alift (expV rev frac m) c') o.2 o'.2 ∧
        Rounded σ (.by .heuristic frac) (fun i => c i * expV rev frac m (c i) : T (.arith w n))
          (fun i => c' i * expV rev frac m (c' i) : T (.arith w n)) o.1 o'.1) p p' := by
  obtain ⟨b, b', e1, e2, hb⟩ := a2b_some_sim h0 h63 hm hx
  obtain ⟨plan, hp⟩ := mulPlan_ok (w := w) (frac := frac) (sx := true) (sy := true)
    (fun _ => by omega)
  refine ⟨normCore rev frac m plan b x, normCore rev frac m plan b' x', ?_, ?_,
    normCore_sim hrev hp (by omega) hb hx⟩
  · unfold normalizePos; rw [if_pos hmf, e1, hp]
  · unfold normalizePos; rw [if_pos hmf, e2, hp]

theorem logReduce_sim {rev : BitVec w → BitVec w} (hrev : ∀ v, rev v = v.reverse) {frac m : ℕ}
    (h0 : 0 < m) (h63 : m ≤ 63) (hm : m ≤ w) (hmf : m < 2 * frac) (hf : 2 * frac + 2 ≤ w)
    (hl : (Nat.log 2 w + 1) * 2 ≤ w)
    {c c' : T (.arith w n)} {x x' : Shares (T (.arith w n))} (hx : Alike σ c c' x x') :
    ∃ p p', logReduce rev frac m x = .ok p ∧ logReduce rev frac m x' = .ok p' ∧
    M.Sim σ (fun o o' =>
        Rounded σ (.by .heuristic frac) (fun i => c i * logExpV rev frac m (c i) : T (.arith w n))
          (fun i => c' i * logExpV rev frac m (c' i) : T (.arith w n)) o.1 o'.1 ∧
        Alike σ (fun i => posV m ((Nat.log 2 w + 1) * 2) (c i) <<< frac - BitVec.ofNat w (frac * 2 ^ frac)
            : T (.arith w n))
          (fun i => posV m ((Nat.log 2 w + 1) * 2) (c' i) <<< frac - BitVec.ofNat w (frac * 2 ^ frac)
            : T (.arith w n)) o.2 o'.2) p p' := by
  obtain ⟨b, b', e1, e2, hb⟩ := a2b_some_sim h0 h63 hm hx
  obtain ⟨plan, hp⟩ := mulPlan_ok (w := w) (frac := frac) (sx := true) (sy := true)
    (fun _ => by omega)
  refine ⟨logCore rev frac m plan b x, logCore rev frac m plan b' x', ?_, ?_, ?_⟩
  · unfold logReduce; rw [if_pos hmf, e1, hp]
  · unfold logReduce; rw [if_pos hmf, e2, hp]
  unfold logCore
  refine .bind hb fun b b' hb => ?_
  refine .bind (topBitS_sim m (hb.cutS m)) fun z z' hz => ?_
  refine .bind (b2aBits_sim ((hz.blift (rev_xor hrev)).bsar (w - 2 * frac - 1)) (2 * frac) (by omega))
    fun e e' he => ?_
  refine .bind (b2aBits_sim (hz.blift Bits.kernels_xor.2.2.2) _ hl) fun l l' hl => ?_
  refine .bind (mulS_sim hp hx he) fun s s' hs => .pure ⟨hs, ?_⟩
  have := hl.map (t := .arith w n) (f := alift (· <<< frac)) fun a b => by
    funext i
    show (a i + b i) <<< frac = a i <<< frac + b i <<< frac
    simp only [BitVec.shiftLeft_eq_mul_twoPow, BitVec.add_mul]
  exact this.subPub (y := fun _ _ => BitVec.ofNat w (frac * 2 ^ frac))
    (y' := fun _ _ => BitVec.ofNat w (frac * 2 ^ frac)) (fun _ => rfl) (fun _ => rfl)

/-- The scaled sign that `__fp_normalize` computes from bit `m`. -/
def signV (frac m : ℕ) (x : BitVec w) : BitVec w :=
  BitVec.ofNat w (2 ^ frac) - if x.getLsbD m then BitVec.ofNat w (2 * 2 ^ frac) else 0

/-- What `__fp_normalize` gives in both runs: `z` is the rounded absolute value. -/
def NormRel (σ : Fin 3) (rev : BitVec w → BitVec w) (frac m : ℕ) (c c' : T (.arith w n))
    (o o' : Except Err (Shares (T (.arith w n)) × Shares (T (.arith w n)))) : Prop :=
  ∃ r r', o = .ok r ∧ o' = .ok r' ∧ ∃ z z' : T (.arith w n),
    (Rounding.by .heuristic frac).Ok (t := .arith w n) (fun i => signV frac m (c i) * c i) z ∧
    (Rounding.by .heuristic frac).Ok (t := .arith w n) (fun i => signV frac m (c' i) * c' i) z' ∧
    (c = c' → z = z') ∧
    Rounded σ (.by .heuristic frac) (fun i => z i * expV rev frac m (z i) : T (.arith w n))
      (fun i => z' i * expV rev frac m (z' i) : T (.arith w n)) r.1 r'.1 ∧
    Rounded σ (.by .heuristic frac) (fun i => signV frac m (c i) * expV rev frac m (z i) : T (.arith w n))
      (fun i => signV frac m (c' i) * expV rev frac m (z' i) : T (.arith w n)) r.2 r'.2

theorem normalize_sim {rev : BitVec w → BitVec w} (hrev : ∀ v, rev v = v.reverse) {frac m : ℕ}
    (h0 : 0 < m) (h63 : m ≤ 63) (hm : m < w) (hcl : 2 ^ Nat.clog 2 m ≤ w) (hmf : m < 2 * frac)
    (hf : 2 * frac + 2 ≤ w)
    {c c' : T (.arith w n)} {x x' : Shares (T (.arith w n))} (hx : Alike σ c c' x x') :
    ∃ p p', normalize rev frac m x = .ok p ∧ normalize rev frac m x' = .ok p' ∧
      M.Sim σ (NormRel σ rev frac m c c') p p' := by
  obtain ⟨b, b', e1, e2, hb⟩ := bitExtract_sim h0 hcl hm hx
  obtain ⟨plan, hp⟩ := mulPlan_ok (w := w) (frac := frac) (sx := true) (sy := true)
    (fun _ => by omega)
  refine ⟨normalizeRun rev frac m plan b (a2b (some m)) x,
    normalizeRun rev frac m plan b' (a2b (some m)) x', ?_, ?_, ?_⟩
  · unfold normalize; rw [if_pos hmf, e1, hp]
  · unfold normalize; rw [if_pos hmf, e2, hp]
  unfold normalizeRun
  refine .bind hb fun u u' hu => ?_
  refine .bind (mulAbPub_sim (c := fun _ => BitVec.ofNat w (2 * 2 ^ frac)) (fun _ => rfl) (fun _ => rfl)
    hu) fun t t' ht => ?_
  have hsign := ht.pubSub (y := fun _ _ => BitVec.ofNat w (2 ^ frac))
    (y' := fun _ _ => BitVec.ofNat w (2 ^ frac)) (c := fun _ => BitVec.ofNat w (2 ^ frac))
    (fun _ => rfl) (fun _ => rfl)
  have es : ∀ c : T (.arith w n), ((fun _ => BitVec.ofNat w (2 ^ frac) : T (.arith w n)) -
      gate (bitOf m c) (fun _ => BitVec.ofNat w (2 * 2 ^ frac)) : T (.arith w n)) =
      alift (signV frac m) c := by
    intro c
    funext i
    show BitVec.ofNat w (2 ^ frac) -
        (if BitVec.ofBool ((c i).getLsbD m) = 1#1 then BitVec.ofNat w (2 * 2 ^ frac) else 0) =
      BitVec.ofNat w (2 ^ frac) - if (c i).getLsbD m then BitVec.ofNat w (2 * 2 ^ frac) else 0
    cases (c i).getLsbD m <;> rfl
  rw [es, es] at hsign
  refine .bind (mulS_sim hp hsign hx) ?_
  rintro y y' ⟨z, z', hz, hz', hzz, hy⟩
  obtain ⟨d, d', f1, f2, hd⟩ := a2b_some_sim h0 h63 hm.le hy
  simp only [f1, f2]
  refine .bind (normCore_sim hrev hp (by omega) hd hy) fun r r' hr => ?_
  refine .bind (mulS_sim hp hsign hr.1) fun q q' hq => .pure ?_
  exact ⟨_, _, rfl, rfl, z, z', hz, hz', fun h => hzz (by rw [h]), hr.2, hq⟩

theorem a2b_full (h : 0 < w) (x : Shares (T (.arith w n))) : a2b (some w) x = a2b none x := by
  have : ksPlan w (some w) = ksPlan w none := by
    simp [ksPlan, h.ne']
  unfold a2b
  rw [this]

/-- What the range reduction of `approx_sqrt_inv` gives in both runs. -/
def SqrtRel (σ : Fin 3) (rev : BitVec w → BitVec w) (frac s : ℕ) (c c' : T (.arith w n))
    (o o' : Shares (T (.arith w n)) × Shares (T (.arith w n)) × Shares (T (.bool 1 n))) : Prop :=
  Rounded σ (.by .heuristic (frac + s)) (fun i => rev (sqrtZ s (c i)) * c i : T (.arith w n))
    (fun i => rev (sqrtZ s (c' i)) * c' i : T (.arith w n)) o.1 o'.1 ∧
  Alike σ (alift (fun v => lowBits (frac + s) (Bits.gather 0 2
      (rev (sqrtZ s v) ||| (rev (sqrtZ s v)).sshiftRight 1))) c)
    (alift (fun v => lowBits (frac + s) (Bits.gather 0 2
      (rev (sqrtZ s v) ||| (rev (sqrtZ s v)).sshiftRight 1))) c') o.2.1 o'.2.1 ∧
  Alike σ (bitOf 0 fun i => Bits.xorIndices (sqrtZ s (c i)))
    (bitOf 0 fun i => Bits.xorIndices (sqrtZ s (c' i))) o.2.2 o'.2.2

theorem sqrtReduce_sim {rev : BitVec w → BitVec w} (hrev : ∀ v, rev v = v.reverse) {frac : ℕ}
    (hw : 0 < w) (h128 : w ≤ 128) (heven : w % 2 = 0) (hf : w / 2 ≤ 2 * frac) (hf2 : frac + 2 ≤ w / 2)
    {c c' : T (.arith w n)} {x x' : Shares (T (.arith w n))} (hx : Alike σ c c' x x') :
    ∃ p p', sqrtReduce rev frac x = .ok p ∧ sqrtReduce rev frac x' = .ok p' ∧
      M.Sim σ (SqrtRel σ rev frac (w / 2 - frac) c c') p p' := by
  have hxs := hx.map (t := .arith w n) (f := alift (· <<< (w / 2 - frac))) fun a b => by
    funext i
    show (a i + b i) <<< (w / 2 - frac) = a i <<< (w / 2 - frac) + b i <<< (w / 2 - frac)
    simp only [BitVec.shiftLeft_eq_mul_twoPow, BitVec.add_mul]
  obtain ⟨b, b', e1, e2, hb⟩ := a2b_none_sim h128 hxs
  have hle : frac + (frac + (w / 2 - frac)) + 2 ≤ w := by omega
  obtain ⟨plan, hp⟩ : ∃ plan, heurPlan w frac (frac + (w / 2 - frac)) = .ok plan :=
    ⟨_, heurPlan_ok hle⟩
  refine ⟨sqrtCore rev frac (w / 2 - frac) plan b x, sqrtCore rev frac (w / 2 - frac) plan b' x', ?_, ?_, ?_⟩
  · unfold sqrtReduce
    simp only [show w / 2 - frac ≤ frac ∧ w % 2 = 0 from ⟨by omega, heven⟩, a2b_full hw, e1, hp, and_self,
      if_true]
  · unfold sqrtReduce
    simp only [show w / 2 - frac ≤ frac ∧ w % 2 = 0 from ⟨by omega, heven⟩, a2b_full hw, e2, hp, and_self,
      if_true]
  unfold sqrtCore
  refine .bind hb fun b b' hb => ?_
  refine .bind (topBitS_sim w hb) fun z z' hz => ?_
  have hz1 := hz.bshl 1
  have hr := hz1.blift (rev_xor hrev)
  refine .bind (b2a_sim h128 hr) fun f f' hfr => ?_
  refine .bind (mulS_sim (frac := frac) (sx := false) (sy := false) (plan := none) rfl hfr hx) ?_
  rintro q q' ⟨v, v', rfl, rfl, -, hq⟩
  refine .bind (heurRun_round hle hp hq) fun r r' hr1 => ?_
  refine .bind (bor2_sim hr (hr.bsar 1)) fun g g' hg => ?_
  refine .bind (b2aBits_sim (hg.gather 0 2) (frac + (w / 2 - frac)) (by omega)) fun e e' he => .pure ?_
  refine ⟨?_, he, bitExtractB_alike hw (hz1.blift Bits.kernels_xor.2.2.2)⟩
  obtain ⟨a, a', h1, h2, h3, h4⟩ := hr1
  exact ⟨a, a', h1, h2, h3, h4⟩

end Verif.Aby3
