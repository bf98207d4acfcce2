import Verif.Aby3.Circuits
import Verif.Aby3.MulAb

/-!
# The circuits compute what they should, and hide what they should
-/

namespace Verif.Aby3

open Verif

variable {σ : Fin 3} {w v n : ℕ}

/-- Elementwise operation on two boolean tensors. -/
def blift2 {w v n : ℕ} (g : BitVec w → BitVec w → BitVec v) (x y : T (.bool w n)) :
    T (.bool v n) := fun i => ⟨g (x i).bits (y i).bits⟩

theorem Alike.blift {g : BitVec w → BitVec v} (hg : ∀ a b, g (a ^^^ b) = g a ^^^ g b)
    {c c' : T (.bool w n)} {x x' : Shares (T (.bool w n))} (h : Alike σ c c' x x') :
    Alike σ (blift g c) (blift g c') (x.map (blift g)) (x'.map (blift g)) :=
  h.map fun a b => by funext i; exact XBits.ext (hg _ _)

theorem Alike.bshl {c c' : T (.bool w n)} {x x' : Shares (T (.bool w n))}
    (h : Alike σ c c' x x') (k : ℕ) :
    Alike σ (Aby3.blift (· <<< k) c) (Aby3.blift (· <<< k) c') (bshl k x) (bshl k x') :=
  h.blift fun a b => BitVec.shiftLeft_xor_distrib a b k

theorem Alike.bsar {c c' : T (.bool w n)} {x x' : Shares (T (.bool w n))}
    (h : Alike σ c c' x x') (k : ℕ) :
    Alike σ (Aby3.blift (·.sshiftRight k) c) (Aby3.blift (·.sshiftRight k) c')
      (bsar k x) (bsar k x') :=
  h.blift fun a b => BitVec.sshiftRight_xor_distrib a b k

theorem Alike.bshr {c c' : T (.bool w n)} {x x' : Shares (T (.bool w n))}
    (h : Alike σ c c' x x') (k : ℕ) :
    Alike σ (Aby3.blift (· >>> k) c) (Aby3.blift (· >>> k) c') (bshr k x) (bshr k x') :=
  h.blift fun a b => BitVec.ushiftRight_xor_distrib a b k

theorem Alike.setWidth {c c' : T (.bool w n)} {x x' : Shares (T (.bool w n))}
    (h : Alike σ c c' x x') (k : ℕ) :
    Alike σ (Aby3.blift (·.setWidth k) c) (Aby3.blift (·.setWidth k) c')
      (x.map (Aby3.blift (·.setWidth k))) (x'.map (Aby3.blift (·.setWidth k))) :=
  h.blift fun a b => BitVec.setWidth_xor

theorem Alike.gather {c c' : T (.bool w n)} {x x' : Shares (T (.bool w n))}
    (h : Alike σ c c' x x') (a b : ℕ) :
    Alike σ (Aby3.blift (Bits.gather a b) c) (Aby3.blift (Bits.gather a b) c')
      (x.map (Aby3.blift (Bits.gather a b))) (x'.map (Aby3.blift (Bits.gather a b))) :=
  h.blift fun p q => Bits.gather_xor a b p q

theorem Alike.xorConst {c c' : T (.bool w n)} {x x' : Shares (T (.bool w n))}
    (h : Alike σ c c' x x') (k : BitVec w) :
    Alike σ (Aby3.blift (· ^^^ k) c) (Aby3.blift (· ^^^ k) c') (xorConst k x) (xorConst k x') :=
  h.xorPub (c := fun _ => ⟨k⟩) (fun _ => rfl) fun _ => rfl

theorem Alike.andConst {c c' : T (.bool w n)} {x x' : Shares (T (.bool w n))}
    (h : Alike σ c c' x x') (k : BitVec w) :
    Alike σ (Aby3.blift (· &&& k) c) (Aby3.blift (· &&& k) c') (andConst k x) (andConst k x') :=
  h.bilinPub (f := band) (c := fun _ => ⟨k⟩) band_add_left (fun _ => rfl) fun _ => rfl

theorem Alike.bxor2 {c c' d d' : T (.bool w n)} {x x' y y' : Shares (T (.bool w n))}
    (h : Alike σ c c' x x') (h₂ : Alike σ d d' y y') :
    Alike σ (blift2 (· ^^^ ·) c d) (blift2 (· ^^^ ·) c' d') (bxor2 x y) (bxor2 x' y') :=
  h.add h₂

theorem band2_sim' {c c' d d' : T (.bool w n)} {x x' y y' : Shares (T (.bool w n))}
    (h : Alike σ c c' x x') (h₂ : Alike σ d d' y y') :
    M.Sim σ (Alike σ (blift2 (· &&& ·) c d) (blift2 (· &&& ·) c' d')) (band2 x y) (band2 x' y') :=
  band2_sim h h₂

/-! ## Adders -/

theorem ksLoop_sim (mask : ℕ → BitVec w) (is : List ℕ) :
    ∀ {g g' p p' : T (.bool w n)} {G G' P P' : Shares (T (.bool w n))},
      Alike σ g g' G G' → Alike σ p p' P P' →
      M.Sim σ (Alike σ (blift2 (Bits.ksLoop mask is) g p) (blift2 (Bits.ksLoop mask is) g' p'))
        (ksLoop mask is G P) (ksLoop mask is G' P') := by
  induction is with
  | nil => exact fun hG _ => .pure hG
  | cons i is ih =>
    intro g g' p p' G G' P P' hG hP
    unfold ksLoop
    refine .bind (band2_sim' hP (hG.bshl _)) fun PG PG' hPG => ?_
    refine .bind (band2_sim' hP ((hP.bshl _).xorConst _)) fun Q Q' hQ => ?_
    exact ih (hG.bxor2 hPG) hQ

/-- Value of the adder before the final mask. -/
def ksVal (w rounds : ℕ) (x y : BitVec w) : BitVec w :=
  (Bits.ksLoop (ksMask w) (List.range rounds) (x &&& y) (x ^^^ y) <<< 1) ^^^ (x ^^^ y)

/-- Value of the adder. -/
def ksOut (plan : ℕ × Option (BitVec w)) (x y : BitVec w) : BitVec w :=
  match plan.2 with
  | none => ksVal w plan.1 x y
  | some mask => ksVal w plan.1 x y &&& mask

theorem ksRun_sim (plan : ℕ × Option (BitVec w)) {c c' d d' : T (.bool w n)}
    {x x' y y' : Shares (T (.bool w n))} (hx : Alike σ c c' x x') (hy : Alike σ d d' y y') :
    M.Sim σ (Alike σ (blift2 (ksOut plan) c d) (blift2 (ksOut plan) c' d'))
      (ksRun plan x y) (ksRun plan x' y') := by
  unfold ksRun
  refine .bind (band2_sim' hx hy) fun G G' hG => ?_
  refine .bind (ksLoop_sim _ _ hG (hx.bxor2 hy)) fun L L' hL => .pure ?_
  have hz := (hL.bshl 1).bxor2 (hx.bxor2 hy)
  obtain ⟨r, m⟩ := plan
  cases m with
  | none => exact hz
  | some mask => exact hz.andConst mask

/-- The masks that matter are exact: `2^(2^i) - 1` fits a double unless `i ≥ 6`. -/
theorem ksMask_bit (w i j : ℕ) (hi : i ≤ 5) (hj : j < w) :
    (ksMask w i).getLsbD j = decide (j < 2 ^ i) := by
  have hlt : 2 ^ i ≤ 32 := by
    calc 2 ^ i ≤ 2 ^ 5 := Nat.pow_le_pow_right (by omega) hi
      _ = 32 := by norm_num
  have e : (1 <<< 2 ^ i) - 1 = 2 ^ 2 ^ i - 1 := by rw [Nat.shiftLeft_eq, one_mul]
  have hb : 2 ^ 2 ^ i - 1 < 2 ^ 53 := by
    have : 2 ^ 2 ^ i ≤ 2 ^ 32 := Nat.pow_le_pow_right (by omega) hlt
    have h2 : (2 : ℕ) ^ 32 < 2 ^ 53 := by norm_num
    omega
  unfold ksMask f64
  rw [e, if_pos hb, BitVec.getLsbD_ofNat, Nat.testBit_two_pow_sub_one]
  simp [hj]

theorem clog_le_seven {k : ℕ} (h : k ≤ 128) : Nat.clog 2 k ≤ 7 :=
  (Nat.clog_mono_right 2 h).trans (by decide +kernel)

/-- Before the final mask the low `k` bits are those of the sum. -/
theorem ksVal_bit {k : ℕ} (hw : k ≤ 128) (x y : BitVec w) (j : ℕ) (hj : j < w) (hk : j < k) :
    (ksVal w (Nat.clog 2 k) x y).getLsbD j = (x + y).getLsbD j := by
  refine Bits.ks_sum x y (ksMask w) _ (fun l hl j hj => ?_) j hj ?_
  · have := clog_le_seven hw
    exact ksMask_bit w l j (by omega) hj
  · have := Nat.le_pow_clog (b := 2) (by norm_num) k
    omega

theorem ksVal_full (hw : w ≤ 128) (x y : BitVec w) : ksVal w (Nat.clog 2 w) x y = x + y :=
  BitVec.eq_of_getLsbD_eq fun j hj => ksVal_bit hw x y j hj hj

/-- Elementwise sum of boolean-shared words. -/
def badd (x y : T (.bool w n)) : T (.bool w n) := blift2 (· + ·) x y

theorem ppaFull_sim (hw : w ≤ 128) {c c' d d' : T (.bool w n)}
    {x x' y y' : Shares (T (.bool w n))} (hx : Alike σ c c' x x') (hy : Alike σ d d' y y') :
    M.Sim σ (Alike σ (badd c d) (badd c' d')) (ppaFull x y) (ppaFull x' y') := by
  have e : ∀ a b : T (.bool w n), blift2 (ksOut (Nat.clog 2 w, none)) a b = badd a b := by
    intro a b; funext i; exact XBits.ext (ksVal_full hw _ _)
  have := ksRun_sim (σ := σ) (Nat.clog 2 w, none) hx hy
  rwa [e, e] at this

/-- Keep the low `k` bits. -/
def lowBits (k : ℕ) (x : BitVec w) : BitVec w := (x.setWidth k).setWidth w

theorem lowBits_bit (k : ℕ) (x : BitVec w) (j : ℕ) (hj : j < w) :
    (lowBits k x).getLsbD j = (decide (j < k) && x.getLsbD j) := by
  simp [lowBits, hj]

theorem finalMask_bit {k : ℕ} (hk : k ≤ 63) (j : ℕ) (hj : j < w) :
    ((BitVec.ofNat 64 ((1 <<< k) - 1)).signExtend w).getLsbD j = decide (j < k) := by
  have hm : (BitVec.ofNat 64 ((1 <<< k) - 1)).msb = false := by
    rw [BitVec.msb_eq_getLsbD_last, BitVec.getLsbD_ofNat, Nat.shiftLeft_eq, one_mul,
      Nat.testBit_two_pow_sub_one]
    simp; omega
  rw [BitVec.getLsbD_signExtend, hm, BitVec.getLsbD_ofNat, Nat.shiftLeft_eq, one_mul,
    Nat.testBit_two_pow_sub_one]
  by_cases h : j < 64
  · simp [h, hj]
  · have : ¬ j < k := by omega
    simp [h, this]

theorem ksOut_some {k : ℕ} (hk : k ≤ 63) (x y : BitVec w) :
    ksOut (Nat.clog 2 k, some ((BitVec.ofNat 64 ((1 <<< k) - 1)).signExtend w)) x y
      = lowBits k (x + y) := by
  apply BitVec.eq_of_getLsbD_eq
  intro j hj
  show (ksVal w (Nat.clog 2 k) x y &&& _).getLsbD j = _
  rw [BitVec.getLsbD_and, finalMask_bit hk j hj, lowBits_bit k _ j hj]
  by_cases h : j < k
  · rw [ksVal_bit (by omega) x y j hj h, Bool.and_comm]
  · simp [h]

theorem smear2_alike (i : ℕ) {c c' : T (.bool w n)} {x x' : Shares (T (.bool w n))}
    (h : Alike σ c c' x x') :
    Alike σ (blift (Bits.smear i) c) (blift (Bits.smear i) c') (smear2 i x) (smear2 i x') := by
  unfold smear2
  induction i with
  | zero => exact h
  | succ i ih =>
    rw [List.range_succ, List.foldl_append, List.foldl_append]
    exact (ih.bshl (2 ^ i)).bxor2 ih

theorem skLoop_sim (keep copy : ℕ → BitVec w) (is : List ℕ) :
    ∀ {g g' p p' : T (.bool w n)} {G G' P P' : Shares (T (.bool w n))},
      Alike σ g g' G G' → Alike σ p p' P P' →
      M.Sim σ (Alike σ (blift2 (Bits.skLoop keep copy is) g p)
        (blift2 (Bits.skLoop keep copy is) g' p'))
        (skLoop keep copy is G P) (skLoop keep copy is G' P') := by
  induction is with
  | nil => exact fun hG _ => .pure hG
  | cons i is ih =>
    intro g g' p p' G G' P P' hG hP
    unfold skLoop
    refine .bind (band2_sim' hP (smear2_alike i ((hG.andConst _).bshl 1))) fun PG PG' hPG => ?_
    refine .bind (band2_sim' hP ((smear2_alike i ((hP.andConst _).bshl 1)).xorConst _))
      fun Q Q' hQ => ?_
    exact ih (hG.bxor2 hPG) hQ

/-- Value of the Sklansky adder. -/
def skVal (keep copy : ℕ → BitVec w) (rounds : ℕ) (x y : BitVec w) : BitVec w :=
  (Bits.skLoop keep copy (List.range rounds) (x &&& y) (x ^^^ y) <<< 1) ^^^ (x ^^^ y)

theorem skRun_sim (keep copy : ℕ → BitVec w) (r : ℕ) {c c' d d' : T (.bool w n)}
    {x x' y y' : Shares (T (.bool w n))} (hx : Alike σ c c' x x') (hy : Alike σ d d' y y') :
    M.Sim σ (Alike σ (blift2 (skVal keep copy r) c d) (blift2 (skVal keep copy r) c' d'))
      (skRun keep copy r x y) (skRun keep copy r x' y') := by
  unfold skRun
  refine .bind (band2_sim' hx hy) fun G G' hG => ?_
  refine .bind (skLoop_sim _ _ _ hG (hx.bxor2 hy)) fun L L' hL => .pure ?_
  exact (hL.bshl 1).bxor2 (hx.bxor2 hy)

theorem skMasks64 : ∀ l, l < 6 → ∀ j, j < 64 →
    (skKeep64 l).getLsbD j = decide (j % (2 * 2 ^ l) < 2 ^ l) ∧
    (skCopy64 l).getLsbD j = decide (j % (2 * 2 ^ l) = 2 ^ l - 1) := by
  decide +kernel

theorem skMasks128 : ∀ l, l < 7 → ∀ j, j < 128 →
    (skKeep128 l).getLsbD j = decide (j % (2 * 2 ^ l) < 2 ^ l) ∧
    (skCopy128 l).getLsbD j = decide (j % (2 * 2 ^ l) = 2 ^ l - 1) := by
  decide +kernel

/-! ## Carry -/

/-- Value of one round of the carry circuit. -/
def carryLoopV : (e : ℕ) → BitVec (facBits (2 ^ e)) → BitVec (facBits (2 ^ e)) →
    BitVec (facBits 1)
  | 0, G, _ => G
  | e + 1, G, P =>
    let G0 := (Bits.gather 0 2 G).setWidth (facBits (2 ^ e))
    let G1 := (Bits.gather 1 2 G).setWidth (facBits (2 ^ e))
    let P0 := (Bits.gather 0 2 P).setWidth (facBits (2 ^ e))
    let P1 := (Bits.gather 1 2 P).setWidth (facBits (2 ^ e))
    carryLoopV e (G1 ^^^ (G0 &&& P1)) (P0 &&& P1)

theorem carryLoop_sim (e : ℕ) :
    ∀ {g g' p p' : T (.bool (facBits (2 ^ e)) n)} {G G' P P' : Shares (T (.bool (facBits (2 ^ e)) n))},
      Alike σ g g' G G' → Alike σ p p' P P' →
      M.Sim σ (Alike σ (blift2 (carryLoopV e) g p) (blift2 (carryLoopV e) g' p'))
        (carryLoop e G P) (carryLoop e G' P') := by
  induction e with
  | zero => exact fun hG _ => .pure hG
  | succ e ih =>
    intro g g' p p' G G' P P' hG hP
    unfold carryLoop
    refine .bind (band2_sim' ((hG.gather 0 2).setWidth _) ((hP.gather 1 2).setWidth _))
      fun A A' hA => ?_
    refine .bind (band2_sim' ((hP.gather 0 2).setWidth _) ((hP.gather 1 2).setWidth _))
      fun Q Q' hQ => ?_
    exact ih (((hG.gather 1 2).setWidth _).bxor2 hA) hQ

theorem span_pair (g p : ℕ → Bool) (lo m : ℕ) :
    Bits.span (fun j => Bits.span g p (2 * j) 2) (fun j => Bits.prop p (2 * j) 2) lo m
      = Bits.span g p (2 * lo) (2 * m) := by
  induction m with
  | zero => rfl
  | succ m ih =>
    rw [Bits.span, ih, show 2 * (m + 1) = 2 * m + 2 by ring, Bits.span_append g p (2 * lo) (2 * m) 2,
      show 2 * lo + 2 * m = 2 * (lo + m) by ring]

theorem two_pow_le_facBits (e : ℕ) : 2 ^ e ≤ facBits (2 ^ e) := by
  unfold facBits; split <;> omega

theorem carryLoopV_bit (e : ℕ) (G P : BitVec (facBits (2 ^ e))) :
    (carryLoopV e G P).getLsbD 0 = Bits.span G.getLsbD P.getLsbD 0 (2 ^ e) := by
  induction e with
  | zero => simp [carryLoopV, Bits.span]
  | succ e ih =>
    unfold carryLoopV
    dsimp only
    have hp : 2 ^ (e + 1) = 2 * 2 ^ e := pow_succ' 2 e
    have key : Bits.span G.getLsbD P.getLsbD 0 (2 ^ (e + 1)) = Bits.span
        (fun j => Bits.span G.getLsbD P.getLsbD (2 * j) 2)
        (fun j => Bits.prop P.getLsbD (2 * j) 2) 0 (2 ^ e) := by
      have := span_pair G.getLsbD P.getLsbD 0 (2 ^ e)
      rw [this, Nat.mul_zero]
      exact congrArg _ hp
    rw [ih, key]
    have h1 := two_pow_le_facBits e
    have h2 := two_pow_le_facBits (e + 1)
    refine Bits.span_congr fun j _ hj => ?_
    have hj1 : j < facBits (2 ^ e) := by omega
    have hj2 : j < facBits (2 ^ (e + 1)) := by omega
    simp only [BitVec.getLsbD_xor, BitVec.getLsbD_and, BitVec.getLsbD_setWidth, Bits.gather_bit,
      hj1, hj2, decide_true, Bool.true_and, Bits.span, Bits.prop, Nat.zero_add, Nat.add_zero,
      Bool.and_false, Bool.xor_false, Bool.and_true]
    rw [Nat.mul_comm j 2, Nat.add_comm 1 (2 * j)]
    refine ⟨?_, ?_⟩
    · rw [Bool.and_comm (G.getLsbD (2 * j))]
    · rw [Bool.and_comm]

/-- Value of the carry circuit. -/
def carryV (pos : ℕ) (x y : BitVec w) : BitVec (facBits 1) :=
  let e := Nat.clog 2 (pos + 1)
  let x := (x <<< (2 ^ e - pos - 1)).setWidth (facBits (2 ^ e))
  let y := (y <<< (2 ^ e - pos - 1)).setWidth (facBits (2 ^ e))
  carryLoopV e (x &&& y) (x ^^^ y) &&& 1

theorem carry_sim (pos : ℕ) {c c' d d' : T (.bool w n)} {x x' y y' : Shares (T (.bool w n))}
    (hx : Alike σ c c' x x') (hy : Alike σ d d' y y') :
    M.Sim σ (Alike σ (blift2 (carryV pos) c d) (blift2 (carryV pos) c' d'))
      (carry pos x y) (carry pos x' y') := by
  unfold carry
  dsimp only
  have hx1 := (hx.bshl (2 ^ Nat.clog 2 (pos + 1) - pos - 1)).setWidth
    (facBits (2 ^ Nat.clog 2 (pos + 1)))
  have hy1 := (hy.bshl (2 ^ Nat.clog 2 (pos + 1) - pos - 1)).setWidth
    (facBits (2 ^ Nat.clog 2 (pos + 1)))
  refine .bind (band2_sim' hx1 hy1) fun G G' hG => ?_
  refine .bind (carryLoop_sim _ hG (hx1.bxor2 hy1)) fun L L' hL => .pure ?_
  exact hL.andConst 1

theorem span_shift (g p : ℕ → Bool) (d m : ℕ) :
    Bits.span (fun j => g (j - d)) (fun j => p (j - d)) d m = Bits.span g p 0 m := by
  induction m with
  | zero => rfl
  | succ m ih => rw [Bits.span, Bits.span, ih, Nat.add_sub_cancel_left, Nat.zero_add]

theorem span_false (p : ℕ → Bool) (g : ℕ → Bool) (lo m : ℕ)
    (h : ∀ j, lo ≤ j → j < lo + m → g j = false) : Bits.span g p lo m = false := by
  induction m with
  | zero => rfl
  | succ m ih =>
    rw [Bits.span, h (lo + m) (by omega) (by omega), ih fun j a b => h j a (by omega)]
    simp

/-- The carry circuit returns the carry out of position `pos`, as a word `0` or `1`. -/
theorem carryV_eq {pos : ℕ} (hk : 2 ^ Nat.clog 2 (pos + 1) ≤ w) (x y : BitVec w) :
    carryV pos x y = (BitVec.ofBool (BitVec.carry (pos + 1) x y false)).setWidth (facBits 1) := by
  have hle : pos + 1 ≤ 2 ^ Nat.clog 2 (pos + 1) := Nat.le_pow_clog (by norm_num) _
  unfold carryV
  dsimp only
  set e := Nat.clog 2 (pos + 1)
  set d := 2 ^ e - pos - 1 with hd
  have hfb := two_pow_le_facBits e
  apply BitVec.eq_of_getLsbD_eq
  intro j hj
  have h8 : facBits 1 = 8 := rfl
  have hone : (1 : BitVec (facBits 1)).getLsbD j = decide (j = 0) := by
    show (1#(facBits 1)).getLsbD j = _
    rw [BitVec.getLsbD_one, h8]; simp
  rw [BitVec.getLsbD_and, hone]
  by_cases h0 : j = 0
  · subst h0
    rw [carryLoopV_bit]
    have hsum : (2 : ℕ) ^ e = d + (pos + 1) := by omega
    simp only [decide_true, Bool.and_true]
    have hl : Bits.span (((x <<< d).setWidth (facBits (2 ^ e)) &&&
        (y <<< d).setWidth (facBits (2 ^ e))).getLsbD)
        (((x <<< d).setWidth (facBits (2 ^ e)) ^^^ (y <<< d).setWidth (facBits (2 ^ e))).getLsbD)
        0 (2 ^ e) = BitVec.carry (pos + 1) x y false := by
      have e2 : (0 : ℕ) + d = d := Nat.zero_add d
      rw [← Bits.span_eq_carry]
      conv_lhs => rw [show Bits.span _ _ 0 (2 ^ e) = Bits.span _ _ 0 (d + (pos + 1)) by rw [← hsum]]
      rw [Bits.span_append, e2, span_false _ _ 0 d]
      · rw [Bool.and_false, Bool.xor_false, ← span_shift _ _ d]
        refine Bits.span_congr fun j h1 h2 => ?_
        have a1 : j < facBits (2 ^ e) := by omega
        have a2 : j < w := by omega
        have a3 : ¬ j < d := by omega
        simp only [BitVec.getLsbD_and, BitVec.getLsbD_xor, BitVec.getLsbD_setWidth,
          BitVec.getLsbD_shiftLeft, a1, a2, a3, Bits.genBit, Bits.propBit, decide_true,
          decide_false, Bool.not_false, Bool.true_and]
        exact ⟨by trivial, by trivial⟩
      · intro j h1 h2
        have a3 : j < d := by omega
        simp [a3]
    rw [hl]
    simp [h8]
  · rw [BitVec.getLsbD_setWidth, BitVec.getLsbD_ofBool]
    simp [h0]

/-! ## Conversions -/

theorem a2bOperands_sim {c c' : T (.arith w n)} {x x' : Shares (T (.arith w n))}
    (hx : Alike σ c c' x x') :
    M.Sim σ (fun o o' => ∃ p p' q q' : T (.arith w n), p + q = c ∧ p' + q' = c' ∧
      Alike σ (toBool p) (toBool p') o.1 o'.1 ∧ Alike σ (toBool q) (toBool q') o.2 o'.2)
      (a2bOperands x) (a2bOperands x') := by
  unfold a2bOperands
  refine .bind (reshare_sim (parts := ![toBool ((x 0).1 + (x 0).2), 0, 0])
    (parts' := ![toBool ((x' 0).1 + (x' 0).2), 0, 0]) (fun _ _ => rfl) Function.surjective_id ?_)
    fun o o' ho => .pure ?_
  · have h := hx.2.2
    fin_cases σ
    · show toBool ((x 0).1 + (x 0).2) = toBool ((x' 0).1 + (x' 0).2)
      have : x 0 = x' 0 := h
      rw [this]
    · rfl
    · rfl
  · have e : ∀ a : T (.bool w n), (![a, 0, 0] : Fin 3 → T (.bool w n)) 0 +
        (![a, 0, 0] : Fin 3 → T (.bool w n)) 1 + (![a, 0, 0] : Fin 3 → T (.bool w n)) 2 = a := by
      intro a; show a + 0 + 0 = a; rw [add_zero, add_zero]
    rw [e, e] at ho
    have hold : ∀ {c : T (.arith w n)} {x : Shares (T (.arith w n))}, Holds c x →
        Holds (toBool (x 2).1) ![(0, 0), (0, toBool (x 1).2), (toBool (x 2).1, 0)] := by
      intro c x h
      refine ⟨fun i => ?_, ?_⟩
      · fin_cases i
        · rfl
        · show toBool (x 1).2 = toBool (x 2).1
          congr 1; exact h.1 1
        · rfl
      · show (0 : T (.bool w n)) + 0 + toBool (x 2).1 = _
        rw [add_zero, zero_add]
    refine ⟨(x 0).1 + (x 0).2, (x' 0).1 + (x' 0).2, (x 2).1, (x' 2).1, hx.1.sum 0, hx.2.1.sum 0,
      ho, hold hx.1, hold hx.2.1, ?_⟩
    have h := hx.2.2
    fin_cases σ
    · rfl
    · show ((0 : T (.bool w n)), toBool (x 1).2) = (0, toBool (x' 1).2)
      have : x 1 = x' 1 := h
      rw [this]
    · show (toBool (x 2).1, (0 : T (.bool w n))) = (toBool (x' 2).1, 0)
      have : x 2 = x' 2 := h
      rw [this]

theorem toBool_add (p q : T (.arith w n)) : badd (toBool p) (toBool q) = toBool (p + q) := rfl

theorem a2b_none_sim (hw : w ≤ 128) {c c' : T (.arith w n)} {x x' : Shares (T (.arith w n))}
    (hx : Alike σ c c' x x') :
    ∃ m m', a2b none x = .ok m ∧ a2b none x' = .ok m' ∧
      M.Sim σ (Alike σ (toBool c) (toBool c')) m m' := by
  refine ⟨_, _, rfl, rfl, ?_⟩
  refine .bind (a2bOperands_sim hx) ?_
  rintro o o' ⟨p, p', q, q', rfl, rfl, h1, h2⟩
  have := ppaFull_sim hw h1 h2
  rwa [toBool_add, toBool_add] at this

theorem a2b_some_sim {k : ℕ} (h0 : 0 < k) (hk : k ≤ 63) (hkw : k ≤ w)
    {c c' : T (.arith w n)} {x x' : Shares (T (.arith w n))} (hx : Alike σ c c' x x') :
    ∃ m m', a2b (some k) x = .ok m ∧ a2b (some k) x' = .ok m' ∧
      M.Sim σ (Alike σ (toBool (alift (lowBits k) c)) (toBool (alift (lowBits k) c'))) m m' := by
  have hcl : ¬ Nat.clog 2 w < Nat.clog 2 k := not_lt.2 (Nat.clog_mono_right 2 hkw)
  have hk64 : k ≤ 64 := by omega
  by_cases hlt : k < w
  · have e : ksPlan w (some k)
        = .ok (Nat.clog 2 k, some ((BitVec.ofNat 64 ((1 <<< k) - 1)).signExtend w)) := by
      simp [ksPlan, h0.ne', hcl, hlt, hk64]
    refine ⟨_, _, by unfold a2b; rw [e], by unfold a2b; rw [e], ?_⟩
    refine .bind (a2bOperands_sim hx) ?_
    rintro o o' ⟨p, p', q, q', rfl, rfl, h1, h2⟩
    refine (ksRun_sim _ h1 h2).mono fun z z' hz => ?_
    have ev : ∀ p q : T (.arith w n), blift2
        (ksOut (Nat.clog 2 k, some ((BitVec.ofNat 64 ((1 <<< k) - 1)).signExtend w)))
        (toBool p) (toBool q) = toBool (alift (lowBits k) (p + q)) := by
      intro p q; funext i; exact XBits.ext (ksOut_some hk _ _)
    rwa [ev, ev] at hz
  · have hkw' : k = w := by omega
    subst hkw'
    have e : ksPlan k (some k) = .ok (Nat.clog 2 k, none) := by simp [ksPlan, h0.ne']
    refine ⟨_, _, by unfold a2b; rw [e], by unfold a2b; rw [e], ?_⟩
    refine .bind (a2bOperands_sim hx) ?_
    rintro o o' ⟨p, p', q, q', rfl, rfl, h1, h2⟩
    have := ppaFull_sim (by omega) h1 h2
    refine this.mono fun z z' hz => ?_
    have ev : ∀ p : T (.arith k n), toBool (alift (lowBits k) p) = toBool p := by
      intro p; funext i; exact XBits.ext (by simp [alift, lowBits, toBool])
    rw [ev, ev]
    exact hz

theorem castBool_and_one (a : T (.bool w n)) :
    castBool (blift (· &&& 1) a) = blift (fun v => BitVec.ofBool (v.getLsbD 0)) a := by
  funext i
  refine XBits.ext ?_
  show (if (a i).bits &&& 1#w = 0 then 0#1 else 1#1) = BitVec.ofBool ((a i).bits.getLsbD 0)
  have hbit : ∀ v : BitVec w, (v &&& 1#w = 0) ↔ v.getLsbD 0 = false := by
    intro v
    constructor
    · intro h
      have := congrArg (·.getLsbD 0) h
      simp only [BitVec.getLsbD_and, BitVec.getLsbD_one] at this
      rcases Nat.eq_zero_or_pos w with rfl | hw
      · exact BitVec.getLsbD_of_ge _ _ (by omega)
      · simpa [hw] using this
    · intro h
      apply BitVec.eq_of_getLsbD_eq
      intro j hj
      rw [BitVec.getLsbD_and, BitVec.getLsbD_one]
      by_cases h0 : j = 0
      · subst h0; simp [h]
      · simp [h0]
  by_cases h : (a i).bits.getLsbD 0 = false
  · rw [if_pos ((hbit _).2 h), h]; rfl
  · rw [if_neg (fun h' => h ((hbit _).1 h'))]
    have : (a i).bits.getLsbD 0 = true := by simpa using h
    rw [this]; rfl

theorem ofBool_getLsbD_xor (k : ℕ) (a b : BitVec w) :
    BitVec.ofBool ((a ^^^ b).getLsbD k) = BitVec.ofBool (a.getLsbD k) ^^^ BitVec.ofBool (b.getLsbD k) := by
  rw [BitVec.getLsbD_xor]
  cases a.getLsbD k <;> cases b.getLsbD k <;> rfl

theorem andConst_eq (k : BitVec w) (x : Shares (T (.bool w n))) :
    andConst k x = x.map (blift (· &&& k)) := rfl

theorem Shares.map_map {A B C : Type} (f : A → B) (g : B → C) (x : Shares A) :
    (x.map f).map g = x.map fun a => g (f a) := rfl

/-- Bit `i` of every element. -/
def bitOf (i : ℕ) (x : Fin n → BitVec w) : T (.bool 1 n) :=
  fun l => ⟨BitVec.ofBool ((x l).getLsbD i)⟩

theorem bitExtractB_alike {i : ℕ} (hi : i < w) {c c' : T (.bool w n)}
    {x x' : Shares (T (.bool w n))} (h : Alike σ c c' x x') :
    Alike σ (bitOf i (toArith c)) (bitOf i (toArith c')) (bitExtractB i x) (bitExtractB i x') := by
  have e : ∀ x : Shares (T (.bool w n)), bitExtractB i x
      = x.map (blift fun v => BitVec.ofBool (v.getLsbD i)) := by
    intro x
    unfold bitExtractB
    rw [andConst_eq, Shares.map_map]
    simp only [castBool_and_one]
    unfold bsar
    rw [Shares.map_map]
    have : ∀ a : T (.bool w n), blift (fun v => BitVec.ofBool (v.getLsbD 0))
        (blift (fun x => x.sshiftRight i) a) = blift (fun v => BitVec.ofBool (v.getLsbD i)) a := by
      intro a; funext l
      refine XBits.ext ?_
      show BitVec.ofBool (((a l).bits.sshiftRight i).getLsbD 0) = BitVec.ofBool ((a l).bits.getLsbD i)
      rw [BitVec.getLsbD_sshiftRight]
      have : ¬ w ≤ 0 := by omega
      simp [hi, this]
    simp only [this]
  rw [e, e]
  exact h.blift fun a b => ofBool_getLsbD_xor i a b

/-- Every component is a tensor of words `0` and `1`. -/
def OneBit (x : Shares (T (.bool w n))) : Prop :=
  ∀ i, blift (· &&& 1) (x i).1 = (x i).1 ∧ blift (· &&& 1) (x i).2 = (x i).2

theorem OneBit.castBool {x : Shares (T (.bool w n))} (h : OneBit x) :
    x.map castBool = x.map (blift fun v => BitVec.ofBool (v.getLsbD 0)) := by
  funext i
  have e1 := (castBool_and_one (x i).1).symm
  have e2 := (castBool_and_one (x i).2).symm
  rw [(h i).1] at e1
  rw [(h i).2] at e2
  exact Prod.ext e1.symm e2.symm

theorem oneBit_andConst (x : Shares (T (.bool w n))) : OneBit (andConst 1 x) := by
  have : ∀ a : T (.bool w n), blift (· &&& 1) (blift (· &&& 1) a) = blift (· &&& 1) a := by
    intro a; funext l; refine XBits.ext ?_
    show (a l).bits &&& 1 &&& 1 = (a l).bits &&& 1
    rw [BitVec.and_assoc, BitVec.and_self]
  exact fun i => ⟨this _, this _⟩

theorem oneBit_setWidth {x : Shares (T (.bool w n))} (h : OneBit x) (hw : 0 < w) :
    OneBit (x.map (blift (·.setWidth v))) := by
  have key : ∀ a : T (.bool w n), blift (· &&& 1) a = a →
      blift (· &&& 1) (blift (·.setWidth v) a) = blift (·.setWidth v) a := by
    intro a ha; funext l; refine XBits.ext ?_
    have hl : (a l).bits &&& 1 = (a l).bits := congrArg (fun t => (t l).bits) ha
    show (a l).bits.setWidth v &&& 1#v = (a l).bits.setWidth v
    apply BitVec.eq_of_getLsbD_eq
    intro j hj
    rw [← hl]
    simp only [BitVec.getLsbD_and, BitVec.getLsbD_setWidth, BitVec.getLsbD_one]
    show _ = (_ && (_ && (1#w).getLsbD j))
    rw [BitVec.getLsbD_one]
    have e : (1 : BitVec w).getLsbD j = (1#w).getLsbD j := rfl
    rw [e, BitVec.getLsbD_one]
    by_cases h0 : j = 0
    · subst h0; simp [hw, hj]
    · simp [h0]
  exact fun i => ⟨key _ (h i).1, key _ (h i).2⟩

theorem oneBit_bxor2 {x y : Shares (T (.bool w n))} (hx : OneBit x) (hy : OneBit y) :
    OneBit (bxor2 x y) := by
  have key : ∀ a b : T (.bool w n), blift (· &&& 1) a = a → blift (· &&& 1) b = b →
      blift (· &&& 1) (a + b) = a + b := by
    intro a b ha hb
    have : blift (· &&& 1) (a + b) = blift (· &&& 1) a + blift (· &&& 1) b := by
      funext l; exact XBits.ext (and_xor_left _ _ _)
    rw [this, ha, hb]
  exact fun i => ⟨key _ _ (hx i).1 (hy i).1, key _ _ (hx i).2 (hy i).2⟩

theorem carry_oneBit (pos : ℕ) (x y : Shares (T (.bool w n))) :
    M.All OneBit (carry pos x y) := by
  unfold carry
  refine M.all_bind.2 ?_
  refine RandM.All.trivial (fun _ => ?_) _
  refine M.all_bind.2 ?_
  exact RandM.All.trivial (fun _ => oneBit_andConst _) _

theorem bitExtract_sim {i : ℕ} (hi : 0 < i) (hw : 2 ^ Nat.clog 2 i ≤ w) (hiw : i < w)
    {c c' : T (.arith w n)} {x x' : Shares (T (.arith w n))} (hx : Alike σ c c' x x') :
    ∃ m m', bitExtract i x = .ok m ∧ bitExtract i x' = .ok m' ∧
      M.Sim σ (Alike σ (bitOf i c) (bitOf i c')) m m' := by
  obtain ⟨i, rfl⟩ := Nat.exists_eq_succ_of_ne_zero hi.ne'
  refine ⟨_, _, rfl, rfl, ?_⟩
  refine .bind (a2bOperands_sim hx) ?_
  rintro o o' ⟨p, p', q, q', rfl, rfl, h1, h2⟩
  refine .bind ((carry_sim i h1 h2).and_all (carry_oneBit i _ _) (carry_oneBit i _ _)) ?_
  rintro C C' ⟨hC, b, b'⟩
  refine .pure ?_
  have hP := (((h1.bxor2 h2).bsar (i + 1)).andConst 1).setWidth (facBits 1)
  have B : ∀ y : Shares (T (.bool w n)),
      OneBit ((andConst 1 y).map (blift (·.setWidth (facBits 1)))) :=
    fun y => oneBit_setWidth (oneBit_andConst y) (by omega)
  rw [(oneBit_bxor2 b (B _)).castBool, (oneBit_bxor2 b' (B _)).castBool]
  have hz := (hC.bxor2 hP).blift
    (g := fun v => BitVec.ofBool (v.getLsbD 0)) (ofBool_getLsbD_xor 0)
  have ev : ∀ p q : T (.arith w n), blift (fun v => BitVec.ofBool (v.getLsbD 0))
      (blift2 (· ^^^ ·) (blift2 (carryV i) (toBool p) (toBool q))
        (blift (·.setWidth (facBits 1)) (blift (· &&& 1) (blift (·.sshiftRight (i + 1))
          (blift2 (· ^^^ ·) (toBool p) (toBool q)))))) = bitOf (i + 1) (p + q) := by
    intro p q; funext l; refine XBits.ext ?_
    show BitVec.ofBool ((carryV i (p l) (q l) ^^^
      ((((p l ^^^ q l).sshiftRight (i + 1)) &&& 1#w).setWidth (facBits 1))).getLsbD 0)
        = BitVec.ofBool ((p l + q l).getLsbD (i + 1))
    rw [carryV_eq hw]
    congr 1
    have h8 : facBits 1 = 8 := rfl
    have w0 : ¬ w ≤ 0 := by omega
    have w0' : 0 < w := by omega
    rw [BitVec.getLsbD_add hiw]
    simp only [BitVec.getLsbD_xor, BitVec.getLsbD_setWidth, BitVec.getLsbD_and,
      BitVec.getLsbD_sshiftRight, BitVec.getLsbD_one, h8, BitVec.getLsbD_ofBool]
    simp only [w0, w0', hiw, decide_true, decide_false, Bool.not_false, Nat.add_zero, if_true,
      Bool.true_and, Bool.and_true, Nat.zero_lt_succ]
    simp [Bool.xor_comm, Bool.xor_left_comm]
  rwa [ev, ev] at hz

/-- Sign bit of every element. -/
def signOf (x : Fin n → BitVec w) : T (.bool 1 n) := fun l => ⟨BitVec.ofBool (x l).msb⟩

theorem signOf_eq (x : Fin n → BitVec w) : signOf x = bitOf (w - 1) x := by
  funext l; refine XBits.ext ?_
  show BitVec.ofBool (x l).msb = BitVec.ofBool ((x l).getLsbD (w - 1))
  rw [BitVec.msb_eq_getLsbD_last]

/-- The sign-bit circuit, for word sizes that are powers of two (8, 16, 32, 64, 128). -/
theorem msb_sim {e : ℕ} (he : 0 < e) {c c' : T (.arith (2 ^ e) n)}
    {x x' : Shares (T (.arith (2 ^ e) n))} (hx : Alike σ c c' x x') :
    M.Sim σ (Alike σ (signOf c) (signOf c')) (msb x) (msb x') := by
  obtain ⟨e, rfl⟩ := Nat.exists_eq_succ_of_ne_zero he.ne'
  have h2 : 2 ≤ 2 ^ (e + 1) := by
    calc 2 = 2 ^ 1 := rfl
      _ ≤ 2 ^ (e + 1) := Nat.pow_le_pow_right (by omega) (by omega)
  have hcl : Nat.clog 2 (2 ^ (e + 1) - 1) ≤ e + 1 :=
    (Nat.clog_mono_right 2 (Nat.sub_le _ _)).trans (Nat.clog_pow 2 _ (by norm_num)).le
  obtain ⟨m, m', e1, e2, hs⟩ := bitExtract_sim (i := 2 ^ (e + 1) - 1) (by omega)
    (Nat.pow_le_pow_right (by omega) hcl) (by omega) hx
  rw [signOf_eq, signOf_eq]
  have key : ∀ W (y : Shares (T (.arith W n))), 2 ≤ W → bitExtract (W - 1) y = .ok (msb y) := by
    intro W y hW
    obtain ⟨k, rfl⟩ := Nat.exists_eq_add_of_le' hW
    exact msb_eq y
  rw [key _ _ h2] at e1 e2
  cases e1; cases e2
  exact hs

end Verif.Aby3
