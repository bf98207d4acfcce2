import Verif.Aby3.Trunc
import Verif.Aby3.B2a
import Verif.Core.Arith
import Verif.Bits.Int

/-!
# Truncation: what is computed and what is seen
-/

namespace Verif.Aby3

open Verif

variable {σ : Fin 3} {w n : ℕ}

/-! ## secureq8 -/

/-- What the secureq8 truncation computes from a value and the mask `r`. -/
def q8 (a : ℕ) (x r : BitVec w) : BitVec w := q8y0 a (x + r) (q8s a r) (q8m r)

theorem q8_split (a : ℕ) (c s m s0 m0 : BitVec w) :
    q8y0 a c s0 m0 + q8y1 a c (s - s0) (m - m0) = q8y0 a c s m := by
  unfold q8y0 q8y1 q8where
  split <;> ring

theorem Holds.of3 {s : Srt} {v a b c : T s} (h : a + b + c = v) :
    Holds v ![(a, b), (b, c), (c, a)] :=
  ⟨fun i => by fin_cases i <;> rfl, h⟩

/-- The coupling: `δ` shifts `r`, `δ0` shifts `r0`; the others follow. -/
theorem truncQ8_sim (a : ℕ) {c c' : T (.arith w n)} {x x' : Shares (T (.arith w n))}
    (hx : Alike σ c c' x x') :
    M.Sim σ (fun o o' => ∃ r r' : T (.arith w n),
        Alike σ (fun i => q8 a (c i) (r i)) (fun i => q8 a (c' i) (r' i)) o o')
      (truncQ8 a x) (truncQ8 a x') := by
  have hσ := hx.2.2
  have e01 : (x 0).1 + (x 0).2 + (x 1).2 = c := by
    have := hx.1.sum 0
    rw [show (x 1).2 = (x 2).1 from hx.1.1 1]; exact this
  have e01' : (x' 0).1 + (x' 0).2 + (x' 1).2 = c' := by
    have := hx.2.1.sum 0
    rw [show (x' 1).2 = (x' 2).1 from hx.2.1.1 1]; exact this
  have copen : ∀ {c u v r r0 : T (.arith w n)}, u + v = c → u + r0 + (v + (r - r0)) = c + r := by
    rintro _ u v r r0 rfl; abel
  have hold : ∀ {c u v r r0 s0 m0 y0 y2 : T (.arith w n)}, u + v = c →
      Holds (fun i => q8 a (c i) (r i))
        ![(y0, alift3 (q8y0 a) (u + r0 + (v + (r - r0))) s0 m0 - y0 +
            (alift3 (q8y1 a) (u + r0 + (v + (r - r0))) (alift (q8s a) r - s0)
              (alift q8m r - m0) - y2)),
          (alift3 (q8y0 a) (u + r0 + (v + (r - r0))) s0 m0 - y0 +
            (alift3 (q8y1 a) (u + r0 + (v + (r - r0))) (alift (q8s a) r - s0)
              (alift q8m r - m0) - y2), y2), (y2, y0)] := by
    intro c u v r r0 s0 m0 y0 y2 h
    rw [copen h]
    apply Holds.of3
    have : alift3 (q8y0 a) (c + r) s0 m0 +
        alift3 (q8y1 a) (c + r) (alift (q8s a) r - s0) (alift q8m r - m0)
        = fun i => q8 a (c i) (r i) := by
      funext i; exact q8_split a _ _ _ _ _
    rw [← this]; abel
  unfold truncQ8
  obtain rfl | rfl | rfl := fin3_all σ
  · have hx0 : x 0 = x' 0 := hσ
    refine .draw_same fun r0 => .draw_shift (c - c') fun r r' hr => .draw_same fun s0 =>
      .draw_same fun m0 => .draw_same fun y0 => .draw_shift
      (alift3 (q8y1 a) (c + r) (alift (q8s a) r' - s0) (alift q8m r' - m0)
        - alift3 (q8y1 a) (c + r) (alift (q8s a) r - s0) (alift q8m r - m0)) fun y2 y2' hy2 => ?_
    have hc : c + r = c' + r' := by rw [hr]; abel
    have ht : alift3 (q8y1 a) (c' + r') (alift (q8s a) r' - s0) (alift q8m r' - m0) - y2'
        = alift3 (q8y1 a) (c + r) (alift (q8s a) r - s0) (alift q8m r - m0) - y2 := by
      rw [← hc, hy2]; abel
    iterate 6 refine .tell_skip (by decide) ?_
    iterate 4 refine .tell_same ?_
    iterate 4 refine .tell_skip (by decide) ?_
    refine .tell_bind ?_ (.tell_skip (by decide) (.tell_bind ?_ (.tell_skip (by decide)
      (.pure ⟨r, r', hold e01, hold e01', ?_⟩))))
    · intro _
      have h1 : (x 0).1 + (x 0).2 + (x 1).2 + r = (x' 0).1 + (x' 0).2 + (x' 1).2 + r' := by
        rw [e01, e01', hc]
      rw [hx0, add_assoc, add_assoc _ _ r'] at h1
      rw [← add_sub_assoc, add_left_cancel h1, add_sub_assoc]
    · intro _
      rw [copen e01, copen e01', ht]
    · rw [copen e01, copen e01']
      show (y0, _) = (y0, _)
      rw [ht, hc]
  · have hx1 : x 1 = x' 1 := hσ
    refine .draw_shift (c - c') fun r0 r0' hr0 => .draw_shift (c - c') fun r r' hr =>
      .draw_shift (alift (q8s a) r' - alift (q8s a) r) fun s0 s0' hs0 =>
      .draw_shift (alift q8m r' - alift q8m r) fun m0 m0' hm0 =>
      .draw_shift (alift3 (q8y0 a) (c + r) s0' m0' - alift3 (q8y0 a) (c + r) s0 m0)
        fun y0 y0' hy0 => .draw_same fun y2 => ?_
    have hc : c + r = c' + r' := by rw [hr]; abel
    have hr1 : r - r0 = r' - r0' := by rw [hr, hr0]; abel
    have hs1 : alift (q8s a) r - s0 = alift (q8s a) r' - s0' := by rw [hs0]; abel
    have hm1 : alift q8m r - m0 = alift q8m r' - m0' := by rw [hm0]; abel
    have ht : alift3 (q8y0 a) (c' + r') s0' m0' - y0'
        = alift3 (q8y0 a) (c + r) s0 m0 - y0 := by
      rw [← hc, hy0]; abel
    iterate 10 refine .tell_skip (by decide) ?_
    refine .tell_same (.tell_bind (fun _ => hr1)
      (.tell_bind (fun _ => hs1) (.tell_bind (fun _ => hm1) (.tell_skip (by decide)
      (.tell_bind ?_ (.tell_skip (by decide) (.tell_bind ?_
      (.pure ⟨r, r', hold e01, hold e01', ?_⟩))))))))
    · intro _
      have h1 : (x 0).1 + (x 0).2 + (x 1).2 + r0 = (x' 0).1 + (x' 0).2 + (x' 1).2 + r0' := by
        rw [e01, e01', hr0]; abel
      rw [hx1, add_right_comm, add_right_comm _ (x' 1).2] at h1
      exact add_right_cancel h1
    · intro _
      rw [copen e01, copen e01', ht]
    · rw [copen e01, copen e01']
      show (_, y2) = (_, y2)
      rw [ht, hc, hs1, hm1]
  · refine .draw_same fun r0 => .draw_same fun r => .draw_same fun s0 => .draw_same fun m0 =>
      .draw_same fun y0 => .draw_same fun y2 => ?_
    iterate 6 refine .tell_same ?_
    iterate 12 refine .tell_skip (by decide) ?_
    exact .pure ⟨r, r, hold e01, hold e01', rfl⟩

/-! ### The value -/

theorem msbMask_bit (j : ℕ) (hj : j < w) : (msbMask w).getLsbD j = decide (j = w - 1) := by
  rw [msbMask, BitVec.getLsbD_twoPow]
  by_cases h : j = w - 1
  · simp [h]; omega
  · have h' : ¬ w - 1 = j := fun e => h e.symm
    simp [h, h']

theorem and_msbMask (r : BitVec w) : (r &&& msbMask w = 0) ↔ r.msb = false := by
  rw [BitVec.msb_eq_getLsbD_last]
  constructor
  · intro h
    rcases Nat.eq_zero_or_pos w with rfl | hw
    · exact BitVec.getLsbD_of_ge _ _ (by omega)
    · have := congrArg (·.getLsbD (w - 1)) h
      simp only [BitVec.getLsbD_and, msbMask_bit _ (show w - 1 < w by omega)] at this
      simpa using this
  · intro h
    apply BitVec.eq_of_getLsbD_eq
    intro j hj
    rw [BitVec.getLsbD_and, msbMask_bit j hj]
    by_cases h' : j = w - 1
    · rw [h', h]; simp
    · simp [h']

theorem modMask_bit (a j : ℕ) (hj : j < w) : (modMask w a).getLsbD j = decide (j < w - a - 1) := by
  rw [modMask, BitVec.getLsbD_ofNat, Nat.shiftLeft_eq, one_mul, Nat.testBit_two_pow_sub_one]
  simp [hj]

/-- The opened value without its top bit, shifted. -/
theorem q8c_eq {a : ℕ} (ha : a < w) (c : BitVec w) :
    q8c a c = BitVec.ofNat w (c.toNat % 2 ^ (w - 1) / 2 ^ a) := by
  apply BitVec.eq_of_getLsbD_eq
  intro j hj
  have hw : ¬ w ≤ j := by omega
  rw [q8c, BitVec.getLsbD_and, modMask_bit a j hj, BitVec.getLsbD_sshiftRight,
    BitVec.getLsbD_ofNat, Nat.testBit_div_two_pow, Nat.testBit_mod_two_pow]
  by_cases h : j < w - a - 1
  · have h1 : a + j < w := by omega
    have h2 : a + j < w - 1 := by omega
    simp only [hw, hj, h, h1, decide_true, decide_false, Bool.not_false, Bool.true_and,
      Bool.and_true, if_true]
    rw [Nat.add_comm j a, decide_eq_true h2, Bool.true_and]
    rfl
  · have h2 : ¬ j + a < w - 1 := by omega
    simp [h, h2]

theorem toNat_split (hw : 0 < w) (v : BitVec w) :
    v.toNat = v.toNat % 2 ^ (w - 1) + v.msb.toNat * 2 ^ (w - 1) := by
  have h1 := Nat.mod_add_div v.toNat (2 ^ (w - 1))
  have h2 : v.toNat / 2 ^ (w - 1) = v.msb.toNat := by
    rw [BitVec.msb_eq_getLsbD_last, BitVec.getLsbD, Nat.testBit_eq_decide_div_mod_eq]
    have hlt : v.toNat < 2 ^ (w - 1) * 2 := by
      rw [← pow_succ]; simpa [Nat.sub_add_cancel hw] using v.isLt
    have hd : v.toNat / 2 ^ (w - 1) < 2 := Nat.div_lt_of_lt_mul hlt
    generalize v.toNat / 2 ^ (w - 1) = q at hd
    have h01 : q = 0 ∨ q = 1 := by omega
    rcases h01 with rfl | rfl <;> rfl
  rw [h2, Nat.mul_comm] at h1
  exact h1.symm

theorem and_msbMask_toNat (hw : 0 < w) (r : BitVec w) :
    (r &&& msbMask w).toNat = r.msb.toNat * 2 ^ (w - 1) := by
  have := toNat_split hw (r &&& msbMask w)
  have hz : (r &&& msbMask w).toNat % 2 ^ (w - 1) = 0 := by
    apply Nat.eq_of_testBit_eq
    intro j
    rw [Nat.testBit_mod_two_pow]
    by_cases hj : j < w - 1
    · have : (r &&& msbMask w).toNat.testBit j = (r &&& msbMask w).getLsbD j := rfl
      rw [this, BitVec.getLsbD_and, msbMask_bit j (by omega)]
      have : ¬ j = w - 1 := by omega
      simp [this]
    · simp [hj]
  have hmsb : (r &&& msbMask w).msb = r.msb := by
    rw [BitVec.msb_eq_getLsbD_last, BitVec.msb_eq_getLsbD_last, BitVec.getLsbD_and,
      msbMask_bit _ (by omega)]
    simp
  rw [hz, hmsb, Nat.zero_add] at this
  exact this

theorem q8s_eq {a : ℕ} (ha : a < w) (r : BitVec w) :
    q8s a r = BitVec.ofNat w (r.toNat % 2 ^ (w - 1) / 2 ^ a) := by
  have hw : 0 < w := by omega
  rw [q8s, Bits.shr_eq, Bits.shr_eq, and_msbMask_toNat hw, sub_eq_iff_eq_add, ← BitVec.ofNat_add]
  congr 1
  conv_lhs => rw [toNat_split hw r]
  have hp : 2 ^ (w - 1) = 2 ^ a * 2 ^ (w - 1 - a) := by rw [← pow_add]; congr 1; omega
  have h0 : 0 < 2 ^ a := by positivity
  rw [show r.msb.toNat * 2 ^ (w - 1) = 2 ^ a * (r.msb.toNat * 2 ^ (w - 1 - a)) by rw [hp]; ring,
    Nat.add_mul_div_left _ _ h0, Nat.mul_div_cancel_left _ h0]

theorem modPow_eq (a : ℕ) : modPow w a = BitVec.ofNat w (2 ^ (w - a - 1)) := by
  rw [modPow, modMask, Nat.shiftLeft_eq, one_mul]
  show BitVec.ofNat w (2 ^ (w - a - 1) - 1) + BitVec.ofNat w 1 = _
  rw [← BitVec.ofNat_add, Nat.sub_add_cancel Nat.one_le_two_pow]

theorem carry_key {K X R c' r' : ℕ} {hm cm : Bool} (hx : X < K) (hr : r' < K) (hc : c' < K)
    (sr : R = r' + hm.toNat * K) (sc : (X + R) % (2 * K) = c' + cm.toNat * K) :
    X + r' = c' + (xor cm hm).toNat * K := by
  have hR : R < 2 * K := by cases hm <;> simp at sr <;> omega
  rcases Nat.lt_or_ge (X + R) (2 * K) with h | h
  · rw [Nat.mod_eq_of_lt h] at sc
    cases hm <;> cases cm <;> simp at sr sc ⊢ <;> omega
  · rw [Nat.mod_eq_sub_mod h, Nat.mod_eq_of_lt (by omega)] at sc
    cases hm <;> cases cm <;> simp at sr sc ⊢ <;> omega

/-- The secureq8 truncation of a word with top bit zero is
`⌊(x + r')/2^a⌋ - ⌊r'/2^a⌋`, where `r'` is the mask without its top bit. -/
theorem q8_eq {a : ℕ} (ha : a < w) {x : BitVec w} (hx : x.msb = false) (r : BitVec w) :
    q8 a x r = BitVec.ofNat w ((x.toNat + r.toNat % 2 ^ (w - 1)) / 2 ^ a)
      - BitVec.ofNat w (r.toNat % 2 ^ (w - 1) / 2 ^ a) := by
  have hw : 0 < w := by omega
  have h0 : 0 < 2 ^ a := by positivity
  have hp : 2 ^ (w - 1) = 2 ^ a * 2 ^ (w - a - 1) := by rw [← pow_add]; congr 1; omega
  have hp2 : 2 ^ w = 2 * 2 ^ (w - 1) := by rw [← pow_succ']; congr 1; omega
  rw [q8, q8y0, q8c_eq ha, q8s_eq ha, modPow_eq]
  have sx := toNat_split hw x
  have sr := toNat_split hw r
  have sc := toNat_split hw (x + r)
  rw [hx] at sx
  have hadd : (x + r).toNat = (x.toNat + r.toNat) % 2 ^ w := BitVec.toNat_add x r
  have lx : x.toNat < 2 ^ (w - 1) := by
    have := Nat.mod_lt x.toNat (show 0 < 2 ^ (w - 1) by positivity)
    simp at sx; omega
  have lr := Nat.mod_lt r.toNat (show 0 < 2 ^ (w - 1) by positivity)
  have lc := Nat.mod_lt (x + r).toNat (show 0 < 2 ^ (w - 1) by positivity)
  set c' := (x + r).toNat % 2 ^ (w - 1)
  set r' := r.toNat % 2 ^ (w - 1)
  -- the carry out of the low part
  have key : x.toNat + r' = c' + (xor (x + r).msb r.msb).toNat * 2 ^ (w - 1) := by
    rw [hp2] at hadd
    exact carry_key lx lr lc sr (hadd.symm.trans sc)
  have hdiv : (x.toNat + r') / 2 ^ a
      = c' / 2 ^ a + (xor (x + r).msb r.msb).toNat * 2 ^ (w - a - 1) := by
    rw [key, hp, show (xor (x + r).msb r.msb).toNat * (2 ^ a * 2 ^ (w - a - 1))
      = 2 ^ a * ((xor (x + r).msb r.msb).toNat * 2 ^ (w - a - 1)) by ring,
      Nat.add_mul_div_left _ _ h0]
  have hb : q8where (x + r) (1 - q8m r) (q8m r)
      = BitVec.ofNat w (xor (x + r).msb r.msb).toNat := by
    unfold q8where q8m
    simp only [and_msbMask]
    cases r.msb <;> cases (x + r).msb <;> simp
  rw [hdiv, hb, BitVec.ofNat_add, BitVec.ofNat_mul]
  ring

theorem q8_floor {a : ℕ} (ha : a < w) {x : BitVec w} (hx : x.msb = false) (r : BitVec w) :
    ∃ e : ℤ, (e = 0 ∨ e = 1) ∧ q8 a x r = BitVec.ofInt w (x.toInt / 2 ^ a + e) := by
  rw [q8_eq ha hx]
  have hxi : x.toInt = x.toNat := BitVec.toInt_eq_toNat_of_msb hx
  obtain ⟨e, he, h⟩ := floor_sub_floor ((x.toNat : ℤ) + (r.toNat % 2 ^ (w - 1) : ℕ))
    ((r.toNat % 2 ^ (w - 1) : ℕ) : ℤ) (2 ^ a) (by positivity)
  refine ⟨e, he, ?_⟩
  rw [add_sub_cancel_right] at h
  rw [hxi, ← h, Bits.ofInt_sub, ← Bits.ofInt_natCast, ← Bits.ofInt_natCast]
  push_cast
  rfl

/-! ## The default method -/

/-- What the heuristic truncation computes. -/
def heur (a : ℕ) (x r : BitVec w) : BitVec w :=
  q8 a (x + BitVec.ofInt w (2 ^ (w - 2))) r - BitVec.ofInt w (2 ^ (w - 2 - a))

theorem heur_floor {a : ℕ} (ha : a + 2 ≤ w) {x : BitVec w} (h0 : -2 ^ (w - 2) ≤ x.toInt)
    (h1 : x.toInt < 2 ^ (w - 2)) (r : BitVec w) :
    ∃ e : ℤ, (e = 0 ∨ e = 1) ∧ heur a x r = BitVec.ofInt w (x.toInt / 2 ^ a + e) := by
  have hp : (2 : ℤ) ^ (w - 1) = 2 * 2 ^ (w - 2) := by rw [← pow_succ']; congr 1; omega
  have hpos : (0 : ℤ) < 2 ^ (w - 2) := by positivity
  have hw : 0 < w := by omega
  have hl : (BitVec.ofInt w (2 ^ (w - 2))).toInt = 2 ^ (w - 2) :=
    Bits.toInt_ofInt hw (by omega) (by omega)
  have hs : (x + BitVec.ofInt w (2 ^ (w - 2))).toInt = x.toInt + 2 ^ (w - 2) := by
    rw [Bits.toInt_add_of hw] <;> rw [hl] <;> omega
  have hm : (x + BitVec.ofInt w (2 ^ (w - 2))).msb = false := by
    have := BitVec.msb_eq_toInt (x := x + BitVec.ofInt w (2 ^ (w - 2)))
    rw [this, hs]; simp; omega
  obtain ⟨e, he, h⟩ := q8_floor (a := a) (by omega) hm r
  refine ⟨e, he, ?_⟩
  have hpa : (2 : ℤ) ^ (w - 2) = 2 ^ a * 2 ^ (w - 2 - a) := by rw [← pow_add]; congr 1; omega
  rw [heur, h, ← Bits.ofInt_sub, hs, hpa, Int.add_mul_ediv_left _ _ (by positivity)]
  congr 1; ring

theorem heurRun_sim (a : ℕ) (L D : BitVec w) {c c' : T (.arith w n)}
    {x x' : Shares (T (.arith w n))} (hx : Alike σ c c' x x') :
    M.Sim σ (fun o o' => ∃ r r' : T (.arith w n),
        Alike σ (fun i => q8 a (c i + L) (r i) - D) (fun i => q8 a (c' i + L) (r' i) - D) o o')
      (heurRun L D a x) (heurRun L D a x') := by
  unfold heurRun
  have hL : IsPub (s := .arith w n) (fun _ => L) fun _ _ => L := fun _ => rfl
  have hD : IsPub (s := .arith w n) (fun _ => D) fun _ _ => D := fun _ => rfl
  refine .bind (truncQ8_sim a (hx.addPub hL hL)) ?_
  rintro o o' ⟨r, r', h⟩
  exact .pure ⟨r, r', h.subPub hD hD⟩

theorem heurPlan_ok {scale a : ℕ} (ha : scale + a + 2 ≤ w) :
    heurPlan w scale a = .ok (BitVec.ofInt w (2 ^ (w - 2)), BitVec.ofInt w (2 ^ (w - 2 - a))) := by
  have e1 : BitVec.ofNat w ((1 <<< (w - 2 - scale)) * 2 ^ scale) = BitVec.ofInt w (2 ^ (w - 2)) := by
    rw [Nat.shiftLeft_eq, one_mul, ← pow_add, ← Bits.ofInt_natCast,
      show w - 2 - scale + scale = w - 2 by omega]; push_cast; rfl
  have e2 : BitVec.ofNat w ((1 <<< (w - 2 - (scale + a))) * 2 ^ scale)
      = BitVec.ofInt w (2 ^ (w - 2 - a)) := by
    rw [Nat.shiftLeft_eq, one_mul, ← pow_add, ← Bits.ofInt_natCast,
      show w - 2 - (scale + a) + scale = w - 2 - a by omega]; push_cast; rfl
  rw [heurPlan, if_pos ha, e1, e2]

theorem truncHeuristic_sim {scale a : ℕ} (ha : scale + a + 2 ≤ w) {c c' : T (.arith w n)}
    {x x' : Shares (T (.arith w n))} (hx : Alike σ c c' x x') :
    ∃ m m', truncHeuristic scale a x = .ok m ∧ truncHeuristic scale a x' = .ok m' ∧
      M.Sim σ (fun o o' => ∃ r r' : T (.arith w n),
        Alike σ (fun i => heur a (c i) (r i)) (fun i => heur a (c' i) (r' i)) o o') m m' := by
  refine ⟨_, _, by rw [truncHeuristic, heurPlan_ok ha], by rw [truncHeuristic, heurPlan_ok ha], ?_⟩
  exact heurRun_sim a _ _ hx

/-! ## Local truncation -/

/-- What local truncation computes from the value and server 0's first component. -/
def pairTrunc (a : ℕ) (x r : BitVec w) : BitVec w := r.sshiftRight a + (x - r).sshiftRight a

theorem truncLocal_sim (a : ℕ) {c c' : T (.arith w n)} {x x' : Shares (T (.arith w n))}
    (hx : Alike σ c c' x x') :
    M.Sim σ (Alike σ (fun i => pairTrunc a (c i) ((x 0).1 i))
      (fun i => pairTrunc a (c' i) ((x' 0).1 i))) (truncLocal a x) (truncLocal a x') := by
  have hσ := hx.2.2
  have hold : ∀ {c r : T (.arith w n)} {x : Shares (T (.arith w n))}, Holds c x →
      Holds (fun i => pairTrunc a (c i) ((x 0).1 i))
        ![(alift (·.sshiftRight a) (x 0).1, alift (·.sshiftRight a) ((x 1).1 + (x 1).2) - r),
          (alift (·.sshiftRight a) ((x 1).1 + (x 1).2) - r, r),
          (r, alift (·.sshiftRight a) (x 0).1)] := by
    intro c r x h
    apply Holds.of3
    have : (x 1).1 + (x 1).2 = c - (x 0).1 := by
      have := h.sum 1
      rw [← this, show (1 + 2 : Fin 3) = 0 from rfl]; abel
    rw [this]
    funext i
    show (x 0).1 i |>.sshiftRight a |> fun z => z + (((c i - (x 0).1 i).sshiftRight a) - r i) + r i = _
    rw [pairTrunc]; ring
  unfold truncLocal
  obtain rfl | rfl | rfl := fin3_all σ
  · have hx0 : x 0 = x' 0 := hσ
    refine .draw_shift (alift (·.sshiftRight a) ((x' 1).1 + (x' 1).2)
      - alift (·.sshiftRight a) ((x 1).1 + (x 1).2)) fun r r' hr => ?_
    have hy : alift (·.sshiftRight a) ((x 1).1 + (x 1).2) - r
        = alift (·.sshiftRight a) ((x' 1).1 + (x' 1).2) - r' := by rw [hr]; abel
    refine .tell_skip (by decide) (.tell_skip (by decide) (.tell_bind (fun _ => hy)
      (.tell_skip (by decide) (.pure ⟨hold hx.1, hold hx.2.1, ?_⟩))))
    show (_, _) = (_, _)
    rw [hx0, hy]
  · have hx1 : x 1 = x' 1 := hσ
    refine .draw_same fun r => ?_
    refine .tell_skip (by decide) (.tell_same (.tell_skip (by decide) (.tell_skip (by decide)
      (.pure ⟨hold hx.1, hold hx.2.1, ?_⟩))))
    show (_, _) = (_, _)
    rw [hx1]
  · have h0 : (x 0).1 = (x' 0).1 := by
      have e : (x 2).2 = (x 0).1 := hx.1.1 2
      have e' : (x' 2).2 = (x' 0).1 := hx.2.1.1 2
      rw [← e, ← e', hσ]
    refine .draw_same fun r => ?_
    refine .tell_same (.tell_skip (by decide) (.tell_skip (by decide) (.tell_bind (fun _ => ?_)
      (.pure ⟨hold hx.1, hold hx.2.1, ?_⟩))))
    · rw [h0]
    · show (_, _) = (_, _)
      rw [h0]

/-- No overflow: floor or one below. -/
theorem pairTrunc_floor (a : ℕ) {x r : BitVec w} (hw : 0 < w) (h : Bits.Fits w (x.toInt - r.toInt)) :
    ∃ e : ℤ, (e = -1 ∨ e = 0) ∧ pairTrunc a x r = BitVec.ofInt w (x.toInt / 2 ^ a + e) := by
  obtain ⟨e, he, h'⟩ := floor_add_floor r.toInt (x.toInt - r.toInt) (2 ^ a) (by positivity)
  rw [show r.toInt + (x.toInt - r.toInt) = x.toInt by ring] at h'
  refine ⟨e, he, ?_⟩
  rw [pairTrunc, Bits.sar_eq, Bits.sar_eq, Bits.toInt_sub_of hw h.1 h.2, ← Bits.ofInt_add, h']

/-- Overflow: the result is wrong by `2^(w-a)`. -/
theorem pairTrunc_overflow {a : ℕ} (ha : a ≤ w) {x r : BitVec w} (hw : 0 < w)
    (h : ¬ Bits.Fits w (x.toInt - r.toInt)) :
    ∃ e k : ℤ, (e = -1 ∨ e = 0) ∧ (k = -1 ∨ k = 1) ∧
      pairTrunc a x r = BitVec.ofInt w (x.toInt / 2 ^ a + e + k * 2 ^ (w - a)) := by
  obtain ⟨e, he, h'⟩ := floor_add_floor r.toInt (x.toInt - r.toInt) (2 ^ a) (by positivity)
  rw [show r.toInt + (x.toInt - r.toInt) = x.toInt by ring] at h'
  have hx := Bits.toInt_range x
  have hr := Bits.toInt_range r
  have hp := Bits.pow_split hw
  obtain ⟨k, hk, hd⟩ : ∃ k : ℤ, (k = -1 ∨ k = 1) ∧
      (x - r).toInt = x.toInt - r.toInt + k * 2 ^ w := by
    have e0 : ∀ k : ℤ, x - r = BitVec.ofInt w (x.toInt - r.toInt + k * 2 ^ w) := by
      intro k
      rw [← BitVec.ofInt_toInt (x := x), ← BitVec.ofInt_toInt (x := r), ← Bits.ofInt_sub,
        Bits.ofInt_eq_iff, BitVec.ofInt_toInt, BitVec.ofInt_toInt]
      exact ⟨-k, by ring⟩
    unfold Bits.Fits at h
    by_cases hlo : -2 ^ (w - 1) ≤ x.toInt - r.toInt
    · refine ⟨-1, Or.inl rfl, ?_⟩
      rw [e0 (-1), Bits.toInt_ofInt hw] <;> omega
    · refine ⟨1, Or.inr rfl, ?_⟩
      rw [e0 1, Bits.toInt_ofInt hw] <;> omega
  refine ⟨e, k, he, hk, ?_⟩
  have hpa : (2 : ℤ) ^ w = 2 ^ a * 2 ^ (w - a) := by rw [← pow_add]; congr 1; omega
  rw [pairTrunc, Bits.sar_eq, Bits.sar_eq, hd, ← Bits.ofInt_add,
    show k * 2 ^ w = 2 ^ a * (k * 2 ^ (w - a)) by rw [hpa]; ring,
    Int.add_mul_ediv_left _ _ (by positivity), ← add_assoc, h']

/-- Within one unit of the floor. -/
def Near (a : ℕ) (x y : BitVec w) : Prop :=
  ∃ e : ℤ, (e = -1 ∨ e = 0 ∨ e = 1) ∧ y = BitVec.ofInt w (x.toInt / 2 ^ a + e)

theorem pairTrunc_near_iff {a : ℕ} (ha : 1 ≤ a) (ha' : a + 2 ≤ w) (x r : BitVec w) :
    Near a x (pairTrunc a x r) ↔ Bits.Fits w (x.toInt - r.toInt) := by
  have hw : 0 < w := by omega
  constructor
  · rintro ⟨e', he', h'⟩
    by_contra h
    obtain ⟨e, k, he, hk, h2⟩ := pairTrunc_overflow (a := a) (by omega) hw h
    rw [h2, Bits.ofInt_eq_iff] at h'
    have hd : (2 : ℤ) ^ w ∣ k * 2 ^ (w - a) + (e - e') := by
      have : x.toInt / 2 ^ a + e + k * 2 ^ (w - a) - (x.toInt / 2 ^ a + e')
        = k * 2 ^ (w - a) + (e - e') := by ring
      rwa [this] at h'
    have h4 : (4 : ℤ) ≤ 2 ^ (w - a) := by
      calc (4 : ℤ) = 2 ^ 2 := by norm_num
        _ ≤ 2 ^ (w - a) := pow_le_pow_right₀ (by norm_num) (by omega)
    have h5 : (2 : ℤ) * 2 ^ (w - a) ≤ 2 ^ w := by
      rw [← pow_succ']; exact pow_le_pow_right₀ (by norm_num) (by omega)
    rcases hk with rfl | rfl
    · have hd' : (2 : ℤ) ^ w ∣ 2 ^ (w - a) - (e - e') := by
        have e0 : -(2 ^ (w - a) - (e - e')) = -1 * 2 ^ (w - a) + (e - e') := by ring
        rw [← dvd_neg, e0]; exact hd
      have := Int.le_of_dvd (by omega) hd'
      omega
    · have := Int.le_of_dvd (by omega) hd
      omega
  · intro h
    obtain ⟨e, he, h'⟩ := pairTrunc_floor a hw h
    exact ⟨e, by tauto, h'⟩

/-! ## Multiplication with the two-round truncation -/

theorem randomSharing_sim' {s : Srt} (e : T s ≃ T s) :
    M.Sim σ (fun x x' => ∃ v, Alike σ v (e v) x x') (randomSharing s) (randomSharing s) := by
  unfold randomSharing
  refine .bind (pairwise_sim fun a b =>
    ((Equiv.addLeft (a + b)).trans e).trans (Equiv.addLeft (a + b)).symm)
    fun f f' ⟨h1, h2, h3⟩ => .pure ?_
  refine ⟨f 0 + f 1 + f 2, ⟨fun i => rfl, rfl⟩, ⟨fun i => rfl, ?_⟩, ?_⟩
  · show f' 0 + f' 1 + f' 2 = _
    rw [fin3_sum f' σ, fin3_sum f σ, h1, h2, h3]
    simp only [Equiv.trans_apply, Equiv.coe_addLeft, Equiv.addLeft_symm]
    abel
  · exact Prod.ext h1.symm h2.symm

theorem mulTrunc2_sim (hw : w ≤ 128) {n₁ n₂ : ℕ}
    {f : T (.arith w n₁) → T (.arith w n₂) → T (.arith w n)}
    (hl : ∀ a b c, f (a + b) c = f a c + f b c) (hr : ∀ a b c, f c (a + b) = f c a + f c b)
    (a : ℕ) {c c' : T (.arith w n₁)} {d d' : T (.arith w n₂)} {x x' : Shares (T (.arith w n₁))}
    {y y' : Shares (T (.arith w n₂))} (hx : Alike σ c c' x x') (hy : Alike σ d d' y y') :
    M.Sim σ (fun o o' => ∃ r r' : T (.arith w n),
      Alike σ (fun i => pairTrunc a (f c d i) (r i)) (fun i => pairTrunc a (f c' d' i) (r' i)) o o')
      (mulTrunc2 f a x y) (mulTrunc2 f a x' y') := by
  unfold mulTrunc2 mulTrunc2With
  refine .bind (randomSharing_sim' (shiftBool (f c' d' - f c d))) ?_
  rintro R R' ⟨r, hR⟩
  refine .bind (b2a_sim hw hR) fun r₁ r₁' hr₁ => ?_
  refine .bind (b2a_sim hw (hR.bsar a)) fun t t' ht => ?_
  have ep : x σ = x' σ := hx.2.2
  have eq : y σ = y' σ := hy.2.2
  have er : r₁ σ = r₁' σ := hr₁.2.2
  set P : Shares (T (.arith w n₁)) → Shares (T (.arith w n₂)) → Fin 3 → T (.arith w n) :=
    fun x y i => f (x i).1 (y i).1 + f (x i).1 (y i).2 + f (x i).2 (y i).1 with hP
  refine .bind (zeroSharing_sim_sum (P x y (σ + 1) - (r₁ (σ + 1)).1 - (P x' y' (σ + 1) - (r₁' (σ + 1)).1))) ?_
  rintro z z' ⟨⟨z1, z2, z3⟩, s, s'⟩
  have open_ : ∀ {c : T (.arith w n₁)} {d : T (.arith w n₂)} {x y} {r : T (.arith w n)}
      {r₁ : Shares (T (.arith w n))} {z : Fin 3 → T (.arith w n)}, Holds c x → Holds d y →
      Holds r r₁ → z 0 + z 1 + z 2 = 0 →
      (P x y 0 + z 0 - (r₁ 0).1) + (P x y 1 + z 1 - (r₁ 1).1) + (P x y 2 + z 2 - (r₁ 2).1)
        = f c d - r := by
    intro c d x y r r₁ z h1 h2 h3 h4
    have e1 := bilin_parts hl hr h1 h2
    have e2 := h3.2
    have e3 : P x y 0 + P x y 1 + P x y 2 = f c d := e1
    rw [← e3, ← e2]
    have : P x y 0 + z 0 - (r₁ 0).1 + (P x y 1 + z 1 - (r₁ 1).1) + (P x y 2 + z 2 - (r₁ 2).1)
      = P x y 0 + P x y 1 + P x y 2 - ((r₁ 0).1 + (r₁ 1).1 + (r₁ 2).1) + (z 0 + z 1 + z 2) := by
      abel
    rw [this, h4, add_zero]
  have o1 := open_ hx.1 hy.1 hr₁.1 s
  have o2 := open_ hx.2.1 hy.2.1 hr₁.2.1 s'
  have hval : f c d - toArith r = f c' d' - toArith (shiftBool (f c' d' - f c d) r) := by
    show _ = f c' d' - (toArith r + (f c' d' - f c d)); abel
  -- each masked product is the same in both runs, as far as `σ` is concerned
  have q0 : P x y σ + z σ - (r₁ σ).1 = P x' y' σ + z' σ - (r₁' σ).1 := by
    rw [z1, er, hP]; simp only; rw [ep, eq]
  have q1 : P x y (σ + 1) + z (σ + 1) - (r₁ (σ + 1)).1
      = P x' y' (σ + 1) + z' (σ + 1) - (r₁' (σ + 1)).1 := by
    rw [z2]; abel
  have q2 : P x y (σ + 2) + z (σ + 2) - (r₁ (σ + 2)).1
      = P x' y' (σ + 2) + z' (σ + 2) - (r₁' (σ + 2)).1 := by
    have e1 := (fin3_sum (fun i => P x y i + z i - (r₁ i).1) σ).symm.trans o1
    have e2 := (fin3_sum (fun i => P x' y' i + z' i - (r₁' i).1) σ).symm.trans o2
    have e3 := e1.trans (hval.trans e2.symm)
    rw [q0, q1] at e3
    exact add_left_cancel e3
  have q : ∀ i, P x y i + z i - (r₁ i).1 = P x' y' i + z' i - (r₁' i).1 := by
    intro i
    rcases fin3_cases σ i with rfl | rfl | rfl
    · exact q0
    · exact q1
    · exact q2
  refine .tell_bind (fun _ => q 1) (.tell_bind (fun _ => q 2) (.tell_bind (fun _ => q 2)
    (.tell_bind (fun _ => q 0) (.tell_bind (fun _ => q 0) (.tell_bind (fun _ => q 1)
    (.pure ⟨toArith r, toArith (shiftBool (f c' d' - f c d) r), ?_⟩))))))
  have hp := ht.addPub (c := alift (·.sshiftRight a) (f c d - toArith r))
    (y := fun _ => alift (·.sshiftRight a) (P x y 0 + z 0 - (r₁ 0).1 + (P x y 1 + z 1 - (r₁ 1).1)
      + (P x y 2 + z 2 - (r₁ 2).1)))
    (y' := fun _ => alift (·.sshiftRight a) (P x' y' 0 + z' 0 - (r₁' 0).1
      + (P x' y' 1 + z' 1 - (r₁' 1).1) + (P x' y' 2 + z' 2 - (r₁' 2).1)))
    (fun _ => by rw [o1]) (fun _ => by rw [o2, hval])
  have e1 : (fun i => pairTrunc a (f c d i) (toArith r i))
      = toArith (blift (·.sshiftRight a) r) + alift (·.sshiftRight a) (f c d - toArith r) := rfl
  have e2 : (fun i => pairTrunc a (f c' d' i) (toArith (shiftBool (f c' d' - f c d) r) i))
      = toArith (blift (·.sshiftRight a) (shiftBool (f c' d' - f c d) r))
        + alift (·.sshiftRight a) (f c d - toArith r) := by rw [hval]; rfl
  rw [e1, e2]
  exact hp

end Verif.Aby3
