import Verif.Aby3.TruncLemmas

/-!
# The "cheetah" truncation: correct, but server 2 learns the value
-/

namespace Verif.Aby3

open Verif

variable {w n : ℕ}

/-- The wrap-around bit: one of the two summands has its top bit set. -/
def wrapBit (u v : T (.arith w n)) : T (.bool 1 n) := bor (msbBit u) (msbBit v)

/-- What it computes from server 0's sum `u` and the remaining share `v`. -/
def cheetahVal (a : ℕ) (u v : T (.arith w n)) : T (.arith w n) :=
  alift (· >>> a) u + alift (· >>> a) v
    - alift (· <<< (w - a)) (gate (wrapBit u v) fun _ => (1 : BitVec w))

theorem bwhere_bit (c m0 wa : T (.bool 1 n)) :
    wa + (bwhere c (wa + fun _ => ⟨1#1⟩) (wa + m0) : T (.bool 1 n)) = bor m0 c := by
  funext i
  refine XBits.ext ?_
  show (wa i).bits ^^^ (if (c i).bits = 1#1 then (⟨(wa i).bits ^^^ 1#1⟩ : XBits 1)
    else ⟨(wa i).bits ^^^ (m0 i).bits⟩).bits = (m0 i).bits ||| (c i).bits
  rcases bit_cases (c i) with h | h <;> rcases bit_cases (m0 i) with h' | h' <;>
    rcases bit_cases (wa i) with h'' | h'' <;> rw [h, h', h''] <;> rfl

attribute [local irreducible] M.All in
theorem truncCheetah_holds (a : ℕ) {c : T (.arith w n)} {x : Shares (T (.arith w n))}
    (hx : Holds c x) :
    M.All (Holds (cheetahVal a (c - (x 2).1) (x 2).1)) (truncCheetah a x) := by
  have h12 : (x 1).2 = (x 2).1 := hx.1 1
  have h01 : (x 0).1 + (x 0).2 = c - (x 2).1 := by
    have := hx.sum 0
    rw [show (0 + 2 : Fin 3) = 2 from rfl] at this
    rw [← this]; abel
  unfold truncCheetah
  dsimp only
  rw [h01, h12]
  apply M.All.draw_bind
  intro wa
  apply M.All.tell_bind
  have hot := ot_holds 0 1 2 (wa + msbBit (c - (x 2).1)) (wa + fun _ => ⟨1#1⟩) (msbBit (x 2).1)
  refine M.All.bind hot ?_
  intro wb hwb
  apply M.All.draw_bind
  intro q
  iterate 4 apply M.All.tell_bind
  have hW : Holds (wrapBit (c - (x 2).1) (x 2).1) ![(wa, q), (q, wb + q), (wb + q, wa)] := by
    apply Holds.of3
    rw [wrapBit, ← bwhere_bit _ _ wa, ← hwb]
    have : wa + q + (wb + q) = wa + wb + (q + q) := by abel
    rw [this, bool_add_self, add_zero]
  refine M.All.bind ((b2aSingle_sim (w := w) (σ := 0) (hW.alike 0)).left fun _ _ h => h.1) ?_
  intro e he
  apply M.All.tell_bind
  have he' := he.map (f := alift (· <<< (w - a))) (t := .arith w n) fun p q => by
    funext i
    show (p i + q i) <<< (w - a) = p i <<< (w - a) + q i <<< (w - a)
    rw [BitVec.shiftLeft_eq_mul_twoPow, BitVec.shiftLeft_eq_mul_twoPow,
      BitVec.shiftLeft_eq_mul_twoPow, add_mul]
  refine M.all_pure.2 ?_
  have h1 : alift (· <<< (w - a)) (e 0).2 = alift (· <<< (w - a)) (e 1).1 := by rw [he.1 0]; rfl
  have h2 : alift (· <<< (w - a)) (e 1).2 = alift (· <<< (w - a)) (e 2).1 := by rw [he.1 1]; rfl
  refine ⟨fun i => ?_, ?_⟩
  · fin_cases i
    · show -(alift (· <<< (w - a)) (e 0).2) = -(alift (· <<< (w - a)) (e 1).1); rw [h1]
    · show _ - alift (· <<< (w - a)) (e 1).2 = _ - alift (· <<< (w - a)) (e 2).1
      rw [h2]
    · rfl
  · show alift (· >>> a) (c - (x 2).1) - alift (· <<< (w - a)) (e 0).1
      + -(alift (· <<< (w - a)) (e 1).1)
      + (alift (· >>> a) (x 2).1 - alift (· <<< (w - a)) (e 2).1) = _
    have := he'.2
    simp only [Shares.map] at this
    rw [cheetahVal, ← this]; abel

/-- `cheetahVal` on one element: `x` is the shared value, `v` server 2's first component. -/
def cheetah (a : ℕ) (x v : BitVec w) : BitVec w :=
  (x - v) >>> a + v >>> a - (if (x - v).msb || v.msb then (1 : BitVec w) else 0) <<< (w - a)

theorem msbBit_bits (hw : 0 < w) (x : T (.arith w n)) (i : Fin n) :
    ((msbBit x i).bits = 1#1) ↔ (x i).msb = true := by
  show (if x i >>> (w - 1) = 0 then 0#1 else 1#1) = 1#1 ↔ _
  have hb := (x i).isLt
  have h2 : 2 ^ w = 2 * 2 ^ (w - 1) := by rw [← pow_succ']; congr 1; omega
  have hz : (x i >>> (w - 1) = 0) ↔ (x i).toNat < 2 ^ (w - 1) := by
    rw [← BitVec.toNat_inj, BitVec.toNat_ushiftRight, Nat.shiftRight_eq_div_pow]
    simp [Nat.div_eq_zero_iff]
  rw [BitVec.msb_eq_decide]
  by_cases h : (x i).toNat < 2 ^ (w - 1)
  · rw [if_pos (hz.2 h)]; simp [h]
  · rw [if_neg (mt hz.1 h)]; simp [not_lt.1 h]

theorem cheetahVal_apply (hw : 0 < w) (a : ℕ) (c v : T (.arith w n)) (i : Fin n) :
    cheetahVal a (c - v) v i = cheetah a (c i) (v i) := by
  have hor : ∀ p q : XBits 1, (p.bits ||| q.bits = 1#1) ↔ (p.bits = 1#1 ∨ q.bits = 1#1) := by
    intro p q
    rcases bit_cases p with h | h <;> rcases bit_cases q with h' | h' <;> rw [h, h'] <;> decide
  show (c i - v i) >>> a + v i >>> a - (if (msbBit (c - v) i).bits ||| (msbBit v i).bits = 1#1
    then (1 : BitVec w) else 0) <<< (w - a) = _
  have h1 := msbBit_bits hw (c - v) i
  have h2 := msbBit_bits hw v i
  rw [cheetah]
  congr 2
  rw [show ((if ((c i - v i).msb || (v i).msb) = true then (1 : BitVec w) else 0)) = if ((msbBit (c - v) i).bits ||| (msbBit v i).bits = 1#1) then 1 else 0 from if_congr (by rw [hor, h1, h2, Bool.or_eq_true]; rfl) rfl rfl]

theorem cheetah_floor {a : ℕ} (ha : a < w) {x : BitVec w} (hx : x.msb = false) (v : BitVec w) :
    ∃ e : ℤ, (e = -1 ∨ e = 0) ∧ cheetah a x v = BitVec.ofInt w (x.toInt / 2 ^ a + e) := by
  have hw : 0 < w := by omega
  have hxi : x.toInt = x.toNat := BitVec.toInt_eq_toNat_of_msb hx
  obtain ⟨u, hu⟩ : ∃ u, x - v = u := ⟨_, rfl⟩
  have hxu : x = u + v := by rw [← hu]; exact (sub_add_cancel x v).symm
  have hn : x.toNat = (u.toNat + v.toNat) % 2 ^ w := by rw [hxu, BitVec.toNat_add]
  have hub := u.isLt
  have hvb := v.isLt
  have h2 : 2 ^ w = 2 * 2 ^ (w - 1) := by rw [← pow_succ']; congr 1; omega
  have h3 : 2 ^ w = 2 ^ (w - a) * 2 ^ a := by rw [← pow_add]; congr 1; omega
  have hxl : x.toNat < 2 ^ (w - 1) := by
    by_contra h
    rw [BitVec.msb_eq_decide] at hx
    simp at hx; omega
  obtain ⟨d, hd, hs⟩ : ∃ d : ℕ, (d = 0 ∨ d = 1) ∧
      (u.toNat + v.toNat) / 2 ^ a = u.toNat / 2 ^ a + v.toNat / 2 ^ a + d := by
    rw [Nat.add_div (by positivity)]
    by_cases h : 2 ^ a ≤ u.toNat % 2 ^ a + v.toNat % 2 ^ a
    · exact ⟨1, .inr rfl, by rw [if_pos h]⟩
    · exact ⟨0, .inl rfl, by rw [if_neg h]⟩
  rw [cheetah, hu, Bits.shr_eq, Bits.shr_eq, hxi]
  have hone : ∀ b : Bool, (if b then (1 : BitVec w) else 0) <<< (w - a)
      = BitVec.ofInt w ((if b then 1 else 0) * 2 ^ (w - a)) := by
    intro b
    rw [BitVec.shiftLeft_eq_mul_twoPow, Bits.ofInt_mul]
    congr 1
    · cases b <;> simp [BitVec.ofInt_ofNat]
    · rw [← Nat.cast_two, ← Nat.cast_pow, Bits.ofInt_natCast, BitVec.twoPow_eq]
      apply BitVec.eq_of_toNat_eq; simp [Nat.shiftLeft_eq]
  refine ⟨-d, by rcases hd with rfl | rfl <;> simp, ?_⟩
  rw [hone, ← Bits.ofInt_natCast, ← Bits.ofInt_natCast, ← Bits.ofInt_add, ← Bits.ofInt_sub]
  congr 1
  rw [BitVec.msb_eq_decide, BitVec.msb_eq_decide]
  by_cases hc : u.toNat + v.toNat < 2 ^ w
  · rw [Nat.mod_eq_of_lt hc] at hn
    have hm : (decide (2 ^ (w - 1) ≤ u.toNat) || decide (2 ^ (w - 1) ≤ v.toNat)) = false := by
      simp; omega
    rw [hm, hn]
    have : (((u.toNat + v.toNat : ℕ) : ℤ)) / 2 ^ a
        = (u.toNat / 2 ^ a : ℕ) + (v.toNat / 2 ^ a : ℕ) + d := by exact_mod_cast hs
    rw [this]; simp
  · have hn' : x.toNat + 2 ^ w = u.toNat + v.toNat := by
      rw [hn, Nat.mod_eq_sub_mod (by omega), Nat.mod_eq_of_lt (by omega)]; omega
    have hm : (decide (2 ^ (w - 1) ≤ u.toNat) || decide (2 ^ (w - 1) ≤ v.toNat)) = true := by
      simp; omega
    rw [hm]
    rw [← hn', h3, Nat.add_mul_div_right _ _ (by positivity)] at hs
    have : (x.toNat : ℤ) / 2 ^ a + 2 ^ (w - a)
        = (u.toNat / 2 ^ a : ℕ) + (v.toNat / 2 ^ a : ℕ) + d := by exact_mod_cast hs
    simp only [if_true, one_mul]; linarith

/-- Read a message as an arithmetic tensor. -/
def Msg.arith (w n : ℕ) (m : Msg) : T (.arith w n) :=
  if h : m.sort = .arith w n then h ▸ m.val else 0

/-- How server 2 recovers the top bits of the sum of the other two shares from what it sees:
the last message plus the wrap-around mask it also holds. -/
def cheetahAttack (w n a : ℕ) (l : List Msg) : T (.arith w n) :=
  ((l[12]?).map (Msg.arith w n)).getD 0
    + alift (· <<< (w - a)) (((l[7]?).map (Msg.arith w n)).getD 0)

theorem ot_seen (m0 m1 : T (.bool w n)) (c c' : T (.bool 1 n)) (s r h : Fin 3) (hs : s ≠ 2)
    (hr : r ≠ 2) :
    M.AllT (fun _ l => h = 2 → ∃ w0 w1, seen 2 l = [⟨2, .bool w n, w0⟩, ⟨2, .bool w n, w1⟩])
      (ot s r h m0 m1 c c') := by
  simp only [ot, M.allT_bind, M.allT_tell, M.allT_pure]
  rintro w0 w1 rfl
  exact ⟨w0, w1, by simp [seen, hs, hr]⟩

theorem b2aSingle_seen (b : Shares (T (.bool 1 n))) :
    M.AllT (fun e l => (e 0).1 = (e 2).2 ∧ ∃ m0 m1 m2 m4 m5 m6 m7,
      seen 2 l = [m0, m1, m2, ⟨2, .arith w n, (e 2).2⟩, m4, m5, m6, m7]) (b2aSingle w b) := by
  simp only [b2aSingle, mulAbPub, mulAbRoutine, zeroSharing, pairwise, ot, M.allT_bind,
    M.allT_tell, M.allT_pure]
  intro f0 f1 f2 w0 w1 v0 v1
  exact ⟨rfl, _, _, _, _, _, _, _, by
    simp [seen]
    exact ⟨rfl, rfl, rfl, rfl, rfl, rfl, rfl⟩⟩

attribute [local irreducible] M.AllT in
theorem cheetahAttack_works (a : ℕ) (x : Shares (T (.arith w n))) :
    M.AllT (fun _ l => cheetahAttack w n a (seen 2 l)
      = alift (· >>> a) ((x 0).1 + (x 0).2)) (truncCheetah a x) := by
  unfold truncCheetah
  apply M.AllT.draw_bind
  intro wa
  apply M.AllT.tell_bind
  refine M.AllT.bind (ot_seen _ _ _ _ 0 1 2 (by decide) (by decide)) ?_
  rintro wb l hl
  obtain ⟨w0, w1, hl⟩ := hl rfl
  apply M.AllT.draw_bind
  intro q
  iterate 4 apply M.AllT.tell_bind
  refine M.AllT.bind (b2aSingle_seen _) ?_
  rintro e l' ⟨he, m1, m2, m3, m4, m5, m6, m7, hl'⟩
  apply M.AllT.tell_bind
  refine M.allT_pure.2 ?_
  simp only [seen] at hl hl'
  simp only [seen, List.filter_append, List.filter_cons, hl, hl']
  simp [cheetahAttack, Msg.arith, Shares.map, he]

end Verif.Aby3
