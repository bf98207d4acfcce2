import Verif.Aby3.Exp
import Verif.Aby3.PolyProps
import Verif.Aby3.NormLemmas
import Verif.Aby3.CircuitProps

/-!
# Lemmas: powers of two
-/

namespace Verif.Aby3

open Verif

variable {w n : ℕ} {σ : Fin 3}

attribute [local irreducible] M.All M.Sim

/-! ## The polynomial -/

/-- Sharings of the powers `i`, `i + 1`, … of two tensors. -/
def Powers (frac : ℕ) (σ : Fin 3) (x x' : T (.arith w n)) :
    ℕ → List (Shares (T (.arith w n))) → List (Shares (T (.arith w n))) → Prop
  | _, [], [] => True
  | i, y :: ys, y' :: ys' =>
    Products frac true σ (List.replicate i x) (List.replicate i x') y y' ∧
      Powers frac σ x x' (i + 1) ys ys'
  | _, _, _ => False

theorem Powers.length {frac : ℕ} {x x' : T (.arith w n)} :
    ∀ {l l' : List (Shares (T (.arith w n)))} {i : ℕ}, Powers frac σ x x' i l l' →
      l.length = l'.length
  | [], [], _, _ => rfl
  | _ :: _, _ :: _, _, h => by simp [Powers.length h.2]
  | [], _ :: _, _, h => h.elim
  | _ :: _, [], _, h => h.elim

theorem Powers.getD {frac : ℕ} {x x' : T (.arith w n)} {X X' : Shares (T (.arith w n))} :
    ∀ {l l' : List (Shares (T (.arith w n)))} {i : ℕ}, Powers frac σ x x' i l l' →
      ∀ j, j < l.length → Products frac true σ (List.replicate (i + j) x) (List.replicate (i + j) x')
        (l.getD j X) (l'.getD j X')
  | y :: ys, y' :: ys', i, h, 0, _ => h.1
  | y :: ys, y' :: ys', i, h, j + 1, hj => by
    have := Powers.getD (X := X) (X' := X') h.2 j (by simpa using hj)
    rwa [show i + 1 + j = i + (j + 1) by omega] at this
  | [], [], _, _, j, hj => by simp at hj
  | [], _ :: _, _, h, _, _ => h.elim
  | _ :: _, [], _, h, _, _ => h.elim

theorem Powers.append {frac : ℕ} {x x' : T (.arith w n)} {y y' : Shares (T (.arith w n))} :
    ∀ {l l' : List (Shares (T (.arith w n)))} {i : ℕ}, Powers frac σ x x' i l l' →
      Products frac true σ (List.replicate (i + l.length) x) (List.replicate (i + l.length) x') y y' →
      Powers frac σ x x' i (l ++ [y]) (l' ++ [y'])
  | [], [], _, _, h => ⟨h, trivial⟩
  | _ :: ys, _ :: ys', i, h, hy => ⟨h.1, Powers.append h.2 (by
      rwa [List.length_cons, ← add_assoc, add_right_comm] at hy)⟩
  | [], _ :: _, _, h, _ => h.elim
  | _ :: _, [], _, h, _ => h.elim

theorem padeLoop_sim {frac : ℕ} {plan : Option (BitVec w × BitVec w)}
    (hp : mulPlan w frac true true = .ok plan) {x x' : T (.arith w n)}
    {X X' : Shares (T (.arith w n))} (r : ℕ) :
    ∀ {l l' : List (Shares (T (.arith w n)))}, 0 < l.length → Powers frac σ x x' 1 l l' →
      M.Sim σ (fun o o' => o.length = l.length + r ∧ Powers frac σ x x' 1 o o')
        (padeLoop (mulS frac plan) X r l) (padeLoop (mulS frac plan) X' r l') := by
  induction r with
  | zero => exact fun _ h => .pure ⟨rfl, h⟩
  | succ r ih =>
    intro l l' h0 h
    have hl := h.length
    simp only [padeLoop]
    rw [← hl]
    have h1 := h.getD (X := X) (X' := X') ((l.length + 1) / 2 - 1) (by omega)
    have h2 := h.getD (X := X) (X' := X') ((l.length + 1 + 1) / 2 - 1) (by omega)
    refine M.Sim.bind (mulS_products hp h1 h2) fun y y' hy => ?_
    rw [← List.replicate_add, ← List.replicate_add,
      show 1 + ((l.length + 1) / 2 - 1) + (1 + ((l.length + 1 + 1) / 2 - 1)) = 1 + l.length by omega] at hy
    refine (ih (by simp) (h.append hy)).mono ?_
    rintro o o' ⟨e, ho⟩
    exact ⟨by rw [e, List.length_append]; simp only [List.length_singleton]; omega, ho⟩

theorem padeSum_sim {frac : ℕ} {plan : Option (BitVec w × BitVec w)}
    (hp : mulPlan w frac true true = .ok plan) {x x' : T (.arith w n)} :
    ∀ (ys ys' : List (Shares (T (.arith w n)))) (cs : List (BitVec w)) (i : ℕ)
      (a a' : T (.arith w n)) (A A' : Body (.arith w n)), Powers frac σ x x' i ys ys' →
      BRel σ a a' A A' →
      M.Sim σ (fun o o' => ∃ z z', PolyVal frac true x i ((cs.take ys.length).map .word) a z ∧
        PolyVal frac true x' i ((cs.take ys.length).map .word) a' z' ∧ BRel σ z z' o o')
        (padeSum frac plan ys cs A) (padeSum frac plan ys' cs A')
  | [], [], cs, i, a, a', A, A', _, hA => by
    simp only [padeSum]
    exact .pure ⟨a, a', by simpa using .nil _ _, by simpa using .nil _ _, hA⟩
  | y :: ys, y' :: ys', [], i, a, a', A, A', _, hA => by
    simp only [padeSum]
    exact .pure ⟨a, a', by simpa using .nil _ _, by simpa using .nil _ _, hA⟩
  | y :: ys, y' :: ys', c :: cs, i, a, a', A, A', h, hA => by
    simp only [padeSum]
    obtain ⟨v, v', hv, hv', hz⟩ := h.1
    have key := hz.bilinPub (u := .arith w n) (t := .arith w n) (f := fun u v => emul id id u v)
      (fun a b c => by rw [map_add]; rfl) (c := fun _ => c) (y := fun _ _ => c) (y' := fun _ _ => c)
      (fun _ => rfl) (fun _ => rfl)
    refine M.Sim.bind (mulRound_sim hp key) ?_
    rintro T T' ⟨t, t', h1, h2, -, hT⟩
    refine (padeSum_sim hp ys ys' cs (i + 1) _ _ _ _ h.2 (.priv (BRel.plus hT hA))).mono ?_
    rintro o o' ⟨z, z', hz, hz', ho⟩
    exact ⟨z, z', .term ⟨v, hv, h1⟩ hz, .term ⟨v', hv', h2⟩ hz', ho⟩
  | [], _ :: _, _, _, _, _, _, _, h, _ => h.elim
  | _ :: _, [], _, _, _, _, _, _, h, _ => h.elim

/-- The words of the coefficients that take part, from degree 1 on. -/
def usedCoeffs (w frac : ℕ) : List (BitVec w) :=
  ((padeCoeffs.drop 1).map (constWord w frac)).take (1 + (padeDegree frac - 2))

/-- A possible value of the polynomial at `x`. -/
def PadeVal (frac : ℕ) (x u : T (.arith w n)) : Prop :=
  PolyVal frac true x 1 ((usedCoeffs w frac).map .word) (fun _ => constWord w frac 1) u

theorem plusZero_rel {a a' : T (.arith w n)} {A A' : Body (.arith w n)} (h : BRel σ a a' A A') :
    BRel σ a a' (plusZero A) (plusZero A') := by
  cases h with
  | pub h h' => exact .pub h h'
  | priv h =>
    have := h.addPub (c := (0 : T (.arith w n))) (y := fun _ => 0) (y' := fun _ => 0)
      (fun _ => rfl) (fun _ => rfl)
    rw [add_zero, add_zero] at this
    exact .priv this

theorem padeRun_sim {frac : ℕ} {plan : Option (BitVec w × BitVec w)}
    (hp : mulPlan w frac true true = .ok plan) {x x' : T (.arith w n)}
    {X X' : Shares (T (.arith w n))} (hx : Alike σ x x' X X') :
    M.Sim σ (fun o o' => ∃ u u', PadeVal frac x u ∧ PadeVal frac x' u' ∧ BRel σ u u' o o')
      (padeRun frac plan X) (padeRun frac plan X') := by
  unfold padeRun
  refine M.Sim.bind (padeLoop_sim hp (x := x) (x' := x') (padeDegree frac - 2) (l := [X])
    (l' := [X']) (by simp) ⟨⟨x, x', .one x, .one x', hx⟩, trivial⟩) ?_
  rintro ys ys' ⟨hlen, hys⟩
  refine M.Sim.bind (padeSum_sim hp ys ys' _ 1 _ _ _ _ hys (BRel.copies (s := .arith w n) fun _ => constWord w frac 1)) ?_
  rintro z z' ⟨v, v', hv, hv', hz⟩
  rw [hlen, List.length_singleton] at hv hv'
  refine .pure ⟨v, v', hv, hv', ?_⟩
  split
  · exact plusZero_rel hz
  · exact hz

/-! ## The bits -/

theorem sum_bits (m k : ℕ) : (∑ j : Fin k, if m.testBit j then 2 ^ j.1 else 0) = m % 2 ^ k := by
  induction k with
  | zero => simp [Nat.mod_one]
  | succ k ih =>
    rw [Fin.sum_univ_castSucc, Nat.pow_succ, Nat.mod_mul]
    simp only [Fin.val_castSucc, Fin.val_last]
    rw [ih]
    congr 1
    rw [Nat.testBit_eq_decide_div_mod_eq]
    rcases Nat.mod_two_eq_zero_or_one (m / 2 ^ k) with h | h <;> simp [h]

theorem bitRows_add (k : ℕ) (a b : T (.bool w n)) : bitRows k (a + b) = bitRows k a + bitRows k b := by
  funext m
  refine XBits.ext ?_
  show BitVec.ofBool (((a _).bits ^^^ (b _).bits).getLsbD _) =
    BitVec.ofBool ((a _).bits.getLsbD _) ^^^ BitVec.ofBool ((b _).bits.getLsbD _)
  rw [BitVec.getLsbD_xor]
  cases (a (finProdFinEquiv.symm m).1).bits.getLsbD (finProdFinEquiv.symm m).2.1 <;>
    cases (b (finProdFinEquiv.symm m).1).bits.getLsbD (finProdFinEquiv.symm m).2.1 <;> rfl

/-- The words with the fractional bits of `x`. -/
def fracWord (frac : ℕ) (x : T (.arith w n)) : T (.arith w n) :=
  fun i => BitVec.ofNat w ((x i).toNat % 2 ^ frac)

theorem mask_bit {k j : ℕ} (hj : j < w) :
    (BitVec.ofNat w (2 ^ k - 1)).getLsbD j = decide (j < k) := by
  rw [BitVec.getLsbD_ofNat, Nat.testBit_two_pow_sub_one]
  simp [hj]

theorem fracWord_eq {frac : ℕ} (hf : frac ≤ w) (x : T (.arith w n)) :
    alift (lowBits frac) (toArith (blift (· &&& BitVec.ofNat w (2 ^ frac - 1)) (toBool x))) =
      fracWord frac x := by
  funext i
  show lowBits frac (x i &&& BitVec.ofNat w (2 ^ frac - 1)) = BitVec.ofNat w ((x i).toNat % 2 ^ frac)
  rw [← lowBits_ofNat frac (x i) hf]
  apply BitVec.eq_of_getLsbD_eq
  intro j hj
  rw [lowBits_bit _ _ _ hj, lowBits_bit _ _ _ hj, BitVec.getLsbD_and, mask_bit hj]
  cases decide (j < frac) <;> simp

theorem intBits_eq {frac : ℕ} (hf : frac + 5 ≤ w) (x : T (.arith w n)) (i : Fin n) :
    (bitsValue fun j => bitRows 5 (blift (· &&& BitVec.ofNat w (2 ^ 5 - 1))
      (blift (· >>> frac) (toBool x))) (finProdFinEquiv (i, j))) = (x i).toNat / 2 ^ frac % 2 ^ 5 := by
  rw [← sum_bits]
  unfold bitsValue
  refine Finset.sum_congr rfl fun j _ => ?_
  have e : (bitRows 5 (blift (· &&& BitVec.ofNat w (2 ^ 5 - 1))
      (blift (· >>> frac) (toBool x))) (finProdFinEquiv (i, j))).bits =
      BitVec.ofBool (((x i).toNat / 2 ^ frac).testBit j.1) := by
    show BitVec.ofBool (((x (finProdFinEquiv.symm (finProdFinEquiv (i, j))).1) >>> frac &&&
      BitVec.ofNat w (2 ^ 5 - 1)).getLsbD (finProdFinEquiv.symm (finProdFinEquiv (i, j))).2.1) = _
    rw [Equiv.symm_apply_apply, BitVec.getLsbD_and, mask_bit (by have := j.2; omega),
      BitVec.getLsbD_ushiftRight]
    simp only [j.2, decide_true, Bool.and_true]
    rw [BitVec.getLsbD, ← Nat.shiftRight_eq_div_pow, Nat.testBit_shiftRight]
  rw [e]
  cases ((x i).toNat / 2 ^ frac).testBit j.1 <;> rfl

theorem signBit_alike {c c' : T (.bool w n)} {x x' : Shares (T (.bool w n))}
    (hw : 0 < w) (h : Alike σ c c' x x') :
    Alike σ (signOf (toArith c)) (signOf (toArith c')) ((bshr (w - 1) x).map castBool)
      ((bshr (w - 1) x').map castBool) := by
  have e : ∀ x : Shares (T (.bool w n)), (bshr (w - 1) x).map castBool =
      x.map (blift fun v => BitVec.ofBool (v.getLsbD (w - 1))) := by
    intro x
    unfold bshr
    rw [Shares.map_map]
    congr 1
    funext a i
    refine XBits.ext ?_
    show (if (a i).bits >>> (w - 1) = 0 then 0#1 else 1#1) = BitVec.ofBool ((a i).bits.getLsbD (w - 1))
    have e1 : (a i).bits >>> (w - 1) = 0 ↔ (a i).bits.getLsbD (w - 1) = false := by
      constructor
      · intro h
        have := congrArg (fun v : BitVec w => v.getLsbD 0) h
        simpa [BitVec.getLsbD_ushiftRight] using this
      · intro h
        apply BitVec.eq_of_getLsbD_eq
        intro j hj
        rw [BitVec.getLsbD_ushiftRight]
        rcases Nat.eq_zero_or_pos j with rfl | hj0
        · simpa using h
        · rw [BitVec.getLsbD_of_ge _ _ (by omega)]; simp
    by_cases hb : (a i).bits.getLsbD (w - 1) = false
    · rw [if_pos (e1.2 hb), hb]; rfl
    · rw [if_neg (fun h => hb (e1.1 h))]
      rw [Bool.not_eq_false] at hb
      rw [hb]; rfl
  rw [e, e, signOf_eq, signOf_eq]
  exact h.blift fun a b => by
    rw [BitVec.getLsbD_xor]
    cases a.getLsbD (w - 1) <;> cases b.getLsbD (w - 1) <;> rfl

theorem mulBody_sim {frac : ℕ} {u u' d d' : T (.arith w n)} {U U' : Body (.arith w n)}
    {D D' : Shares (T (.arith w n))} (hu : BRel σ u u' U U') (hd : Alike σ d d' D D') :
    M.Sim σ (Alike σ (fun i => u i * d i : T (.arith w n)) (fun i => u' i * d' i : T (.arith w n)))
      (mulBody frac U D) (mulBody frac U' D') := by
  cases hu with
  | pub h h' =>
    refine .pure ?_
    exact hd.pubBilin (u := .arith w n) (f := fun u v => emul id id u v)
      (fun a b c => by rw [map_add]) h h'
  | priv h =>
    refine (mulS_sim (frac := frac) (sx := false) (sy := false) rfl h hd).mono ?_
    rintro o o' ⟨z, z', h1, h2, -, ho⟩
    rw [← show z = _ from h1, ← show z' = _ from h2]
    exact ho

/-! ## All of `exp2` -/

/-- The product with the power of two. -/
def expWord (frac : ℕ) (x u : T (.arith w n)) : T (.arith w n) :=
  fun i => u i * BitVec.ofNat w (2 ^ ((x i).toNat / 2 ^ frac % 2 ^ 5))

/-- The choice between the candidates. -/
def chooseWord (frac : ℕ) (sign : SignArg) (x g small : T (.arith w n)) : T (.arith w n) :=
  fun i =>
    match sign with
    | .pos => g i
    | .neg => if (x i - BitVec.ofInt w (-(frac * 2 ^ frac))).msb then 0 else small i
    | .unknown => if (x i - BitVec.ofInt w (-(frac * 2 ^ frac))).msb then 0 else
        if (x i).msb then small i else g i

/-- A possible value of `exp2`. -/
def Exp2Val (frac : ℕ) (sign : SignArg) (x z : T (.arith w n)) : Prop :=
  ∃ u small : T (.arith w n), PadeVal frac (fracWord frac x) u ∧
    (∀ i, TruncOk .heuristic (2 ^ 5) (expWord frac x u i) (small i)) ∧
    z = chooseWord frac sign x (expWord frac x u) small

theorem pick_sign {m : ℕ} (v x y : Fin m → BitVec w) :
    pick id (signOf v) x y = fun i => if (v i).msb then y i else x i := by
  funext i
  show (if BitVec.ofBool (v i).msb = 1#1 then y i else x i) = _
  cases (v i).msb <;> rfl

theorem exp2Choose_sim {e : ℕ} (he : 0 < e) {frac : ℕ} (sign : SignArg)
    {x x' : T (.arith (2 ^ e) n)} {X X' : Shares (T (.arith (2 ^ e) n))} (hx : Alike σ x x' X X')
    {B B' : Shares (T (.bool (2 ^ e) n))} (hB : Alike σ (toBool x) (toBool x') B B')
    {g g' s s' : T (.arith (2 ^ e) n)} {G G' S S' : Shares (T (.arith (2 ^ e) n))}
    (hg : Alike σ g g' G G') (hs : Alike σ s s' S S') :
    M.Sim σ (Alike σ (chooseWord frac sign x g s) (chooseWord frac sign x' g' s'))
      (exp2Choose frac sign X B G S) (exp2Choose frac sign X' B' G' S') := by
  have ho := msb_sim he (hx.subPub (s := .arith (2 ^ e) n)
    (c := fun _ => BitVec.ofInt (2 ^ e) (-(frac * 2 ^ frac)))
    (y := fun _ _ => BitVec.ofInt (2 ^ e) (-(frac * 2 ^ frac)))
    (y' := fun _ _ => BitVec.ofInt (2 ^ e) (-(frac * 2 ^ frac))) (fun _ => rfl) fun _ => rfl)
  cases sign with
  | pos => exact .pure hg
  | neg =>
    refine M.Sim.bind ho fun o o' h => ?_
    have := selectA_sim h (.priv hs) (BRel.copies (s := .arith (2 ^ e) n) fun _ => 0)
    rw [pick_sign, pick_sign] at this
    exact this
  | unknown =>
    have hw : 0 < 2 ^ e := by positivity
    have h1 := selectA_sim (signBit_alike hw hB) (.priv hg) (.priv hs)
    rw [pick_sign, pick_sign] at h1
    refine M.Sim.bind h1 fun z z' hz => ?_
    refine M.Sim.bind ho fun o o' h => ?_
    have := selectA_sim h (.priv hz) (BRel.copies (s := .arith (2 ^ e) n) fun _ => 0)
    rw [pick_sign, pick_sign] at this
    exact this

theorem exp2Run_sim {e : ℕ} (he : 0 < e) {frac : ℕ} (sign : SignArg)
    {plan : Option (BitVec (2 ^ e) × BitVec (2 ^ e))} {plan32 : BitVec (2 ^ e) × BitVec (2 ^ e)}
    (hp : mulPlan (2 ^ e) frac true true = .ok plan) (hq : heurPlan (2 ^ e) frac (2 ^ 5) = .ok plan32)
    {x x' : T (.arith (2 ^ e) n)} {X X' : Shares (T (.arith (2 ^ e) n))} (hx : Alike σ x x' X X')
    {bits bits' : M (Shares (T (.bool (2 ^ e) n)))}
    (hb : M.Sim σ (Alike σ (toBool x) (toBool x')) bits bits') :
    M.Sim σ (fun o o' => ∃ z z', Exp2Val frac sign x z ∧ Exp2Val frac sign x' z' ∧ Alike σ z z' o o')
      (exp2Run frac sign plan plan32 bits X) (exp2Run frac sign plan plan32 bits' X') := by
  have hb32 := heurPlan_bound hq
  unfold exp2Run
  refine M.Sim.bind hb fun B B' hB => ?_
  have h1 := ((hB.bshr frac).andConst (BitVec.ofNat (2 ^ e) (2 ^ 5 - 1))).map (bitRows_add 5)
  refine M.Sim.bind (pow2_sim (by omega) h1) fun D D' hD => ?_
  simp only [intBits_eq (show frac + 5 ≤ 2 ^ e by omega)] at hD
  have h2 := b2aBits_sim (hB.andConst (BitVec.ofNat (2 ^ e) (2 ^ frac - 1))) frac (by omega)
  rw [fracWord_eq (by omega), fracWord_eq (by omega)] at h2
  refine M.Sim.bind h2 fun F F' hF => ?_
  refine M.Sim.bind (padeRun_sim hp hF) ?_
  rintro U U' ⟨u, u', hu, hu', hU⟩
  refine M.Sim.bind (mulBody_sim hU hD) fun G G' hG => ?_
  refine M.Sim.bind (heurRun_round hb32 hq hG) ?_
  rintro S S' ⟨s, s', hs, hs', -, hS⟩
  refine (exp2Choose_sim he sign hx hB hG hS).mono fun o o' ho => ?_
  exact ⟨_, _, ⟨u, s, hu, hs, rfl⟩, ⟨u', s', hu', hs', rfl⟩, ho⟩

/-- Whether `exp2` raises does not depend on the shares. -/
theorem exp2_sim {e : ℕ} (he : 0 < e) (he7 : e ≤ 7) {frac : ℕ} (hd : padeDegree frac ≠ 0)
    (hw : frac + frac + 2 ≤ 2 ^ e) (hw32 : frac + 2 ^ 5 + 2 ≤ 2 ^ e) (sign : SignArg) :
    ∃ F : Shares (T (.arith (2 ^ e) n)) → M (Shares (T (.arith (2 ^ e) n))),
      (∀ X, exp2 frac sign X = .ok (F X)) ∧
        ∀ {σ : Fin 3} {x x' : T (.arith (2 ^ e) n)} {X X' : Shares (T (.arith (2 ^ e) n))},
          Alike σ x x' X X' →
          M.Sim σ (fun o o' => ∃ z z', Exp2Val frac sign x z ∧ Exp2Val frac sign x' z' ∧
            Alike σ z z' o o') (F X) (F X') := by
  have h128 : 2 ^ e ≤ 128 := by
    calc 2 ^ e ≤ 2 ^ 7 := Nat.pow_le_pow_right (by omega) he7
      _ = 128 := rfl
  obtain ⟨plan, hp⟩ := mulPlan_ok (sx := true) (sy := true) (frac := frac) (w := 2 ^ e) fun _ => hw
  obtain ⟨plan32, hq⟩ : ∃ p, heurPlan (2 ^ e) frac (2 ^ 5) = .ok p := ⟨_, heurPlan_ok hw32⟩
  have ok : ∀ X : Shares (T (.arith (2 ^ e) n)), ∃ m, a2b none X = .ok m := fun X => ⟨_, rfl⟩
  choose bits hbits using ok
  refine ⟨fun X => exp2Run frac sign plan plan32 (bits X) X, fun X => ?_, ?_⟩
  · unfold exp2
    rw [hbits]
    simp only [if_neg hd, hp, hq]
  · intro σ x x' X X' hx
    obtain ⟨m, m', h1, h2, hs⟩ := a2b_none_sim h128 hx
    rw [hbits] at h1 h2
    cases h1
    cases h2
    exact exp2Run_sim he sign hp hq hx hs

end Verif.Aby3
