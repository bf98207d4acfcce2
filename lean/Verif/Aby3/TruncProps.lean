import Verif.Aby3.CircuitProps
import Verif.Aby3.Props
import Verif.Aby3.Cheetah
import Verif.Aby3.Dist
import Verif.Pond.FixedMul

/-!
# C12, C13, C14 (ABY3 part): truncation and fixed-point products

For every word width, tensor size, private value, sharing of it and random draw.
-/

namespace Verif.Aby3

open Verif

variable {w n : ℕ}

/-! ## Helpers -/

theorem share_allT {α : Type} {v : T (.arith w n)} {f : Shares (T (.arith w n)) → M α}
    {P : α → List Msg → Prop} :
    M.AllT P (share v >>= f) ↔ ∀ a b, M.AllT (fun r l => P r ([⟨0, .arith w n, a⟩, ⟨0, .arith w n, b⟩,
      ⟨1, .arith w n, b⟩, ⟨1, .arith w n, v - a - b⟩, ⟨2, .arith w n, v - a - b⟩,
      ⟨2, .arith w n, a⟩] ++ l)) (f ![(a, b), (b, v - a - b), (v - a - b, a)]) := by
  rw [M.allT_bind]
  exact Iff.rfl

theorem const_of_all {α : Type} {C : Prop} : ∀ {m : RandM T α}, RandM.All (fun _ => C) m → C
  | .pure _, h => h
  | .sample _ _, h => const_of_all (h 0)
  | .coin _, h => const_of_all (h true)

theorem allT_const {α : Type} {C : Prop} {m : M α} (h : M.AllT (fun _ _ => C) m) : C :=
  const_of_all (m := m) h

theorem AllT.and {α : Type} {P Q : α → List Msg → Prop} {m : M α} (h : M.AllT P m)
    (h' : M.AllT Q m) : M.AllT (fun a l => P a l ∧ Q a l) m :=
  RandM.All.and (m := m) h h'

/-- What always holds of a server's view holds in any run with the same distribution of views. -/
theorem allT_of_view {α β : Type} {m : M α} {n : M β} {σ : Fin 3} {P : List Msg → Prop}
    (h : (RandM.dist m).map (fun r => seen σ r.2) = (RandM.dist n).map (fun r => seen σ r.2))
    (hm : M.AllT (fun _ l => P (seen σ l)) m) : M.AllT (fun _ l => P (seen σ l)) n :=
  RandM.All.of_dist_eq (m := m) (n := n) h (P := P) hm

theorem Msg.arith_mk (dst : Fin 3) (v : T (.arith w n)) : Msg.arith w n ⟨dst, .arith w n, v⟩ = v := by
  simp [Msg.arith]

attribute [local irreducible] M.All M.Sim M.AllT

/-- A distribution on a finite type that does not distinguish any two points is uniform. -/
theorem eq_uniform {A : Type} [Fintype A] [Nonempty A] {p : PMF A} (h : ∀ a b, p a = p b) :
    p = PMF.uniformOfFintype A := by
  ext a
  rw [PMF.uniformOfFintype_apply]
  have h1 := p.tsum_coe
  rw [tsum_fintype, Finset.sum_congr rfl (fun b _ => h b a), Finset.sum_const, nsmul_eq_mul,
    Finset.card_univ] at h1
  exact ENNReal.eq_inv_of_mul_eq_one_left (by rw [mul_comm]; exact h1)

theorem uniform_map_equiv {A B : Type} [Fintype A] [Nonempty A] [Fintype B] [Nonempty B]
    (e : A ≃ B) : (PMF.uniformOfFintype A).map e = PMF.uniformOfFintype B := by
  ext b
  rw [PMF.map_apply, PMF.uniformOfFintype_apply, ← Fintype.card_congr e]
  simp only [PMF.uniformOfFintype_apply]
  classical
  refine (tsum_eq_single (e.symm b) fun a ha => if_neg ?_).trans (if_pos (e.apply_symm_apply b).symm)
  rintro rfl
  exact ha (e.symm_apply_apply a).symm

/-- One element of a uniform tensor is uniform. -/
theorem uniform_eval (i : Fin n) : (PMF.uniformOfFintype (T (.arith w n))).map (· i)
    = PMF.uniformOfFintype (BitVec w) := by
  apply eq_uniform
  intro a b
  have h := RandM.uniform_bind_equiv (A := T (.arith w n)) (Equiv.addRight (fun _ => b - a))
    fun t => PMF.pure (t i)
  show (PMF.uniformOfFintype (T (.arith w n))).bind (fun t => PMF.pure (t i)) a
    = (PMF.uniformOfFintype (T (.arith w n))).bind (fun t => PMF.pure (t i)) b
  conv_rhs => rw [← h, PMF.bind_apply]
  rw [PMF.bind_apply]
  refine tsum_congr fun t => ?_
  congr 1
  rw [PMF.pure_apply, PMF.pure_apply]
  have e : (a = t i) ↔ (b = Equiv.addRight (fun _ => b - a : T (.arith w n)) t i) := by
    show _ ↔ b = t i + (b - a)
    constructor
    · rintro rfl; ring
    · intro h; linear_combination h
  by_cases hh : a = t i
  · rw [if_pos hh, if_pos (e.1 hh)]
  · rw [if_neg hh, if_neg (mt e.2 hh)]

/-- The probability that a uniform word satisfies `P`. -/
theorem uniform_prob (P : BitVec w → Prop) [DecidablePred P] :
    ((PMF.uniformOfFintype (BitVec w)).map fun r => decide (P r)) true
      = Nat.card {r // P r} / 2 ^ w := by
  rw [PMF.map_apply, tsum_fintype]
  simp only [PMF.uniformOfFintype_apply]
  rw [Nat.card_eq_fintype_card, Fintype.card_subtype, ← Finset.sum_filter, Finset.sum_const,
    nsmul_eq_mul, ENNReal.div_eq_inv_mul, mul_comm]
  congr 1
  · rw [Fintype.card_congr BitVec.equivFin.toEquiv, Fintype.card_fin]; push_cast; rfl
  · simp

/-- The second half of `mul_trunc2`, for a given sharing of the mask. -/
theorem mulTrunc2With_holds (hw : w ≤ 128) {n₁ n₂ : ℕ}
    {f : T (.arith w n₁) → T (.arith w n₂) → T (.arith w n)}
    (hl : ∀ a b c, f (a + b) c = f a c + f b c) (hr : ∀ a b c, f c (a + b) = f c a + f c b)
    (a : ℕ) {c : T (.arith w n₁)} {d : T (.arith w n₂)} {x : Shares (T (.arith w n₁))}
    {y : Shares (T (.arith w n₂))} {r : T (.bool w n)} {R : Shares (T (.bool w n))}
    (hx : Holds c x) (hy : Holds d y) (hR : Holds r R) :
    M.All (Holds fun i => pairTrunc a (f c d i) (toArith r i)) (mulTrunc2With f a x y R) := by
  unfold mulTrunc2With
  refine M.All.bind (holds_of_sim (b2a_sim hw (hR.alike 0)) rfl) fun r₁ h1 => ?_
  refine M.All.bind (holds_of_sim (b2a_sim hw ((hR.alike 0).bsar a)) rfl) fun t ht => ?_
  refine M.All.bind zeroSharing_sum fun z hz => ?_
  refine M.All.tell_bind (M.All.tell_bind (M.All.tell_bind (M.All.tell_bind (M.All.tell_bind
    (M.All.tell_bind (M.all_pure.2 ?_))))))
  have e1 := bilin_parts hl hr hx hy
  refine Holds.addPub (c := alift (·.sshiftRight a) (f c d - toArith r)) ht ?_
  intro i
  show alift (·.sshiftRight a) _ = _
  congr 1
  rw [← e1, ← h1.2]
  simp only
  have hz' : z 2 = -(z 0 + z 1) := by rw [eq_neg_iff_add_eq_zero]; rw [← hz]; abel
  rw [hz']
  abel

/-! ## C12 -/

theorem toInt_near (hw : 2 ≤ w) {a : ℕ} {v z : BitVec w} {e : ℤ} (h0 : -2 ^ (w - 2) ≤ v.toInt)
    (h1 : v.toInt < 2 ^ (w - 2)) (he : -1 ≤ e ∧ e ≤ 1) (hz : z = BitVec.ofInt w (v.toInt / 2 ^ a + e)) :
    z.toInt = v.toInt / 2 ^ a + e := by
  have hp : (2 : ℤ) ^ (w - 1) = 2 * 2 ^ (w - 2) := by rw [← pow_succ']; congr 1; omega
  have hpos : (1 : ℤ) ≤ 2 ^ (w - 2) := one_le_pow₀ (by norm_num)
  have ha : (1 : ℤ) ≤ 2 ^ a := one_le_pow₀ (by norm_num)
  have l : -2 ^ (w - 2) ≤ v.toInt / 2 ^ a := by
    rw [Int.le_ediv_iff_mul_le (by omega)]
    nlinarith
  have u : v.toInt / 2 ^ a < 2 ^ (w - 2) := by
    rw [Int.ediv_lt_iff_lt_mul (by omega)]
    nlinarith
  rw [hz]
  exact Bits.toInt_ofInt (by omega) (by omega) (by omega)

/-- **C12.** The default truncation of a private tensor by `a` bits succeeds whenever
`scale + a + 2 ≤ w`, and for every sharing and every draw each element `x` of signed value in
`[-2^(w-2), 2^(w-2))` becomes `⌊x / 2^a⌋` or `⌊x / 2^a⌋ + 1`. -/
theorem truncate_default {scale a : ℕ} (ha : scale + a + 2 ≤ w) {v : T (.arith w n)}
    {x : Shares (T (.arith w n))} (hx : Holds v x) :
    ∃ m, truncHeuristic scale a x = .ok m ∧ M.All (fun o => ∃ z, Holds z o ∧
      ∀ i, -2 ^ (w - 2) ≤ (v i).toInt → (v i).toInt < 2 ^ (w - 2) →
        (z i).toInt = (v i).toInt / 2 ^ a ∨ (z i).toInt = (v i).toInt / 2 ^ a + 1) m := by
  obtain ⟨m, m', h, -, hs⟩ := truncHeuristic_sim ha (hx.alike 0)
  refine ⟨m, h, hs.left ?_⟩
  rintro o o' ⟨r, r', ho⟩
  refine ⟨_, ho.1, fun i h0 h1 => ?_⟩
  obtain ⟨e, he, h⟩ := heur_floor (by omega : a + 2 ≤ w) h0 h1 (r i)
  have := toInt_near (by omega) h0 h1 (by omega) h
  show (heur a (v i) (r i)).toInt = _ ∨ (heur a (v i) (r i)).toInt = _
  rcases he with rfl | rfl
  · left; rw [this, add_zero]
  · right; exact this

/-- **C12**, the error branch: otherwise Python rejects a negative shift count. -/
theorem truncate_default_error {scale a : ℕ} (ha : ¬ scale + a + 2 ≤ w)
    (x : Shares (T (.arith w n))) : truncHeuristic scale a x = .error .valueError := by
  rw [truncHeuristic, heurPlan, if_neg ha]

/-- The 64- and 128-bit configurations meet the hypothesis for products (`scale = 16, 32`). -/
example : 16 + 16 + 2 ≤ 64 ∧ 32 + 32 + 2 ≤ 128 := by decide

/-- **C12**, `truncate_msb0`: for tensors with no negative element. -/
theorem truncate_msb0 {a : ℕ} (h1 : 1 ≤ a) (ha : a + 1 ≤ w) {v : T (.arith w n)}
    {x : Shares (T (.arith w n))} (hx : Holds v x) :
    ∃ m, truncMsb0Q8 a x = .ok m ∧ M.All (fun o => ∃ z, Holds z o ∧
      ∀ i, 0 ≤ (v i).toInt →
        (z i).toInt = (v i).toInt / 2 ^ a ∨ (z i).toInt = (v i).toInt / 2 ^ a + 1) m := by
  refine ⟨_, if_pos ha, (truncQ8_sim a (hx.alike 0)).left ?_⟩
  rintro o o' ⟨r, r', ho⟩
  refine ⟨_, ho.1, fun i h0 => ?_⟩
  have hm : (v i).msb = false := by
    rw [BitVec.msb_eq_toInt, decide_eq_false_iff_not]; omega
  obtain ⟨e, he, h⟩ := q8_floor (by omega : a < w) hm (r i)
  have hlt : (v i).toInt < 2 ^ (w - 1) := (Bits.toInt_range (v i)).2
  have ha2 : (2 : ℤ) ≤ 2 ^ a := by
    calc (2 : ℤ) = 2 ^ 1 := by norm_num
      _ ≤ 2 ^ a := pow_le_pow_right₀ (by norm_num) h1
  have hd : 0 ≤ (v i).toInt / 2 ^ a := Int.ediv_nonneg h0 (by omega)
  have hd2 : 2 * ((v i).toInt / 2 ^ a) ≤ (v i).toInt := by
    have := Int.ediv_mul_le (v i).toInt (show (2 : ℤ) ^ a ≠ 0 by omega)
    nlinarith
  have hpos : (1 : ℤ) ≤ 2 ^ (w - 1) := one_le_pow₀ (by norm_num)
  have hw2 : (2 : ℤ) ≤ 2 ^ (w - 1) := by
    calc (2 : ℤ) = 2 ^ 1 := by norm_num
      _ ≤ 2 ^ (w - 1) := pow_le_pow_right₀ (by norm_num) (by omega)
  have hz := Bits.toInt_ofInt (by omega : 0 < w) (i := (v i).toInt / 2 ^ a + e) (by omega) (by omega)
  show (q8 a (v i) (r i)).toInt = _ ∨ (q8 a (v i) (r i)).toInt = _
  rw [h, hz]
  rcases he with rfl | rfl
  · left; rw [add_zero]
  · right; rfl

/-- **C12**, `truncate_msb0` with the method `"cheetah"`: the error has the other sign. -/
theorem truncate_cheetah_partial {a : ℕ} (ha : a + 2 ≤ w) {v : T (.arith w n)}
    {x : Shares (T (.arith w n))} (hx : Holds v x) :
    M.All (fun o => ∃ z : T (.arith w n), Holds z o ∧ ∀ i, 0 ≤ (v i).toInt →
      z i = BitVec.ofInt w ((v i).toInt / 2 ^ a - 1) ∨ z i = BitVec.ofInt w ((v i).toInt / 2 ^ a))
      (truncCheetah a x) := by
  refine (truncCheetah_holds a hx).mono fun o ho => ⟨_, ho, fun i h0 => ?_⟩
  rw [cheetahVal_apply (by omega)]
  have hm : (v i).msb = false := by
    rw [BitVec.msb_eq_toInt, decide_eq_false_iff_not]; omega
  obtain ⟨e, he | he, h⟩ := cheetah_floor (by omega : a < w) hm ((x 2).1 i) <;> subst he
  · left; exact h
  · right; rw [h, add_zero]

/-- **C12 fails** for `"cheetah"`: zero, shared with third component one, is truncated to `-1`,
neither `⌊0 / 2^a⌋` nor that plus one. -/
theorem truncate_cheetah_false :
    let x : Shares (T (.arith 64 1)) := ![(fun _ => -1, fun _ => 0), (fun _ => 0, fun _ => 1),
      (fun _ => 1, fun _ => -1)]
    Holds (fun _ => 0) x ∧ M.All (fun o => (reconstruct o none 0).toInt = -1) (truncCheetah 8 x) := by
  intro x
  have hx : Holds (s := .arith 64 1) (fun _ => 0) x := by
    refine ⟨fun i => by fin_cases i <;> rfl, ?_⟩
    funext i
    show (-1 : BitVec 64) + 0 + 1 = 0
    decide
  refine ⟨hx, (truncCheetah_holds 8 hx).mono fun o ho => ?_⟩
  rw [ho.reconstruct none, cheetahVal_apply (by omega)]
  show (cheetah 8 (0#64) 1#64).toInt = -1
  decide

/-- What server 2 computes while a tensor is shared and then truncated with `"cheetah"`: its own
component `x₂` and the shifted sum of the two others. -/
def sharedCheetahAttack (w n a : ℕ) : List Msg → T (.arith w n) × T (.arith w n)
  | m :: _ :: l => (m.arith w n, cheetahAttack w n a l)
  | _ => (0, 0)

theorem sharedCheetahAttack_works (a : ℕ) (v : T (.arith w n)) :
    M.AllT (fun _ l => (sharedCheetahAttack w n a (seen 2 l)).2
      = alift (· >>> a) (v - (sharedCheetahAttack w n a (seen 2 l)).1))
      (share v >>= truncCheetah a) := by
  rw [share_allT]
  intro s0 s1
  refine (cheetahAttack_works a _).mono fun _ l h => ?_
  show cheetahAttack w n a (seen 2 l) = alift (· >>> a) (v - Msg.arith w n ⟨2, .arith w n, v - s0 - s1⟩)
  rw [h, Msg.arith_mk]
  show alift _ (s0 + s1) = _
  congr 1
  abel

/-- **C07 fails** for `"cheetah"`: two secrets that differ after truncation give server 2 views of
different distributions, although nothing is opened. -/
theorem cheetah_leaks_false (a : ℕ) {v v' : T (.arith w n)}
    (hv : alift (· >>> a) v ≠ alift (· >>> a) v') :
    (RandM.dist (share v >>= truncCheetah a : M _)).map (fun r => seen 2 r.2) ≠
      (RandM.dist (share v' >>= truncCheetah a : M _)).map (fun r => seen 2 r.2) := by
  intro h
  apply hv
  have h1 := allT_of_view (P := fun l => (sharedCheetahAttack w n a l).2
      = alift (· >>> a) (v - (sharedCheetahAttack w n a l).1)) h (sharedCheetahAttack_works a v)
  have h2 := sharedCheetahAttack_works a v'
  rw [share_allT] at h1 h2
  refine allT_const ((AllT.and (h1 v' 0) (h2 v' 0)).mono ?_)
  rintro _ l ⟨e1, e2⟩
  have e := e1.symm.trans e2
  have e0 : (sharedCheetahAttack w n a (seen 2 ([⟨0, .arith w n, v'⟩, ⟨0, .arith w n, 0⟩,
      ⟨1, .arith w n, 0⟩, ⟨1, .arith w n, v' - v' - 0⟩, ⟨2, .arith w n, v' - v' - 0⟩,
      ⟨2, .arith w n, v'⟩] ++ l))).1 = 0 := by
    show Msg.arith w n ⟨2, .arith w n, v' - v' - 0⟩ = 0
    rw [Msg.arith_mk]
    abel
  rw [e0, sub_zero, sub_zero] at e
  exact e

/-- For instance one-element tensors that hold 0 and 256, truncated by 8 bits. -/
example : alift (· >>> 8) (fun _ => 0#64 : T (.arith 64 1)) ≠ alift (· >>> 8) fun _ => 256#64 :=
  fun h => absurd (congrFun h 0) (by decide)

/-! ## C13 -/

/-- **C13**, the local method, exactly: each element comes within one of `⌊x / 2^a⌋` if and only if
`x - r` does not overflow as a signed word, where `r` is the component held by servers 0 and 2. -/
theorem truncate_local {a : ℕ} (h1 : 1 ≤ a) (ha : a + 2 ≤ w) {v : T (.arith w n)}
    {x : Shares (T (.arith w n))} (hx : Holds v x) :
    M.All (fun o => ∃ z : T (.arith w n), Holds z o ∧ ∀ i, Near a (v i) (z i) ↔
      Bits.Fits w ((v i).toInt - ((x 0).1 i).toInt)) (truncLocal a x) :=
  (truncLocal_sim a (hx.alike 0)).left fun o _ ho => ⟨_, ho.1, fun i => pairTrunc_near_iff h1 ha _ _⟩

/-- How many of the `2^w` values of the component `r` make it overflow: `|x + 1|`. -/
theorem bad_masks (hw : 0 < w) (x : BitVec w) :
    Nat.card {r : BitVec w // ¬ Bits.Fits w (x.toInt - r.toInt)} = (x.toInt + 1).natAbs :=
  Bits.card_overflow hw x

open Classical in
theorem near_prob {a : ℕ} (h1 : 1 ≤ a) (ha : a + 2 ≤ w) (v : T (.arith w n)) (i : Fin n) :
    (((PMF.uniformOfFintype (T (.arith w n))).map
        fun (r : T (.arith w n)) i => pairTrunc a (v i) (r i)).map
      fun z : T (.arith w n) => decide (¬ Near a (v i) (z i))) true
      = ((v i).toInt + 1).natAbs / 2 ^ w := by
  rw [PMF.map_comp]
  have e : ((fun z : T (.arith w n) => decide (¬ Near a (v i) (z i))) ∘
      fun (r : T (.arith w n)) i => pairTrunc a (v i) (r i))
      = (fun r => decide (¬ Bits.Fits w ((v i).toInt - r.toInt))) ∘ fun r : T (.arith w n) => r i := by
    funext r
    simp only [Function.comp_apply, pairTrunc_near_iff h1 ha]
  rw [e, ← PMF.map_comp, uniform_eval, ← bad_masks (by omega) (v i), ← uniform_prob]

/-- The distribution of the truncated value: `r` is uniform. -/
theorem truncLocal_dist (a : ℕ) (v : T (.arith w n)) :
    (M.dist (share v >>= truncLocal a)).map (fun o => reconstruct o none)
      = (PMF.uniformOfFintype (T (.arith w n))).map
        fun (r : T (.arith w n)) i => pairTrunc a (v i) (r i) := by
  have key : ∀ r b : T (.arith w n), (M.dist (truncLocal a ![(r, b), (b, v - r - b),
      (v - r - b, r)])).map (fun o => reconstruct o none)
      = PMF.pure fun i => pairTrunc a (v i) (r i) := by
    intro r b
    have hx : Holds v ![(r, b), (b, v - r - b), (v - r - b, r)] := .of3 (by abel)
    refine M.All.dist_map ((truncLocal_sim a (hx.alike 0)).left fun o _ ho => ?_)
    exact ho.1.reconstruct none
  have d := M.dist_draw (.arith w n)
  simp only [share, M.dist_bind, d, M.dist_tell, M.dist_pure, PMF.pure_bind,
    PMF.bind_bind, PMF.map_bind, key]
  simp only [PMF.bind_const]
  rfl

open Classical in
/-- **C13**, the local method, probability: for a freshly shared secret the chance that an element
`x` is *not* truncated to within one of `⌊x / 2^a⌋` is exactly `|x + 1| / 2^w`. -/
theorem truncate_local_failure {a : ℕ} (h1 : 1 ≤ a) (ha : a + 2 ≤ w) (v : T (.arith w n))
    (i : Fin n) :
    ((M.dist (share v >>= truncLocal a)).map
      (fun o => decide (¬ Near a (v i) ((reconstruct o none : T (.arith w n)) i)))) true
      = ((v i).toInt + 1).natAbs / 2 ^ w := by
  rw [← near_prob h1 ha v i, ← truncLocal_dist, PMF.map_comp]
  rfl

/-- The distribution of the result of `mul_trunc2` on any sharings of the factors. -/
theorem mulTrunc2_dist (hw : w ≤ 128) {n₁ n₂ : ℕ}
    {f : T (.arith w n₁) → T (.arith w n₂) → T (.arith w n)}
    (hl : ∀ a b c, f (a + b) c = f a c + f b c) (hr : ∀ a b c, f c (a + b) = f c a + f c b)
    (a : ℕ) {c : T (.arith w n₁)} {d : T (.arith w n₂)} {x : Shares (T (.arith w n₁))}
    {y : Shares (T (.arith w n₂))} (hx : Holds c x) (hy : Holds d y) :
    (M.dist (mulTrunc2 f a x y)).map (fun o => reconstruct o none)
      = (PMF.uniformOfFintype (T (.arith w n))).map
        fun (r : T (.arith w n)) i => pairTrunc a (f c d i) (r i) := by
  have key : ∀ f0 f1 f2 : T (.bool w n), (M.dist (mulTrunc2With f a x y
      fun i => (![f0, f1, f2] i, ![f0, f1, f2] (i + 1)))).map (fun o => reconstruct o none)
      = PMF.pure fun i => pairTrunc a (f c d i) (toArith (f0 + f1 + f2) i) := by
    intro f0 f1 f2
    refine M.All.dist_map (M.All.mono (mulTrunc2With_holds hw hl hr a hx hy (r := f0 + f1 + f2)
      ⟨fun _ => rfl, rfl⟩) fun o ho => ho.reconstruct none)
  have hd := M.dist_draw (.bool w n)
  simp only [mulTrunc2, randomSharing, pairwise, M.dist_bind, hd, M.dist_tell, M.dist_pure,
    PMF.pure_bind, PMF.bind_bind, PMF.map_bind, key]
  have one : ∀ f0 f1 : T (.bool w n), ((PMF.uniformOfFintype (T (.bool w n))).bind fun f2 =>
      PMF.pure fun i => pairTrunc a (f c d i) (toArith (f0 + f1 + f2) i))
      = (PMF.uniformOfFintype (T (.bool w n))).bind fun f2 =>
      PMF.pure fun i => pairTrunc a (f c d i) (toArith f2 i) := by
    intro f0 f1
    exact RandM.uniform_bind_equiv (Equiv.addLeft (f0 + f1))
      fun f2 => PMF.pure fun i => pairTrunc a (f c d i) (toArith f2 i)
  simp only [one, PMF.bind_const]
  have two : (PMF.uniformOfFintype (T (.bool w n))).map toArith
      = PMF.uniformOfFintype (T (.arith w n)) :=
    uniform_map_equiv ⟨toArith, toBool, fun _ => rfl, fun _ => rfl⟩
  rw [← two, PMF.map_comp]
  rfl

open Classical in
/-- **C13**, `mul_trunc2`, probability: for any sharings of two factors the chance that an element
`x` of the product is not truncated to within one of `⌊x / 2^a⌋` is exactly `|x + 1| / 2^w`. -/
theorem mul_trunc2_failure (hw : w ≤ 128) {n₁ n₂ : ℕ}
    {f : T (.arith w n₁) → T (.arith w n₂) → T (.arith w n)}
    (hl : ∀ a b c, f (a + b) c = f a c + f b c) (hr : ∀ a b c, f c (a + b) = f c a + f c b)
    {a : ℕ} (h1 : 1 ≤ a) (ha : a + 2 ≤ w) {c : T (.arith w n₁)} {d : T (.arith w n₂)}
    {x : Shares (T (.arith w n₁))} {y : Shares (T (.arith w n₂))} (hx : Holds c x) (hy : Holds d y)
    (i : Fin n) :
    ((M.dist (mulTrunc2 f a x y)).map
      (fun o => decide (¬ Near a (f c d i) ((reconstruct o none : T (.arith w n)) i)))) true
      = ((f c d i).toInt + 1).natAbs / 2 ^ w := by
  rw [← near_prob h1 ha (f c d) i, ← mulTrunc2_dist hw hl hr a hx hy, PMF.map_comp]
  rfl

/-- The two methods, on the fixed-point configurations: a product of magnitude at most `2^40` fails
with probability below `2^-23` on 64 bits. -/
example (x : BitVec 64) (h : (x.toInt + 1).natAbs ≤ 2 ^ 40) :
    Nat.card {r : BitVec 64 // ¬ Bits.Fits 64 (x.toInt - r.toInt)} ≤ 2 ^ 40 := by
  rw [bad_masks (by decide)]; exact h

/-! ## C14 -/

open Fixed

/-- Multiply two private fixed-point inputs and reveal the product. -/
def mulProg (w n : ℕ) : Prog (fun _ : Bool => Srt.arith w n) [] (.arith w n) :=
  .step (.input false true) <|
  .step (.input true true) <|
  .step (.mul id id (.there .here) .here) <|
  .step (.reveal .here) (.ret .here)

/-- `decodeAby3` on a word: the native integer over the scale. -/
def decodeWord (c : Config) (z : BitVec w) : ℚ := (z.toInt : ℚ) / c.scale

/-- It is `_decode` of the ring element the word stands for. -/
theorem decodeWord_eq (hw : 0 < w) (c : Config) (z : BitVec w) :
    decodeAby3 (native w) c true ((z.toInt : ℤ) : ZMod (native w).modulus) = decodeWord c z := by
  have hr := Bits.toInt_range z
  have r : (native w).rep ((z.toInt : ℤ) : ZMod (native w).modulus) = z.toInt := by
    refine (native w).rep_cast _ hr.1 ?_
    show z.toInt < -2 ^ (w - 1) + ((2 ^ w : ℕ) : ℤ)
    push_cast
    have : (2 : ℤ) ^ w = 2 * 2 ^ (w - 1) := by rw [← pow_succ']; congr 1; omega
    omega
  unfold decodeAby3 Factory.toNative
  rw [r]
  rfl

/-- The error analysis of a rescaled product of encodings. -/
theorem rescaled_error {s : ℕ} (hs : 0 < s) {q1 q2 : ℚ} {e1 e2 e : ℤ} (he : e = 0 ∨ e = 1)
    (a2 : |(e1 : ℚ) - q1 * s| < 1) (b2 : |(e2 : ℚ) - q2 * s| < 1) (b1 : |(e2 : ℚ)| ≤ |q2| * s) :
    |((e1 * e2 / s + e : ℤ) : ℚ) / s - q1 * q2| ≤ (|q1| + |q2| + 1) / s := by
  have hs' : (0 : ℚ) < s := by exact_mod_cast hs
  have hsz : (0 : ℤ) < s := by exact_mod_cast hs
  have herr := Pond.product_error hs' a2 b2 b1
  have hdiv := Int.mul_ediv_add_emod (e1 * e2) s
  have hm0 := Int.emod_nonneg (e1 * e2) hsz.ne'
  have hm1 := Int.emod_lt_of_pos (e1 * e2) hsz
  have hfl : |((e1 * e2 / s + e : ℤ) : ℚ) * s - e1 * e2| ≤ s := by
    have : |(e1 * e2 / s + e) * s - e1 * e2| ≤ (s : ℤ) := by
      rw [abs_le]; rcases he with rfl | rfl <;> constructor <;> nlinarith
    exact_mod_cast this
  have key : |((e1 * e2 / s + e : ℤ) : ℚ) * s - q1 * q2 * s ^ 2| ≤ (|q1| + |q2| + 1) * s := by
    calc _ = |(((e1 * e2 / s + e : ℤ) : ℚ) * s - e1 * e2)
          + ((e1 : ℚ) * e2 - q1 * q2 * s ^ 2)| := by ring_nf
      _ ≤ _ := abs_add_le _ _
      _ ≤ s + (|q1| + |q2|) * s := add_le_add hfl herr
      _ = _ := by ring
  have hfin : ((e1 * e2 / s + e : ℤ) : ℚ) / s - q1 * q2
      = (((e1 * e2 / s + e : ℤ) : ℚ) * s - q1 * q2 * s ^ 2) / s ^ 2 := by
    field_simp
  rw [hfin, abs_div, abs_of_pos (by positivity : (0 : ℚ) < (s : ℚ) ^ 2),
    div_le_div_iff₀ (by positivity) hs']
  calc _ ≤ (|q1| + |q2| + 1) * s * s := by gcongr
    _ = _ := by ring

theorem stands_pub {s : Srt} {v : T s} {sc : Bool} {x : Val s} (h : Stands ⟨v, ⟨false, sc⟩⟩ x) :
    ∃ p, x = ⟨.pub p, sc⟩ ∧ IsPub v p := by
  cases h with
  | pub h => exact ⟨_, rfl, h⟩

/-- **C14, ABY3.** Encoding two vectors of rationals whose product, at double precision, has
magnitude below `2^(w-2)`, sharing, multiplying with the default truncation, revealing and decoding
returns, at each of the three servers and for every draw, each product within
`(|q1| + |q2| + 1) / scale`. -/
theorem aby3_fixed_mul (c : Config) (hb : c.base = 2) (hw : 2 * c.pFrac + 2 ≤ w) {n : ℕ}
    (q1 q2 : Fin n → ℚ) (hq : ∀ i, |q1 i * q2 i| * c.scale ^ 2 < 2 ^ (w - 2)) :
    M.All (fun r => ∃ y : Pub (T (.arith w n)), r = .ok ⟨.pub y, true⟩ ∧ ∀ s i,
        |decodeWord c (y s i) - q1 i * q2 i| ≤ (|q1 i| + |q2 i| + 1) / c.scale)
      ((mulProg w n).run c.pFrac
        (fun j i => BitVec.ofInt w (encode c true ((if j then q2 else q1) i))) .nil) := by
  have hsane : (mulProg w n).Sane := by simp [mulProg, Prog.Sane, Op.Sane]
  refine M.All.mono (program_refines c.pFrac _ (mulProg w n) hsane) ?_
  have hs : (0 : ℚ) < c.scale := by unfold Config.scale; rw [hb]; positivity
  have hsn : 0 < c.scale := by exact_mod_cast hs
  have hfits : ¬ w < c.pFrac + c.pFrac + 2 := by omega
  rintro (er | v) h
  · simp [mulProg, Prog.Clear, Op.flow, Op.rounding, Rounding.Ok, Env.get, hfits] at h
  · obtain ⟨d, hd, hv⟩ := h
    simp only [mulProg, Prog.Clear, Op.flow, Op.rounding, Rounding.Ok, Env.get, Bool.true_or,
      Bool.and_self, decide_false, hfits, Bool.and_false, if_true, Bool.false_eq_true, if_false] at hd
    obtain ⟨_, rfl, _, rfl, z, hz, z', hz', hd⟩ := hd
    have hz' : z' = z := hz'
    simp only [Except.ok.injEq] at hd
    rw [hd] at hv
    obtain ⟨p, rfl, hp⟩ := stands_pub hv
    · refine ⟨p, rfl, fun σ i => ?_⟩
      rw [hp σ, hz']
      obtain ⟨a1, a2, -⟩ := toInt_spec (q1 i * c.scale)
      obtain ⟨b1, b2, -⟩ := toInt_spec (q2 i * c.scale)
      rw [abs_mul, abs_of_pos hs] at a1 b1
      have hE : ∀ q : ℚ, encode c true q = toInt (q * c.scale) := fun q => by simp [encode]
      have hzi : TruncOk .heuristic c.pFrac
          (BitVec.ofInt w (encode c true (q1 i)) * BitVec.ofInt w (encode c true (q2 i))) (z i) := hz i
      rw [hE, hE, ← Bits.ofInt_mul] at hzi
      set e1 := toInt (q1 i * c.scale)
      set e2 := toInt (q2 i * c.scale)
      have hr : |e1 * e2| < 2 ^ (w - 2) := by
        have : ((|e1 * e2| : ℤ) : ℚ) < 2 ^ (w - 2) := by
          push_cast
          rw [abs_mul]
          calc _ ≤ (|q1 i| * c.scale) * (|q2 i| * c.scale) := by gcongr
            _ = |q1 i * q2 i| * c.scale ^ 2 := by rw [abs_mul]; ring
            _ < _ := hq i
        exact_mod_cast this
      have hp2 : (2 : ℤ) ^ (w - 1) = 2 * 2 ^ (w - 2) := by rw [← pow_succ']; congr 1; omega
      obtain ⟨l, u⟩ := abs_lt.1 hr
      have ht : (BitVec.ofInt w (e1 * e2)).toInt = e1 * e2 :=
        Bits.toInt_ofInt (by omega) (by omega) (by omega)
      have hzz := hzi (by rw [ht]; omega) (by rw [ht]; omega)
      have hsc : (c.scale : ℤ) = 2 ^ c.pFrac := by unfold Config.scale; rw [hb]; push_cast; rfl
      obtain ⟨e, he, hze⟩ : ∃ e : ℤ, (e = 0 ∨ e = 1) ∧ (z i).toInt = e1 * e2 / c.scale + e := by
        rw [ht] at hzz
        have hin : ∀ e : ℤ, e = 0 ∨ e = 1 → z i = BitVec.ofInt w (e1 * e2 / 2 ^ c.pFrac + e) →
            (z i).toInt = e1 * e2 / c.scale + e := by
          intro e he h
          rw [hsc, ← ht]
          rw [← ht] at h
          exact toInt_near (by omega) (by rw [ht]; omega) (by rw [ht]; omega) (by omega) h
        rcases hzz with h | h
        · exact ⟨0, .inl rfl, hin 0 (.inl rfl) (by rw [add_zero]; exact h)⟩
        · exact ⟨1, .inr rfl, hin 1 (.inr rfl) h⟩
      show |((z i).toInt : ℚ) / c.scale - _| ≤ _
      rw [hze]
      exact rescaled_error hsn he a2 b2 b1

/-- The library's two ABY3 configurations meet the hypotheses, for instance for products below one
million and sixteen billion. -/
example : fixed64_heuristic.base = 2 ∧ 2 * fixed64_heuristic.pFrac + 2 ≤ 64 ∧
    (|1000 * 1000 / 1000| * fixed64_heuristic.scale ^ 2 < (2 : ℚ) ^ (64 - 2)) ∧
    fixed128_heuristic.base = 2 ∧ 2 * fixed128_heuristic.pFrac + 2 ≤ 128 := by
  norm_num [fixed64_heuristic, fixed128_heuristic, Config.scale]

end Verif.Aby3
