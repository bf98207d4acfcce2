import Verif.Aby3.Exp19
import Verif.Aby3.RecipLemmas
import Verif.Aby3.NatExpLemmas

/-!
# Lemmas: powers with `approx_type="as2019"`
-/

namespace Verif.Aby3

open Verif

variable {w n : ℕ} {σ : Fin 3}

attribute [local irreducible] M.Sim

/-- The absolute value. -/
def absWord (x : T (.arith w n)) : T (.arith w n) := fun i => if (x i).msb then -x i else x i

/-- A possible value of `exp2`: `g` is the power of the absolute value, `y` its reciprocal. -/
def Exp2AsVal (rev : BitVec w → BitVec w) (frac m : ℕ) (x z : T (.arith w n)) : Prop :=
  ∃ g y : T (.arith w n), Exp2Val frac .pos (absWord x) g ∧
    (∀ i, RecipSignedVal rev frac m 1 (g i) (y i)) ∧ z = fun i => if (x i).msb then y i else g i

/-- The five bits do not depend on the mask. -/
theorem bitRows_unmasked {frac : ℕ} (hf : 5 ≤ w) (x : T (.bool w n)) :
    bitRows 5 (blift (· &&& BitVec.ofNat w (2 ^ 5 - 1)) (blift (· >>> frac) x)) =
      bitRows 5 (blift (· >>> frac) x) := by
  funext m
  refine XBits.ext ?_
  show BitVec.ofBool ((((x (finProdFinEquiv.symm m).1).bits >>> frac) &&&
      BitVec.ofNat w (2 ^ 5 - 1)).getLsbD (finProdFinEquiv.symm m).2.1) =
    BitVec.ofBool (((x (finProdFinEquiv.symm m).1).bits >>> frac).getLsbD (finProdFinEquiv.symm m).2.1)
  have hj := (finProdFinEquiv.symm m).2.2
  rw [BitVec.getLsbD_and, mask_bit (by omega)]
  simp only [hj, decide_true, Bool.and_true]

theorem exp2Val_pos {frac : ℕ} {x u : T (.arith w n)} (hu : PadeVal frac (fracWord frac x) u) :
    Exp2Val frac .pos x (expWord frac x u) :=
  ⟨u, fun i => BitVec.ofInt w ((expWord frac x u i).toInt / 2 ^ 2 ^ 5), hu, fun _ _ _ => .inl rfl, rfl⟩

/-- The condition of all the lemmas: the truncations, the normalisation and the bit decomposition are
defined. -/
structure AsReady (e frac m : ℕ) : Prop where
  he : 0 < e
  he7 : e ≤ 7
  deg : padeDegree frac ≠ 0
  fits : 2 * frac + 2 ≤ 2 ^ e
  fits5 : frac + 5 ≤ 2 ^ e
  m0 : 0 < m
  m63 : m ≤ 63
  mw : m < 2 ^ e
  clog : 2 ^ Nat.clog 2 m ≤ 2 ^ e
  mf : m < 2 * frac

theorem exp2As_sim {e frac m : ℕ} (r : AsReady e frac m) {rev : BitVec (2 ^ e) → BitVec (2 ^ e)}
    (hrev : ∀ v, rev v = v.reverse) :
    ∃ F : Shares (T (.arith (2 ^ e) n)) → M (Except Err (Shares (T (.arith (2 ^ e) n)))),
      (∀ X, exp2As rev frac m X = .ok (F X)) ∧
        ∀ {σ : Fin 3} {x x' : T (.arith (2 ^ e) n)} {X X' : Shares (T (.arith (2 ^ e) n))},
          Alike σ x x' X X' →
          M.Sim σ (fun o o' => ∃ O O', o = .ok O ∧ o' = .ok O' ∧ ∃ z z', Exp2AsVal rev frac m x z ∧
            Exp2AsVal rev frac m x' z' ∧ Alike σ z z' O O') (F X) (F X') := by
  have h128 : 2 ^ e ≤ 128 := by
    calc 2 ^ e ≤ 2 ^ 7 := Nat.pow_le_pow_right (by omega) r.he7
      _ = 128 := rfl
  have hfit := r.fits
  have hfit5 := r.fits5
  obtain ⟨plan, hp⟩ := mulPlan_ok (sx := true) (sy := true) (frac := frac) (w := 2 ^ e) fun _ => by omega
  obtain ⟨R, hR, hrs⟩ := recip_sim (n := n) hrev (frac := frac) (m := m) 1 r.m0 r.m63 r.mw r.clog r.mf (by omega)
  refine ⟨fun X => do
      let s ← msb (subPub X fun _ _ => 0)
      let p ← selectA s (.priv X) (.priv (X.map (- ·)))
      as19Bits rev frac m plan s p, fun X => ?_, ?_⟩
  · unfold exp2As
    rw [if_neg r.deg, hp]
  · intro σ x x' X X' hx
    have ho := msb_sim r.he (hx.subPub (s := .arith (2 ^ e) n) (c := fun _ => 0)
      (y := fun _ _ => 0) (y' := fun _ _ => 0) (fun _ => rfl) fun _ => rfl)
    have e0 : ∀ x : T (.arith (2 ^ e) n), (x - fun _ => 0 : T (.arith (2 ^ e) n)) = x := fun x => by
      funext i
      exact sub_zero (x i)
    rw [e0, e0] at ho
    refine M.Sim.bind ho fun s s' hs => ?_
    have h1 := selectA_sim hs (.priv hx) (.priv hx.neg)
    rw [pick_sign, pick_sign] at h1
    refine M.Sim.bind h1 fun P P' hP => ?_
    change Alike σ (absWord x) (absWord x') P P' at hP
    obtain ⟨b, b', hb1, hb2, hb⟩ := a2b_none_sim h128 hP
    unfold as19Bits
    rw [hb1, hb2]
    unfold as19Run
    refine M.Sim.bind hb fun B B' hB => ?_
    have h1 := (hB.bshr frac).map (bitRows_add 5)
    rw [← bitRows_unmasked (by omega), ← bitRows_unmasked (by omega)] at h1
    refine M.Sim.bind (pow2_sim (by omega) h1) fun D D' hD => ?_
    simp only [intBits_eq (show frac + 5 ≤ 2 ^ e by omega)] at hD
    have h2 := b2aBits_sim (hB.andConst (BitVec.ofNat (2 ^ e) (2 ^ frac - 1))) frac (by omega)
    rw [fracWord_eq (by omega), fracWord_eq (by omega)] at h2
    refine M.Sim.bind h2 fun F F' hF => ?_
    refine M.Sim.bind (padeRun_sim hp hF) ?_
    rintro U U' ⟨u, u', hu, hu', hU⟩
    refine M.Sim.bind (mulBody_sim hU hD) fun G G' hG => ?_
    unfold as19Choose
    rw [hR, hR]
    refine M.Sim.bind (hrs hG) ?_
    rintro q q' ⟨Y, Y', rfl, rfl, y, y', hy, hy', hY⟩
    unfold as19Select
    have h3 := selectA_sim hs (.priv hG) (.priv hY)
    rw [pick_sign, pick_sign] at h3
    refine M.Sim.bind h3 fun O O' hO => .pure ?_
    exact ⟨O, O', rfl, rfl, _, _, ⟨_, y, exp2Val_pos hu, hy, rfl⟩, ⟨_, y', exp2Val_pos hu', hy', rfl⟩, hO⟩

/-- A possible value of `exp`. -/
def ExpAsVal (rev : BitVec w → BitVec w) (frac m : ℕ) (x z : T (.arith w n)) : Prop :=
  ∃ a : T (.arith w n), (∀ i, TruncOk .heuristic frac (x i * constWord w frac log2e) (a i)) ∧
    Exp2AsVal rev frac m a z

theorem expAs_sim {e frac m : ℕ} (r : AsReady e frac m) {rev : BitVec (2 ^ e) → BitVec (2 ^ e)}
    (hrev : ∀ v, rev v = v.reverse) :
    ∃ F : Shares (T (.arith (2 ^ e) n)) → M (Except Err (Shares (T (.arith (2 ^ e) n)))),
      (∀ X, expAs rev frac m X = .ok (F X)) ∧
        ∀ {σ : Fin 3} {x x' : T (.arith (2 ^ e) n)} {X X' : Shares (T (.arith (2 ^ e) n))},
          Alike σ x x' X X' →
          M.Sim σ (fun o o' => ∃ O O', o = .ok O ∧ o' = .ok O' ∧ ∃ z z', ExpAsVal rev frac m x z ∧
            ExpAsVal rev frac m x' z' ∧ Alike σ z z' O O') (F X) (F X') := by
  have hfit := r.fits
  obtain ⟨plan, hp⟩ := mulPlan_ok (sx := true) (sy := true) (frac := frac) (w := 2 ^ e) fun _ => by omega
  obtain ⟨F, hF, hs⟩ := exp2As_sim (n := n) r hrev
  refine ⟨fun X => mulConst frac plan log2e X >>= expAsCont rev frac m, fun X => ?_, ?_⟩
  · unfold expAs
    rw [hp]
  · intro σ x x' X X' hx
    refine .bind (mulConst_sim hp _ hx) ?_
    rintro A A' ⟨a, a', ha, ha', -, hA⟩
    simp only [expAsCont, hF]
    refine (hs hA).mono ?_
    rintro o o' ⟨O, O', rfl, rfl, z, z', hz, hz', ho⟩
    exact ⟨O, O', rfl, rfl, z, z', ⟨a, ha, hz⟩, ⟨a', ha', hz'⟩, ho⟩

end Verif.Aby3
