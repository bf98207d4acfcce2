import Verif.Aby3.Log
import Verif.Aby3.InvSqrtLemmas
import Verif.Aby3.NormLemmas

/-!
# Lemmas: the logarithm of a private tensor
-/

namespace Verif.Aby3

open Verif

variable {w n : ℕ} {σ : Fin 3}

attribute [local irreducible] M.Sim

/-- A possible result of `log`: every product is rounded. -/
def ChebVal (frac : ℕ) (x z : BitVec w) : Prop :=
  ∃ x2 x3 x4 x5 y1 y2 y3 y4 y5 : BitVec w,
    TruncOk .heuristic frac (x * x) x2 ∧ TruncOk .heuristic frac (x2 * x) x3 ∧
    TruncOk .heuristic frac (x3 * x) x4 ∧ TruncOk .heuristic frac (x2 * x3) x5 ∧
    TruncOk .heuristic frac (x * constWord w frac (chebCoeffs.getD 1 0)) y1 ∧
    TruncOk .heuristic frac (x2 * constWord w frac (chebCoeffs.getD 2 0)) y2 ∧
    TruncOk .heuristic frac (x3 * constWord w frac (chebCoeffs.getD 3 0)) y3 ∧
    TruncOk .heuristic frac (x4 * constWord w frac (chebCoeffs.getD 4 0)) y4 ∧
    TruncOk .heuristic frac (x5 * constWord w frac (chebCoeffs.getD 5 0)) y5 ∧
    z = y5 + y4 + y3 + y2 + y1 + constWord w frac (chebCoeffs.getD 0 0)

theorem chebRun_sim {frac : ℕ} {plan : Option (BitVec w × BitVec w)} (hp : mulPlan w frac true true = .ok plan)
    {x x' : T (.arith w n)} {X X' : Shares (T (.arith w n))} (hx : Alike σ x x' X X') :
    M.Sim σ (fun o o' => ∃ z z' : T (.arith w n), (∀ i, ChebVal frac (x i) (z i)) ∧
        (∀ i, ChebVal frac (x' i) (z' i)) ∧ Alike σ z z' o o')
      (chebRun frac plan X) (chebRun frac plan X') := by
  unfold chebRun
  refine .bind (mulS_sim hp hx hx) ?_
  rintro X2 X2' ⟨x2, x2', a2, b2, -, h2⟩
  refine .bind (mulS_sim hp h2 hx) ?_
  rintro X3 X3' ⟨x3, x3', a3, b3, -, h3⟩
  refine .bind (mulS_sim hp h3 hx) ?_
  rintro X4 X4' ⟨x4, x4', a4, b4, -, h4⟩
  refine .bind (mulS_sim hp h2 h3) ?_
  rintro X5 X5' ⟨x5, x5', a5, b5, -, h5⟩
  refine .bind (mulConst_sim hp _ hx) ?_
  rintro Y1 Y1' ⟨y1, y1', c1, d1, -, g1⟩
  refine .bind (mulConst_sim hp _ h2) ?_
  rintro Y2 Y2' ⟨y2, y2', c2, d2, -, g2⟩
  refine .bind (mulConst_sim hp _ h3) ?_
  rintro Y3 Y3' ⟨y3, y3', c3, d3, -, g3⟩
  refine .bind (mulConst_sim hp _ h4) ?_
  rintro Y4 Y4' ⟨y4, y4', c4, d4, -, g4⟩
  refine .bind (mulConst_sim hp _ h5) ?_
  rintro Y5 Y5' ⟨y5, y5', c5, d5, -, g5⟩
  have k := ((((g5.add g4).add g3).add g2).add g1).addPub (y := fun _ _ => constWord w frac (chebCoeffs.getD 0 0))
    (y' := fun _ _ => constWord w frac (chebCoeffs.getD 0 0)) (c := fun _ => constWord w frac (chebCoeffs.getD 0 0))
    (fun _ => rfl) (fun _ => rfl)
  refine .pure ⟨_, _, fun i => ?_, fun i => ?_, k⟩
  · exact ⟨x2 i, x3 i, x4 i, x5 i, y1 i, y2 i, y3 i, y4 i, y5 i, a2 i, a3 i, a4 i, a5 i, c1 i, c2 i, c3 i, c4 i, c5 i, rfl⟩
  · exact ⟨x2' i, x3' i, x4' i, x5' i, y1' i, y2' i, y3' i, y4' i, y5' i, b2 i, b3 i, b4 i, b5 i, d1 i, d2 i, d3 i, d4 i,
      d5 i, rfl⟩

theorem logPrivate_sim {frac : ℕ} (hw : frac + frac + 2 ≤ w) :
    ∃ F : Shares (T (.arith w n)) → M (Shares (T (.arith w n))),
      (∀ X, logPrivate frac X .chebyshev = .ok (F X)) ∧
        ∀ {σ : Fin 3} {x x' : T (.arith w n)} {X X' : Shares (T (.arith w n))}, Alike σ x x' X X' →
          M.Sim σ (fun o o' => ∃ z z' : T (.arith w n), (∀ i, ChebVal frac (x i) (z i)) ∧
            (∀ i, ChebVal frac (x' i) (z' i)) ∧ Alike σ z z' o o') (F X) (F X') := by
  obtain ⟨plan, hp⟩ := mulPlan_ok (sx := true) (sy := true) (frac := frac) (w := w) fun _ => hw
  refine ⟨fun X => chebRun frac plan X, fun X => ?_, fun hx => chebRun_sim hp hx⟩
  unfold logPrivate
  rw [hp]

/-- The exponent after the change of base. -/
def AdjustVal (frac : ℕ) (l z : BitVec w) : LogBase → Prop
  | .two => z = l
  | b => TruncOk .heuristic frac (l * constWord w frac b.adjust) z

theorem adjustExp_sim {frac : ℕ} {plan : Option (BitVec w × BitVec w)} (hp : mulPlan w frac true true = .ok plan)
    (base : LogBase) {l l' : T (.arith w n)} {L L' : Shares (T (.arith w n))} (hl : Alike σ l l' L L') :
    M.Sim σ (fun o o' => ∃ z z' : T (.arith w n), (∀ i, AdjustVal frac (l i) (z i) base) ∧
        (∀ i, AdjustVal frac (l' i) (z' i) base) ∧ Alike σ z z' o o')
      (adjustExp frac plan L base) (adjustExp frac plan L' base) := by
  cases base with
  | two => exact .pure ⟨l, l', fun _ => rfl, fun _ => rfl, hl⟩
  | ten =>
    refine (mulConst_sim hp _ hl).mono ?_
    rintro o o' ⟨z, z', a, b, -, h⟩
    exact ⟨z, z', a, b, h⟩
  | e =>
    refine (mulConst_sim hp _ hl).mono ?_
    rintro o o' ⟨z, z', a, b, -, h⟩
    exact ⟨z, z', a, b, h⟩

/-- A possible result of the polynomial. -/
def FpTailVal (frac : ℕ) (base : LogBase) (f l z : BitVec w) : Prop :=
  ∃ a t v, AdjustVal frac l a base ∧
    TruncOk .heuristic frac (f * constWord w frac (fpCoeffs.getD 2 0 * base.adjust)) t ∧
    TruncOk .heuristic frac ((t + constWord w frac (fpCoeffs.getD 1 0 * base.adjust)) * f) v ∧
    z = v + constWord w frac (fpCoeffs.getD 0 0 * base.adjust) + a

theorem fpLogTail_sim {frac : ℕ} {plan : Option (BitVec w × BitVec w)} (hp : mulPlan w frac true true = .ok plan)
    (base : LogBase) {f f' l l' : T (.arith w n)} {F F' L L' : Shares (T (.arith w n))} (hf : Alike σ f f' F F')
    (hl : Alike σ l l' L L') :
    M.Sim σ (fun o o' => ∃ z z' : T (.arith w n), (∀ i, FpTailVal frac base (f i) (l i) (z i)) ∧
        (∀ i, FpTailVal frac base (f' i) (l' i) (z' i)) ∧ Alike σ z z' o o')
      (fpLogTail frac plan base F L) (fpLogTail frac plan base F' L') := by
  unfold fpLogTail
  refine .bind (adjustExp_sim hp base hl) ?_
  rintro A A' ⟨a, a', a1, a2, ha⟩
  refine .bind (mulConst_sim hp _ hf) ?_
  rintro B B' ⟨t, t', t1, t2, -, ht⟩
  have ht := ht.addPub (y := fun _ _ => constWord w frac (fpCoeffs.getD 1 0 * base.adjust))
    (y' := fun _ _ => constWord w frac (fpCoeffs.getD 1 0 * base.adjust))
    (c := fun _ => constWord w frac (fpCoeffs.getD 1 0 * base.adjust)) (fun _ => rfl) (fun _ => rfl)
  refine .bind (mulS_sim hp ht hf) ?_
  rintro V V' ⟨v, v', v1, v2, -, hv⟩
  have hv := (hv.addPub (y := fun _ _ => constWord w frac (fpCoeffs.getD 0 0 * base.adjust))
    (y' := fun _ _ => constWord w frac (fpCoeffs.getD 0 0 * base.adjust))
    (c := fun _ => constWord w frac (fpCoeffs.getD 0 0 * base.adjust)) (fun _ => rfl) (fun _ => rfl)).add ha
  exact .pure ⟨_, _, fun i => ⟨a i, t i, v i, a1 i, t1 i, v1 i, rfl⟩, fun i => ⟨a' i, t' i, v' i, a2 i, t2 i, v2 i, rfl⟩, hv⟩

/-- A possible result of the logarithms of `fp.py`. -/
def FpLogVal (rev : BitVec w → BitVec w) (frac m : ℕ) (base : LogBase) (x z : BitVec w) : Prop :=
  ∃ f, TruncOk .heuristic frac (x * logExpV rev frac m x) f ∧
    FpTailVal frac base f (posV m ((Nat.log 2 w + 1) * 2) x <<< frac - BitVec.ofNat w (frac * 2 ^ frac)) z

theorem fpLog_sim {rev : BitVec w → BitVec w} (hrev : ∀ v, rev v = v.reverse) {frac m : ℕ} (base : LogBase)
    (h0 : 0 < m) (h63 : m ≤ 63) (hm : m ≤ w) (hmf : m < 2 * frac) (hf : 2 * frac + 2 ≤ w)
    (hl : (Nat.log 2 w + 1) * 2 ≤ w) :
    ∃ F : Shares (T (.arith w n)) → M (Shares (T (.arith w n))),
      (∀ X, fpLog rev frac m base X = .ok (F X)) ∧
      ∀ {σ : Fin 3} {x x' : T (.arith w n)} {X X' : Shares (T (.arith w n))}, Alike σ x x' X X' →
        M.Sim σ (fun o o' => ∃ z z' : T (.arith w n), (∀ i, FpLogVal rev frac m base (x i) (z i)) ∧
          (∀ i, FpLogVal rev frac m base (x' i) (z' i)) ∧ Alike σ z z' o o') (F X) (F X') := by
  obtain ⟨plan, hp⟩ := mulPlan_ok (w := w) (frac := frac) (sx := true) (sy := true)
    (fun _ => by omega)
  have ok : ∀ X : Shares (T (.arith w n)), ∃ p, logReduce rev frac m X = .ok p := by
    intro X
    have hb : ∃ b, a2b (some m) X = .ok b := by
      have hc : ¬ Nat.clog 2 w < Nat.clog 2 m := not_lt.2 (Nat.clog_mono_right 2 hm)
      have : ∃ plan, ksPlan w (some m) = .ok plan := by
        simp only [ksPlan, if_neg h0.ne', if_neg hc]
        split
        · rw [if_pos (by omega)]; exact ⟨_, rfl⟩
        · exact ⟨_, rfl⟩
      obtain ⟨plan, hk⟩ := this
      exact ⟨_, by unfold a2b; rw [hk]⟩
    obtain ⟨b, hb⟩ := hb
    exact ⟨logCore rev frac m plan b X, by unfold logReduce; rw [if_pos hmf, hb, hp]⟩
  choose N hN using ok
  refine ⟨fun X => do let r ← N X; fpLogTail frac plan base r.1 r.2, fun X => ?_, ?_⟩
  · unfold fpLog
    rw [hN, hp]
  · intro σ x x' X X' hx
    obtain ⟨p, p', e1, e2, hs⟩ := logReduce_sim hrev h0 h63 hm hmf hf hl hx
    rw [hN] at e1 e2
    cases e1
    cases e2
    refine .bind hs ?_
    rintro r r' ⟨⟨s, s', h1, h2, -, hs⟩, hL⟩
    refine (fpLogTail_sim hp base hs hL).mono ?_
    rintro o o' ⟨z, z', hz, hz', ho⟩
    exact ⟨z, z', fun i => ⟨s i, h1 i, hz i⟩, fun i => ⟨s' i, h2 i, hz' i⟩, ho⟩

end Verif.Aby3
