import Verif.Aby3.NatExp
import Verif.Aby3.InvSqrtLemmas
import Verif.Aby3.ExpLemmas

/-!
# Lemmas: the exponential of a private tensor
-/

namespace Verif.Aby3

open Verif

variable {w n : ℕ} {σ : Fin 3}

attribute [local irreducible] M.Sim

/-- A possible result: the product with the constant is rounded, and `exp2` of that. -/
def NatExpVal (frac : ℕ) (sign : SignArg) (x z : T (.arith w n)) : Prop :=
  ∃ a : T (.arith w n), (∀ i, TruncOk .heuristic frac (x i * constWord w frac log2e) (a i)) ∧
    Exp2Val frac sign a z

theorem natExp_sim {e : ℕ} (he : 0 < e) (he7 : e ≤ 7) {frac : ℕ} (hd : padeDegree frac ≠ 0)
    (hw : frac + frac + 2 ≤ 2 ^ e) (hw32 : frac + 2 ^ 5 + 2 ≤ 2 ^ e) (sign : SignArg) :
    ∃ F : Shares (T (.arith (2 ^ e) n)) → M (Except Err (Shares (T (.arith (2 ^ e) n)))),
      (∀ X, natExp frac sign X = .ok (F X)) ∧
        ∀ {σ : Fin 3} {x x' : T (.arith (2 ^ e) n)} {X X' : Shares (T (.arith (2 ^ e) n))},
          Alike σ x x' X X' →
          M.Sim σ (fun o o' => ∃ O O', o = .ok O ∧ o' = .ok O' ∧ ∃ z z', NatExpVal frac sign x z ∧
            NatExpVal frac sign x' z' ∧ Alike σ z z' O O') (F X) (F X') := by
  obtain ⟨plan, hp⟩ := mulPlan_ok (sx := true) (sy := true) (frac := frac) (w := 2 ^ e) fun _ => hw
  obtain ⟨F, hF, hs⟩ := exp2_sim (n := n) he he7 hd hw hw32 sign
  refine ⟨fun X => mulConst frac plan log2e X >>= expCont frac sign, fun X => ?_, ?_⟩
  · unfold natExp
    rw [hp]
  · intro σ x x' X X' hx
    refine .bind (mulConst_sim hp _ hx) ?_
    rintro A A' ⟨a, a', ha, ha', -, hA⟩
    simp only [expCont, hF]
    refine .bind (hs hA) ?_
    rintro o o' ⟨z, z', hz, hz', ho⟩
    exact .pure ⟨o, o', rfl, rfl, z, z', ⟨a, ha, hz⟩, ⟨a', ha', hz'⟩, ho⟩

/-- `k` squarings on words. -/
def SquaresVal (frac : ℕ) : ℕ → BitVec w → BitVec w → Prop
  | 0, a, z => z = a
  | k + 1, a, z => ∃ b, TruncOk .heuristic frac (a * a) b ∧ SquaresVal frac k b z

theorem squares_sim {frac : ℕ} {plan : Option (BitVec w × BitVec w)}
    (hp : mulPlan w frac true true = .ok plan) (k : ℕ) :
    ∀ {a a' : T (.arith w n)} {A A' : Shares (T (.arith w n))}, Alike σ a a' A A' →
      M.Sim σ (fun o o' => ∃ z z' : T (.arith w n), (∀ i, SquaresVal frac k (a i) (z i)) ∧
          (∀ i, SquaresVal frac k (a' i) (z' i)) ∧ Alike σ z z' o o')
        (squares frac plan k A) (squares frac plan k A') := by
  induction k with
  | zero =>
    intro a a' A A' h
    exact .pure ⟨a, a', fun _ => rfl, fun _ => rfl, h⟩
  | succ k ih =>
    intro a a' A A' h
    simp only [squares]
    refine .bind (mulS_sim hp h h) ?_
    rintro B B' ⟨b, b', hb, hb', -, hB⟩
    refine (ih hB).mono ?_
    rintro o o' ⟨z, z', hz, hz', ho⟩
    exact ⟨z, z', fun i => ⟨b i, hb i, hz i⟩, fun i => ⟨b' i, hb' i, hz' i⟩, ho⟩

/-- A possible result of `approx_type="infinity"`. -/
def ExpInfVal (frac : ℕ) (x z : BitVec w) : Prop :=
  ∃ t, TruncOk .heuristic 7 x t ∧ SquaresVal frac 7 (t + constWord w frac 1) z

theorem expInf_sim {frac : ℕ} (hw : frac + frac + 2 ≤ w) (h9 : frac + 7 + 2 ≤ w) :
    ∃ F : Shares (T (.arith w n)) → M (Shares (T (.arith w n))),
      (∀ X, expInf frac X = .ok (F X)) ∧
        ∀ {σ : Fin 3} {x x' : T (.arith w n)} {X X' : Shares (T (.arith w n))}, Alike σ x x' X X' →
          M.Sim σ (fun o o' => ∃ z z' : T (.arith w n), (∀ i, ExpInfVal frac (x i) (z i)) ∧
            (∀ i, ExpInfVal frac (x' i) (z' i)) ∧ Alike σ z z' o o') (F X) (F X') := by
  obtain ⟨plan, hp⟩ := mulPlan_ok (sx := true) (sy := true) (frac := frac) (w := w) fun _ => hw
  obtain ⟨p, hq⟩ : ∃ p, heurPlan w frac 7 = .ok p := ⟨_, heurPlan_ok h9⟩
  refine ⟨fun X => do
    let t ← heurRun p.1 p.2 7 X
    squares frac plan 7 (addPub t fun _ _ => constWord w frac 1), fun X => ?_, ?_⟩
  · unfold expInf
    rw [hp, hq]
  · intro σ x x' X X' hx
    refine .bind (heurRun_round h9 hq hx) ?_
    rintro S S' ⟨t, t', ht, ht', -, hT⟩
    have h1 := hT.addPub (y := fun _ _ => constWord w frac 1) (y' := fun _ _ => constWord w frac 1)
      (c := fun _ => constWord w frac 1) (fun _ => rfl) (fun _ => rfl)
    refine (squares_sim hp 7 h1).mono ?_
    rintro o o' ⟨z, z', hz, hz', ho⟩
    exact ⟨z, z', fun i => ⟨t i, ht i, hz i⟩, fun i => ⟨t' i, ht' i, hz' i⟩, ho⟩

end Verif.Aby3
