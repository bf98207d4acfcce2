import Verif.Aby3.Recip
import Verif.Aby3.NormLemmas
import Verif.Aby3.ExpLemmas

/-!
# Both runs of the reciprocal

What the reciprocal computes on words, up to the rounding of each product, and that the two runs look
alike to any one server.
-/

namespace Verif.Aby3

open Verif

variable {w n : ℕ} {σ : Fin 3}

attribute [local irreducible] M.All M.Sim

/-- The words of the first approximation. -/
def initV (frac : ℕ) (s : BitVec w) : BitVec w :=
  constWord w frac (29281928 / 10000000) - BitVec.ofNat w 2 * s

theorem recipInit_alike {frac : ℕ} {s s' : T (.arith w n)} {S S' : Shares (T (.arith w n))}
    (h : Alike σ s s' S S') :
    Alike σ (fun i => initV frac (s i) : T (.arith w n)) (fun i => initV frac (s' i) : T (.arith w n))
      (recipInit frac S) (recipInit frac S') := by
  unfold recipInit
  have h1 := h.pubBilin (u := .arith w n) (s := .arith w n) (t := .arith w n) (f := fun u v => emul id id u v)
    (fun a b c => by rw [map_add]) (c := fun _ => BitVec.ofNat w 2) (y := fun _ _ => BitVec.ofNat w 2)
    (y' := fun _ _ => BitVec.ofNat w 2) (fun _ => rfl) (fun _ => rfl)
  exact h1.pubSub (y := fun _ _ => constWord w frac (29281928 / 10000000))
    (y' := fun _ _ => constWord w frac (29281928 / 10000000))
    (c := fun _ => constWord w frac (29281928 / 10000000)) (fun _ => rfl) (fun _ => rfl)

/-- One round on words: the four products are rounded. -/
def StepVal (frac : ℕ) (x y z : BitVec w) : Prop :=
  ∃ t r2 a d : BitVec w, TruncOk .heuristic frac (x * y) t ∧
    TruncOk .heuristic frac ((constWord w frac 1 - t) * (constWord w frac 1 - t)) r2 ∧
    TruncOk .heuristic frac (y * (r2 + constWord w frac 1)) a ∧
    TruncOk .heuristic frac (a * ((constWord w frac 1 - t) + r2)) d ∧ z = y + d

theorem recipStep_sim {frac : ℕ} {plan : Option (BitVec w × BitVec w)}
    (hp : mulPlan w frac true true = .ok plan) {x x' y y' : T (.arith w n)}
    {X X' Y Y' : Shares (T (.arith w n))} (hx : Alike σ x x' X X') (hy : Alike σ y y' Y Y') :
    M.Sim σ (fun o o' => ∃ z z' : T (.arith w n), (∀ i, StepVal frac (x i) (y i) (z i)) ∧
        (∀ i, StepVal frac (x' i) (y' i) (z' i)) ∧ Alike σ z z' o o')
      (recipStep frac plan X Y) (recipStep frac plan X' Y') := by
  unfold recipStep
  refine .bind (mulS_sim hp hx hy) ?_
  rintro T T' ⟨t, t', ht, ht', -, hT⟩
  have hres := hT.pubSub (y := fun _ _ => constWord w frac 1) (y' := fun _ _ => constWord w frac 1)
    (c := fun _ => constWord w frac 1) (fun _ => rfl) (fun _ => rfl)
  refine .bind (mulS_sim hp hres hres) ?_
  rintro R R' ⟨r, r', hr, hr', -, hR⟩
  have hone := hR.addPub (y := fun _ _ => constWord w frac 1) (y' := fun _ _ => constWord w frac 1)
    (c := fun _ => constWord w frac 1) (fun _ => rfl) (fun _ => rfl)
  refine .bind (mulS_sim hp hy hone) ?_
  rintro A A' ⟨a, a', ha, ha', -, hA⟩
  refine .bind (mulS_sim hp hA (hres.add hR)) ?_
  rintro D D' ⟨d, d', hd, hd', -, hD⟩
  refine .pure ⟨y + d, y' + d', fun i => ?_, fun i => ?_, hy.add hD⟩
  · exact ⟨t i, r i, a i, d i, ht i, hr i, ha i, hd i, rfl⟩
  · exact ⟨t' i, r' i, a' i, d' i, ht' i, hr' i, ha' i, hd' i, rfl⟩

/-- `k` rounds on words. -/
def IterVal (frac : ℕ) (x : BitVec w) : ℕ → BitVec w → BitVec w → Prop
  | 0, y, z => z = y
  | k + 1, y, z => ∃ v, StepVal frac x y v ∧ IterVal frac x k v z

theorem recipLoop_sim {frac : ℕ} {plan : Option (BitVec w × BitVec w)}
    (hp : mulPlan w frac true true = .ok plan) {x x' : T (.arith w n)}
    {X X' : Shares (T (.arith w n))} (hx : Alike σ x x' X X') (k : ℕ) :
    ∀ {y y' : T (.arith w n)} {Y Y' : Shares (T (.arith w n))}, Alike σ y y' Y Y' →
      M.Sim σ (fun o o' => ∃ z z' : T (.arith w n), (∀ i, IterVal frac (x i) k (y i) (z i)) ∧
          (∀ i, IterVal frac (x' i) k (y' i) (z' i)) ∧ Alike σ z z' o o')
        (recipLoop frac plan X k Y) (recipLoop frac plan X' k Y') := by
  induction k with
  | zero =>
    intro y y' Y Y' hy
    exact .pure ⟨y, y', fun _ => rfl, fun _ => rfl, hy⟩
  | succ k ih =>
    intro y y' Y Y' hy
    simp only [recipLoop]
    refine .bind (recipStep_sim hp hx hy) ?_
    rintro V V' ⟨v, v', hv, hv', hV⟩
    refine (ih hV).mono ?_
    rintro o o' ⟨z, z', hz, hz', ho⟩
    exact ⟨z, z', fun i => ⟨v i, hv i, hz i⟩, fun i => ⟨v' i, hv' i, hz' i⟩, ho⟩

/-- The words of the result from the significand `s` and the scale `e`. -/
def RecipVal (frac prec : ℕ) (x s e z : BitVec w) : Prop :=
  ∃ y, TruncOk .heuristic frac (initV frac s * e) y ∧ IterVal frac x prec y z

theorem recipTail_sim {frac prec : ℕ} {plan : Option (BitVec w × BitVec w)}
    (hp : mulPlan w frac true true = .ok plan) {x x' s s' e e' : T (.arith w n)}
    {X X' S S' E E' : Shares (T (.arith w n))} (hx : Alike σ x x' X X') (hs : Alike σ s s' S S')
    (he : Alike σ e e' E E') :
    M.Sim σ (fun o o' => ∃ z z' : T (.arith w n), (∀ i, RecipVal frac prec (x i) (s i) (e i) (z i)) ∧
        (∀ i, RecipVal frac prec (x' i) (s' i) (e' i) (z' i)) ∧ Alike σ z z' o o')
      (recipTail frac prec plan X S E) (recipTail frac prec plan X' S' E') := by
  unfold recipTail
  refine .bind (mulS_sim hp (recipInit_alike hs) he) ?_
  rintro Y Y' ⟨y, y', hy, hy', -, hY⟩
  refine (recipLoop_sim hp hx prec hY).mono ?_
  rintro o o' ⟨z, z', hz, hz', ho⟩
  exact ⟨z, z', fun i => ⟨y i, hy i, hz i⟩, fun i => ⟨y' i, hy' i, hz' i⟩, ho⟩

/-- A possible result for positive numbers. -/
def RecipPosVal (rev : BitVec w → BitVec w) (frac m prec : ℕ) (x z : BitVec w) : Prop :=
  ∃ s, TruncOk .heuristic frac (x * expV rev frac m x) s ∧
    RecipVal frac prec x s (expV rev frac m x) z

theorem recipPos_sim {rev : BitVec w → BitVec w} (hrev : ∀ v, rev v = v.reverse) {frac m : ℕ} (prec : ℕ)
    (h0 : 0 < m) (h63 : m ≤ 63) (hm : m ≤ w) (hmf : m < 2 * frac) (hf : 2 * frac + 2 ≤ w) :
    ∃ F : Shares (T (.arith w n)) → M (Shares (T (.arith w n))),
      (∀ X, recipPos rev frac m prec X = .ok (F X)) ∧
      ∀ {σ : Fin 3} {x x' : T (.arith w n)} {X X' : Shares (T (.arith w n))}, Alike σ x x' X X' →
        M.Sim σ (fun o o' => ∃ z z' : T (.arith w n), (∀ i, RecipPosVal rev frac m prec (x i) (z i)) ∧
          (∀ i, RecipPosVal rev frac m prec (x' i) (z' i)) ∧ Alike σ z z' o o') (F X) (F X') := by
  obtain ⟨plan, hp⟩ := mulPlan_ok (w := w) (frac := frac) (sx := true) (sy := true)
    (fun _ => by omega)
  have ok : ∀ X : Shares (T (.arith w n)), ∃ p, normalizePos rev frac m X = .ok p := by
    intro X
    have hb : ∃ b, a2b (some m) X = .ok b := by
      have hc : ¬ Nat.clog 2 w < Nat.clog 2 m := not_lt.2 (Nat.clog_mono_right 2 hm)
      have : ∃ plan, ksPlan w (some m) = .ok plan := by
        simp only [ksPlan, if_neg h0.ne', if_neg hc]
        split
        · rw [if_pos (by omega)]; exact ⟨_, rfl⟩
        · exact ⟨_, rfl⟩
      obtain ⟨plan, hk⟩ := this
      exact ⟨_, by unfold a2b; rw [hk]⟩
    obtain ⟨b, hb⟩ := hb
    exact ⟨normCore rev frac m plan b X, by unfold normalizePos; rw [if_pos hmf, hb, hp]⟩
  choose N hN using ok
  refine ⟨fun X => do let r ← N X; recipTail frac prec plan X r.1 r.2, fun X => ?_, ?_⟩
  · unfold recipPos
    rw [hN, hp]
  · intro σ x x' X X' hx
    obtain ⟨p, p', e1, e2, hs⟩ := normalizePos_sim hrev h0 h63 hm hmf hf hx
    rw [hN] at e1 e2
    cases e1
    cases e2
    refine .bind hs ?_
    rintro r r' ⟨he, s, s', h1, h2, -, hs⟩
    refine (recipTail_sim hp hx hs he).mono ?_
    rintro o o' ⟨z, z', hz, hz', ho⟩
    exact ⟨z, z', fun i => ⟨s i, h1 i, hz i⟩, fun i => ⟨s' i, h2 i, hz' i⟩, ho⟩

/-- A possible result for numbers of either sign: `b` is the rounded absolute value, `e` the scale
with the sign. -/
def RecipSignedVal (rev : BitVec w → BitVec w) (frac m prec : ℕ) (x z : BitVec w) : Prop :=
  ∃ b s e, TruncOk .heuristic frac (signV frac m x * x) b ∧
    TruncOk .heuristic frac (b * expV rev frac m b) s ∧
    TruncOk .heuristic frac (signV frac m x * expV rev frac m b) e ∧ RecipVal frac prec x s e z

theorem recip_sim {rev : BitVec w → BitVec w} (hrev : ∀ v, rev v = v.reverse) {frac m : ℕ} (prec : ℕ)
    (h0 : 0 < m) (h63 : m ≤ 63) (hm : m < w) (hcl : 2 ^ Nat.clog 2 m ≤ w) (hmf : m < 2 * frac)
    (hf : 2 * frac + 2 ≤ w) :
    ∃ F : Shares (T (.arith w n)) → M (Except Err (Shares (T (.arith w n)))),
      (∀ X, recip rev frac m prec X = .ok (F X)) ∧
      ∀ {σ : Fin 3} {x x' : T (.arith w n)} {X X' : Shares (T (.arith w n))}, Alike σ x x' X X' →
        M.Sim σ (fun o o' => ∃ O O', o = .ok O ∧ o' = .ok O' ∧ ∃ z z' : T (.arith w n),
          (∀ i, RecipSignedVal rev frac m prec (x i) (z i)) ∧
          (∀ i, RecipSignedVal rev frac m prec (x' i) (z' i)) ∧ Alike σ z z' O O') (F X) (F X') := by
  obtain ⟨plan, hp⟩ := mulPlan_ok (w := w) (frac := frac) (sx := true) (sy := true)
    (fun _ => by omega)
  have ok : ∀ X : Shares (T (.arith w n)), ∃ p, normalize rev frac m X = .ok p := by
    intro X
    have hb : ∃ b, bitExtract m X = .ok b := by
      obtain ⟨i, rfl⟩ := Nat.exists_eq_succ_of_ne_zero h0.ne'
      exact ⟨_, rfl⟩
    obtain ⟨b, hb⟩ := hb
    exact ⟨normalizeRun rev frac m plan b (a2b (some m)) X, by unfold normalize; rw [if_pos hmf, hb, hp]⟩
  choose N hN using ok
  refine ⟨fun X => do let r ← N X; recipCont frac prec plan X r, fun X => ?_, ?_⟩
  · unfold recip
    rw [hN, hp]
  · intro σ x x' X X' hx
    obtain ⟨p, p', e1, e2, hs⟩ := normalize_sim hrev h0 h63 hm hcl hmf hf hx
    rw [hN] at e1 e2
    cases e1
    cases e2
    refine .bind hs ?_
    rintro q q' ⟨r, r', rfl, rfl, b, b', hb, hb', -, ⟨s, s', h1, h2, -, hs⟩, ⟨e, e', h3, h4, -, he⟩⟩
    simp only [recipCont]
    refine .bind (recipTail_sim hp hx hs he) ?_
    rintro o o' ⟨z, z', hz, hz', ho⟩
    exact .pure ⟨o, o', rfl, rfl, z, z', fun i => ⟨b i, s i, e i, hb i, h1 i, h3 i, hz i⟩,
      fun i => ⟨b' i, s' i, e' i, hb' i, h2 i, h4 i, hz' i⟩, ho⟩

end Verif.Aby3
