import Verif.Aby3.InvSqrt
import Verif.Aby3.NormLemmas
import Verif.Aby3.ExpLemmas

/-!
# Both runs of the inverse square root
-/

namespace Verif.Aby3

open Verif

variable {w n : ℕ} {σ : Fin 3}

attribute [local irreducible] M.All M.Sim

theorem mulConst_sim {frac : ℕ} {plan : Option (BitVec w × BitVec w)}
    (hp : mulPlan w frac true true = .ok plan) (q : ℚ) {x x' : T (.arith w n)}
    {X X' : Shares (T (.arith w n))} (hx : Alike σ x x' X X') :
    M.Sim σ (Rounded σ (mulRounding frac true true) (fun i => x i * constWord w frac q : T (.arith w n))
      (fun i => x' i * constWord w frac q : T (.arith w n))) (mulConst frac plan q X)
      (mulConst frac plan q X') := by
  have key := hx.bilinPub (u := .arith w n) (t := .arith w n) (f := fun u v => emul id id u v)
    (fun a b c => by rw [map_add]; rfl) (c := fun _ => constWord w frac q)
    (y := fun _ _ => constWord w frac q) (y' := fun _ _ => constWord w frac q)
    (fun _ => rfl) (fun _ => rfl)
  exact mulRound_sim hp key

/-- The first approximation on words. -/
def RsInitVal (frac : ℕ) (b z : BitVec w) : Prop :=
  ∃ t v, TruncOk .heuristic frac (b * constWord w frac (47979 / 10000)) t ∧
    TruncOk .heuristic frac ((t - constWord w frac (59417 / 10000)) * b) v ∧
    z = v + constWord w frac (31855 / 10000)

theorem rsInit_sim {frac : ℕ} {plan : Option (BitVec w × BitVec w)}
    (hp : mulPlan w frac true true = .ok plan) {b b' : T (.arith w n)}
    {B B' : Shares (T (.arith w n))} (hb : Alike σ b b' B B') :
    M.Sim σ (fun o o' => ∃ z z' : T (.arith w n), (∀ i, RsInitVal frac (b i) (z i)) ∧
        (∀ i, RsInitVal frac (b' i) (z' i)) ∧ Alike σ z z' o o')
      (rsInit frac plan B) (rsInit frac plan B') := by
  unfold rsInit
  refine .bind (mulConst_sim hp _ hb) ?_
  rintro T T' ⟨t, t', ht, ht', -, hT⟩
  have h1 := hT.subPub (y := fun _ _ => constWord w frac (59417 / 10000))
    (y' := fun _ _ => constWord w frac (59417 / 10000))
    (c := fun _ => constWord w frac (59417 / 10000)) (fun _ => rfl) (fun _ => rfl)
  refine .bind (mulS_sim hp h1 hb) ?_
  rintro V V' ⟨v, v', hv, hv', -, hV⟩
  have h2 := hV.addPub (y := fun _ _ => constWord w frac (31855 / 10000))
    (y' := fun _ _ => constWord w frac (31855 / 10000))
    (c := fun _ => constWord w frac (31855 / 10000)) (fun _ => rfl) (fun _ => rfl)
  exact .pure ⟨_, _, fun i => ⟨t i, v i, ht i, hv i, rfl⟩, fun i => ⟨t' i, v' i, ht' i, hv' i, rfl⟩, h2⟩

/-- One round on words. -/
def RsStepVal (frac : ℕ) (b y z : BitVec w) : Prop :=
  ∃ t r p, TruncOk .heuristic frac (b * y) t ∧ TruncOk .heuristic frac (t * y) r ∧
    TruncOk .heuristic frac (y * (constWord w frac 3 - r)) p ∧
    TruncOk .heuristic 1 p z

theorem rsStep_sim {frac : ℕ} {plan : Option (BitVec w × BitVec w)}
    (hp : mulPlan w frac true true = .ok plan) (h3 : frac + 1 + 2 ≤ w)
    {half : BitVec w × BitVec w} (hh : heurPlan w frac 1 = .ok half) {b b' y y' : T (.arith w n)}
    {B B' Y Y' : Shares (T (.arith w n))} (hb : Alike σ b b' B B') (hy : Alike σ y y' Y Y') :
    M.Sim σ (fun o o' => ∃ z z' : T (.arith w n), (∀ i, RsStepVal frac (b i) (y i) (z i)) ∧
        (∀ i, RsStepVal frac (b' i) (y' i) (z' i)) ∧ Alike σ z z' o o')
      (rsStep frac plan half B Y) (rsStep frac plan half B' Y') := by
  unfold rsStep
  refine .bind (mulS_sim hp hb hy) ?_
  rintro T T' ⟨t, t', ht, ht', -, hT⟩
  refine .bind (mulS_sim hp hT hy) ?_
  rintro R R' ⟨r, r', hr, hr', -, hR⟩
  have h1 := hR.pubSub (y := fun _ _ => constWord w frac 3) (y' := fun _ _ => constWord w frac 3)
    (c := fun _ => constWord w frac 3) (fun _ => rfl) (fun _ => rfl)
  refine .bind (mulS_sim hp hy h1) ?_
  rintro P P' ⟨p, p', hp1, hp1', -, hP⟩
  refine (heurRun_round h3 hh hP).mono ?_
  rintro o o' ⟨z, z', hz, hz', -, ho⟩
  exact ⟨z, z', fun i => ⟨t i, r i, p i, ht i, hr i, hp1 i, hz i⟩,
    fun i => ⟨t' i, r' i, p' i, ht' i, hr' i, hp1' i, hz' i⟩, ho⟩

/-- `k` rounds on words. -/
def RsIterVal (frac : ℕ) (b : BitVec w) : ℕ → BitVec w → BitVec w → Prop
  | 0, y, z => z = y
  | k + 1, y, z => ∃ v, RsStepVal frac b y v ∧ RsIterVal frac b k v z

theorem rsLoop_sim {frac : ℕ} {plan : Option (BitVec w × BitVec w)}
    (hp : mulPlan w frac true true = .ok plan) (h3 : frac + 1 + 2 ≤ w)
    {half : BitVec w × BitVec w} (hh : heurPlan w frac 1 = .ok half) {b b' : T (.arith w n)}
    {B B' : Shares (T (.arith w n))} (hb : Alike σ b b' B B') (k : ℕ) :
    ∀ {y y' : T (.arith w n)} {Y Y' : Shares (T (.arith w n))}, Alike σ y y' Y Y' →
      M.Sim σ (fun o o' => ∃ z z' : T (.arith w n), (∀ i, RsIterVal frac (b i) k (y i) (z i)) ∧
          (∀ i, RsIterVal frac (b' i) k (y' i) (z' i)) ∧ Alike σ z z' o o')
        (rsLoop frac plan half B k Y) (rsLoop frac plan half B' k Y') := by
  induction k with
  | zero =>
    intro y y' Y Y' hy
    exact .pure ⟨y, y', fun _ => rfl, fun _ => rfl, hy⟩
  | succ k ih =>
    intro y y' Y Y' hy
    simp only [rsLoop]
    refine .bind (rsStep_sim hp h3 hh hb hy) ?_
    rintro V V' ⟨v, v', hv, hv', hV⟩
    refine (ih hV).mono ?_
    rintro o o' ⟨z, z', hz, hz', ho⟩
    exact ⟨z, z', fun i => ⟨v i, hv i, hz i⟩, fun i => ⟨v' i, hv' i, hz' i⟩, ho⟩

/-- The word that `select` gives. -/
def selectWord (w frac : ℕ) (x y : ℚ) (bit : Bool) : BitVec w :=
  (if bit then constWord w frac (x - y) else 0) + constWord w frac y

theorem rsSelect_sim {frac : ℕ} (x y : ℚ) {v v' : Fin n → Bool} {B B' : Shares (T (.bool 1 n))}
    (hb : Alike σ (fun i => ⟨BitVec.ofBool (v i)⟩ : T (.bool 1 n))
      (fun i => ⟨BitVec.ofBool (v' i)⟩ : T (.bool 1 n)) B B') :
    M.Sim σ (Alike σ (fun i => selectWord w frac x y (v i) : T (.arith w n))
        (fun i => selectWord w frac x y (v' i) : T (.arith w n)))
      (rsSelect frac x y B) (rsSelect frac x y B') := by
  unfold rsSelect
  refine .bind (mulAbPub_sim (c := fun _ => constWord w frac (x - y)) (fun _ => rfl) (fun _ => rfl) hb)
    fun t t' ht => ?_
  have h1 := ht.addPub (y := fun _ _ => constWord w frac y) (y' := fun _ _ => constWord w frac y)
    (c := fun _ => constWord w frac y) (fun _ => rfl) (fun _ => rfl)
  have e : ∀ u : Fin n → Bool, (gate (fun i => ⟨BitVec.ofBool (u i)⟩ : T (.bool 1 n))
      (fun _ => constWord w frac (x - y)) + (fun _ => constWord w frac y) : T (.arith w n)) =
      fun i => selectWord w frac x y (u i) := by
    intro u
    funext i
    show (if BitVec.ofBool (u i) = 1#1 then constWord w frac (x - y) else 0) + constWord w frac y = _
    unfold selectWord
    cases u i <;> rfl
  rw [e, e] at h1
  exact .pure h1

/-- The words of the result from the reduced value `b`, the power of two `e` and the parity. -/
def RsTailVal (frac s prec : ℕ) (b e : BitVec w) (bit : Bool) (z : BitVec w) : Prop :=
  ∃ y0 y g, RsInitVal frac b y0 ∧ RsIterVal frac b prec y0 y ∧
    TruncOk .heuristic frac (e * selectWord w frac (rsFactors frac s).1 (rsFactors frac s).2 bit) g ∧
    TruncOk .heuristic frac (y * g) z

theorem rsTail_sim {frac s prec : ℕ} {plan : Option (BitVec w × BitVec w)}
    (hp : mulPlan w frac true true = .ok plan) (h3 : frac + 1 + 2 ≤ w)
    {half : BitVec w × BitVec w} (hh : heurPlan w frac 1 = .ok half) {b b' e e' : T (.arith w n)} {v v' : Fin n → Bool}
    {B B' E E' : Shares (T (.arith w n))} {V V' : Shares (T (.bool 1 n))}
    (hb : Alike σ b b' B B') (he : Alike σ e e' E E')
    (hv : Alike σ (fun i => ⟨BitVec.ofBool (v i)⟩ : T (.bool 1 n))
      (fun i => ⟨BitVec.ofBool (v' i)⟩ : T (.bool 1 n)) V V') :
    M.Sim σ (fun o o' => ∃ z z' : T (.arith w n),
        (∀ i, RsTailVal frac s prec (b i) (e i) (v i) (z i)) ∧
        (∀ i, RsTailVal frac s prec (b' i) (e' i) (v' i) (z' i)) ∧ Alike σ z z' o o')
      (rsTail frac s prec plan half B E V) (rsTail frac s prec plan half B' E' V') := by
  unfold rsTail
  refine .bind (rsInit_sim hp hb) ?_
  rintro Y Y' ⟨y0, y0', h0, h0', hY⟩
  refine .bind (rsLoop_sim hp h3 hh hb prec hY) ?_
  rintro Z Z' ⟨y, y', h1, h1', hZ⟩
  refine .bind (rsSelect_sim (rsFactors frac s).1 (rsFactors frac s).2 hv) fun f f' hf => ?_
  refine .bind (mulS_sim hp he hf) ?_
  rintro G G' ⟨g, g', h2, h2', -, hG⟩
  refine (mulS_sim hp hZ hG).mono ?_
  rintro o o' ⟨z, z', h3, h3', -, ho⟩
  exact ⟨z, z', fun i => ⟨y0 i, y i, g i, h0 i, h1 i, h2 i, h3 i⟩,
    fun i => ⟨y0' i, y' i, g' i, h0' i, h1' i, h2' i, h3' i⟩, ho⟩

/-- The power of two before the correction. -/
def sqrtE (rev : BitVec w → BitVec w) (frac s : ℕ) (x : BitVec w) : BitVec w :=
  lowBits (frac + s) (Bits.gather 0 2 (rev (sqrtZ s x) ||| (rev (sqrtZ s x)).sshiftRight 1))

/-- A possible result. -/
def InvSqrtVal (rev : BitVec w → BitVec w) (frac prec : ℕ) (x z : BitVec w) : Prop :=
  ∃ b, TruncOk .heuristic (frac + (w / 2 - frac)) (rev (sqrtZ (w / 2 - frac) x) * x) b ∧
    RsTailVal frac (w / 2 - frac) prec b (sqrtE rev frac (w / 2 - frac) x)
      ((Bits.xorIndices (sqrtZ (w / 2 - frac) x)).getLsbD 0) z

theorem invSqrt_sim {rev : BitVec w → BitVec w} (hrev : ∀ v, rev v = v.reverse) {frac : ℕ} (prec : ℕ)
    (hw : 0 < w) (h128 : w ≤ 128) (heven : w % 2 = 0) (hf : w / 2 ≤ 2 * frac) (hf2 : frac + 2 ≤ w / 2) :
    ∃ F : Shares (T (.arith w n)) → M (Shares (T (.arith w n))),
      (∀ X, invSqrt rev frac prec X = .ok (F X)) ∧
      ∀ {σ : Fin 3} {x x' : T (.arith w n)} {X X' : Shares (T (.arith w n))}, Alike σ x x' X X' →
        M.Sim σ (fun o o' => ∃ z z' : T (.arith w n), (∀ i, InvSqrtVal rev frac prec (x i) (z i)) ∧
          (∀ i, InvSqrtVal rev frac prec (x' i) (z' i)) ∧ Alike σ z z' o o') (F X) (F X') := by
  obtain ⟨plan, hp⟩ := mulPlan_ok (w := w) (frac := frac) (sx := true) (sy := true)
    (fun _ => by omega)
  obtain ⟨half, hh⟩ : ∃ half, heurPlan w frac 1 = .ok half := ⟨_, heurPlan_ok (by omega)⟩
  have ok : ∀ X : Shares (T (.arith w n)), ∃ p, sqrtReduce rev frac X = .ok p := by
    intro X
    obtain ⟨b, hb⟩ : ∃ b, a2b (some w) (X.map (alift (· <<< (w / 2 - frac)))) = .ok b := by
      rw [a2b_full hw]
      exact ⟨_, rfl⟩
    have hle : frac + (frac + (w / 2 - frac)) + 2 ≤ w := by omega
    exact ⟨_, by
      unfold sqrtReduce
      simp only [show w / 2 - frac ≤ frac ∧ w % 2 = 0 from ⟨by omega, heven⟩, hb, heurPlan_ok hle, and_self,
        if_true]
      rfl⟩
  choose N hN using ok
  refine ⟨fun X => do let r ← N X; rsTail frac (w / 2 - frac) prec plan half r.1 r.2.1 r.2.2, fun X => ?_, ?_⟩
  · unfold invSqrt
    rw [hN, hp, hh]
  · intro σ x x' X X' hx
    obtain ⟨p, p', e1, e2, hs⟩ := sqrtReduce_sim hrev hw h128 heven hf hf2 hx
    rw [hN] at e1 e2
    cases e1
    cases e2
    refine .bind hs ?_
    rintro r r' ⟨⟨b, b', hb, hb', -, hB⟩, he, hv⟩
    refine (rsTail_sim hp (by omega) hh hB he hv).mono ?_
    rintro o o' ⟨z, z', hz, hz', ho⟩
    exact ⟨z, z', fun i => ⟨b i, hb i, hz i⟩, fun i => ⟨b' i, hb' i, hz' i⟩, ho⟩

end Verif.Aby3
