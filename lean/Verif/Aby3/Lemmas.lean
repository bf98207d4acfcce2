import Verif.Aby3.Spec
import Mathlib.Tactic.Abel
import Mathlib.Algebra.BigOperators.Fin

/-!
# Correctness and indistinguishability of the ABY3 building blocks

Each lemma relates two runs on sharings that look the same to server `σ` (`Alike`): the results
share the right values and again look the same, and `σ` comes to know the same things. Taking the
same run twice gives correctness.
-/

namespace Verif.Aby3

open Verif

variable {s u t : Srt} {σ : Fin 3}

/-! ## Sharings -/

theorem Holds.alike {v : T s} {x : Shares (T s)} (h : Holds v x) (σ : Fin 3) : Alike σ v v x x :=
  ⟨h, h, rfl⟩

theorem fin3_cases (σ i : Fin 3) : i = σ ∨ i = σ + 1 ∨ i = σ + 2 := by
  fin_cases σ <;> fin_cases i <;> simp

theorem fin3_all (σ : Fin 3) : σ = 0 ∨ σ = 1 ∨ σ = 2 := by
  fin_cases σ <;> simp

theorem fin3_sum {A : Type} [AddCommMonoid A] (f : Fin 3 → A) (σ : Fin 3) :
    f 0 + f 1 + f 2 = f σ + f (σ + 1) + f (σ + 2) := by
  fin_cases σ
  · rfl
  · show f 0 + f 1 + f 2 = f 1 + f 2 + f 0; abel
  · show f 0 + f 1 + f 2 = f 2 + f 0 + f 1; abel

theorem fin3_succ2 (σ : Fin 3) : σ + 1 + 1 = σ + 2 := by fin_cases σ <;> rfl
theorem fin3_succ3 (σ : Fin 3) : σ + 2 + 1 = σ := by fin_cases σ <;> rfl
theorem fin3_ne1 (σ : Fin 3) : σ + 1 ≠ σ := by fin_cases σ <;> decide
theorem fin3_ne2 (σ : Fin 3) : σ + 2 ≠ σ := by fin_cases σ <;> decide
theorem fin3_ne12 (σ : Fin 3) : σ + 1 ≠ σ + 2 := by fin_cases σ <;> decide

theorem Holds.sum {v : T s} {x : Shares (T s)} (h : Holds v x) (σ : Fin 3) :
    (x σ).1 + (x σ).2 + (x (σ + 2)).1 = v := by
  rw [h.1 σ, ← fin3_sum (fun i => (x i).1) σ]
  exact h.2

/-- Server `σ`'s pair and the value determine the remaining component. -/
theorem Alike.third {v : T s} {x x' : Shares (T s)} (h : Alike σ v v x x') :
    (x (σ + 2)).1 = (x' (σ + 2)).1 := by
  obtain ⟨h1, h2, h3⟩ := h
  have := (h1.sum σ).trans (h2.sum σ).symm
  rw [h3] at this
  exact add_left_cancel this

theorem Holds.map {f : T s → T t} (hf : ∀ a b, f (a + b) = f a + f b) {v : T s}
    {x : Shares (T s)} (h : Holds v x) : Holds (f v) (x.map f) := by
  refine ⟨fun i => ?_, ?_⟩
  · show f _ = f _; rw [h.1 i]
  · show f _ + f _ + f _ = _; rw [← hf, ← hf, h.2]

theorem Alike.map {f : T s → T t} (hf : ∀ a b, f (a + b) = f a + f b) {v v' : T s}
    {x x' : Shares (T s)} (h : Alike σ v v' x x') :
    Alike σ (f v) (f v') (x.map f) (x'.map f) :=
  ⟨h.1.map hf, h.2.1.map hf, by simp only [Shares.map]; rw [h.2.2]⟩

theorem Holds.map₂ {f : T s → T u → T t}
    (hf : ∀ a b c d, f (a + b) (c + d) = f a c + f b d) {v : T s} {x : Shares (T s)}
    {v₂ : T u} {y : Shares (T u)} (h : Holds v x) (h₂ : Holds v₂ y) :
    Holds (f v v₂) (Shares.map₂ f x y) := by
  refine ⟨fun i => ?_, ?_⟩
  · show f _ _ = f _ _; rw [h.1 i, h₂.1 i]
  · show f _ _ + f _ _ + f _ _ = _; rw [← hf, ← hf, h.2, h₂.2]

theorem Alike.map₂ {f : T s → T u → T t}
    (hf : ∀ a b c d, f (a + b) (c + d) = f a c + f b d) {v v' : T s} {x x' : Shares (T s)}
    {v₂ v₂' : T u} {y y' : Shares (T u)} (h : Alike σ v v' x x') (h₂ : Alike σ v₂ v₂' y y') :
    Alike σ (f v v₂) (f v' v₂') (Shares.map₂ f x y) (Shares.map₂ f x' y') :=
  ⟨h.1.map₂ hf h₂.1, h.2.1.map₂ hf h₂.2.1, by simp only [Shares.map₂]; rw [h.2.2, h₂.2.2]⟩

theorem Alike.add {v v' v₂ v₂' : T s} {x x' y y' : Shares (T s)} (h : Alike σ v v' x x')
    (h₂ : Alike σ v₂ v₂' y y') :
    Alike σ (v + v₂) (v' + v₂') (Shares.map₂ (· + ·) x y) (Shares.map₂ (· + ·) x' y') :=
  h.map₂ (f := (· + ·)) (fun a b c d => by abel) h₂

theorem Alike.sub {v v' v₂ v₂' : T s} {x x' y y' : Shares (T s)} (h : Alike σ v v' x x')
    (h₂ : Alike σ v₂ v₂' y y') :
    Alike σ (v - v₂) (v' - v₂') (Shares.map₂ (· - ·) x y) (Shares.map₂ (· - ·) x' y') :=
  h.map₂ (f := (· - ·)) (fun a b c d => by abel) h₂

theorem Alike.neg {v v' : T s} {x x' : Shares (T s)} (h : Alike σ v v' x x') :
    Alike σ (-v) (-v') (x.map (- ·)) (x'.map (- ·)) :=
  h.map (f := (- ·)) fun a b => by abel

theorem Holds.addPub {v c : T s} {x : Shares (T s)} {y : Pub (T s)} (h : Holds v x)
    (hy : IsPub c y) : Holds (v + c) (addPub x y) := by
  refine ⟨fun i => ?_, ?_⟩
  · fin_cases i
    · exact h.1 0
    · exact h.1 1
    · show (x 2).2 + y 2 = (x 0).1 + y 0
      rw [hy, hy]; congr 1; exact h.1 2
  · show (x 0).1 + y 0 + (x 1).1 + (x 2).1 = _
    rw [hy, ← h.2]; abel

theorem Alike.addPub {v v' c : T s} {x x' : Shares (T s)} {y y' : Pub (T s)}
    (h : Alike σ v v' x x') (hy : IsPub c y) (hy' : IsPub c y') :
    Alike σ (v + c) (v' + c) (addPub x y) (addPub x' y') := by
  refine ⟨h.1.addPub hy, h.2.1.addPub hy', ?_⟩
  have hx := h.2.2
  fin_cases σ
  · show ((x 0).1 + y 0, (x 0).2) = ((x' 0).1 + y' 0, (x' 0).2)
    have : x 0 = x' 0 := hx
    rw [this, hy, hy']
  · exact hx
  · show ((x 2).1, (x 2).2 + y 2) = ((x' 2).1, (x' 2).2 + y' 2)
    have : x 2 = x' 2 := hx
    rw [this, hy, hy']

theorem subPub_eq (x : Shares (T s)) (y : Pub (T s)) : subPub x y = addPub x fun i => -(y i) := by
  funext i; fin_cases i
  · show ((x 0).1 - y 0, (x 0).2) = ((x 0).1 + -(y 0), (x 0).2); rw [sub_eq_add_neg]
  · rfl
  · show ((x 2).1, (x 2).2 - y 2) = ((x 2).1, (x 2).2 + -(y 2)); rw [sub_eq_add_neg]

theorem pubSub_eq (x : Pub (T s)) (y : Shares (T s)) : pubSub x y = addPub (y.map (- ·)) x := by
  funext i; fin_cases i
  · show (x 0 - (y 0).1, -(y 0).2) = (-(y 0).1 + x 0, -(y 0).2); congr 1; abel
  · rfl
  · show (-(y 2).1, x 2 - (y 2).2) = (-(y 2).1, -(y 2).2 + x 2); congr 1; abel

theorem IsPub.neg {c : T s} {y : Pub (T s)} (h : IsPub c y) : IsPub (-c) fun i => -(y i) :=
  fun i => congrArg (- ·) (h i)

theorem Alike.subPub {v v' c : T s} {x x' : Shares (T s)} {y y' : Pub (T s)}
    (h : Alike σ v v' x x') (hy : IsPub c y) (hy' : IsPub c y') :
    Alike σ (v - c) (v' - c) (subPub x y) (subPub x' y') := by
  rw [subPub_eq, subPub_eq, sub_eq_add_neg, sub_eq_add_neg]
  exact h.addPub hy.neg hy'.neg

theorem Alike.pubSub {v v' c : T s} {x x' : Shares (T s)} {y y' : Pub (T s)}
    (h : Alike σ v v' x x') (hy : IsPub c y) (hy' : IsPub c y') :
    Alike σ (c - v) (c - v') (pubSub y x) (pubSub y' x') := by
  rw [pubSub_eq, pubSub_eq, sub_eq_neg_add, sub_eq_neg_add]
  exact h.neg.addPub hy hy'

theorem bool_add_self {w n : ℕ} (c : T (.bool w n)) : c + c = 0 := by
  funext i; exact XBits.ext (BitVec.xor_self)

theorem Holds.xorPub {w n : ℕ} {v c : T (.bool w n)} {x : Shares (T (.bool w n))}
    {y : Pub (T (.bool w n))} (h : Holds v x) (hy : IsPub c y) : Holds (v + c) (xorPub x y) := by
  refine ⟨fun i => ?_, ?_⟩
  · show (x i).2 + y i = (x (i + 1)).1 + y (i + 1); rw [hy, hy, h.1 i]
  · show (x 0).1 + y 0 + ((x 1).1 + y 1) + ((x 2).1 + y 2) = _
    rw [hy, hy, hy, ← h.2]
    have : (x 0).1 + c + ((x 1).1 + c) + ((x 2).1 + c)
        = (x 0).1 + (x 1).1 + (x 2).1 + c + (c + c) := by abel
    rw [this, bool_add_self, add_zero]

theorem Alike.xorPub {w n : ℕ} {v v' c : T (.bool w n)} {x x' : Shares (T (.bool w n))}
    {y y' : Pub (T (.bool w n))} (h : Alike σ v v' x x') (hy : IsPub c y) (hy' : IsPub c y') :
    Alike σ (v + c) (v' + c) (xorPub x y) (xorPub x' y') :=
  ⟨h.1.xorPub hy, h.2.1.xorPub hy', by simp only [Aby3.xorPub]; rw [h.2.2, hy, hy']⟩

theorem Alike.bilinPub {f : T s → T u → T t} (hf : ∀ a b c, f (a + b) c = f a c + f b c)
    {v v' : T s} {c : T u} {x x' : Shares (T s)} {y y' : Pub (T u)} (h : Alike σ v v' x x')
    (hy : IsPub c y) (hy' : IsPub c y') :
    Alike σ (f v c) (f v' c) (bilinPub f x y) (bilinPub f x' y') := by
  have e : ∀ (x : Shares (T s)) (y : Pub (T u)), IsPub c y →
      Aby3.bilinPub f x y = x.map (fun a => f a c) := by
    intro x y hy; funext i; simp only [Aby3.bilinPub, Shares.map]; rw [hy]
  rw [e x y hy, e x' y' hy']
  exact h.map (f := fun a => f a c) fun a b => hf a b c

theorem Alike.pubBilin {f : T s → T u → T t} (hf : ∀ a b c, f c (a + b) = f c a + f c b)
    {v v' : T u} {c : T s} {x x' : Shares (T u)} {y y' : Pub (T s)} (h : Alike σ v v' x x')
    (hy : IsPub c y) (hy' : IsPub c y') :
    Alike σ (f c v) (f c v') (pubBilin f y x) (pubBilin f y' x') := by
  have e : ∀ (x : Shares (T u)) (y : Pub (T s)), IsPub c y →
      Aby3.pubBilin f y x = x.map (fun a => f c a) := by
    intro x y hy; funext i; simp only [Aby3.pubBilin, Shares.map]; rw [hy]
  rw [e x y hy, e x' y' hy']
  exact h.map (f := fun a => f c a) fun a b => hf a b c

/-- All ones, the constant flipped in by `not`. -/
def ones (w n : ℕ) : T (.bool w n) := fun _ => ⟨BitVec.allOnes w⟩

theorem blift_not {w n : ℕ} (x : T (.bool w n)) : blift (~~~ ·) x = x + ones w n := by
  funext i; exact XBits.ext (by simp [blift, ones])

theorem bnot_eq {w n : ℕ} (x : Shares (T (.bool w n))) : bnot x = addPub x fun _ => ones w n := by
  funext i; fin_cases i
  · show (blift (~~~ ·) (x 0).1, (x 0).2) = _; rw [blift_not]; rfl
  · rfl
  · show ((x 2).1, blift (~~~ ·) (x 2).2) = _; rw [blift_not]; rfl

theorem Alike.bnot {w n : ℕ} {v v' : T (.bool w n)} {x x' : Shares (T (.bool w n))}
    (h : Alike σ v v' x x') : Alike σ (blift (~~~ ·) v) (blift (~~~ ·) v') (bnot x) (bnot x') := by
  rw [bnot_eq, bnot_eq, blift_not, blift_not]
  exact h.addPub (fun _ => rfl) fun _ => rfl

/-! ## Sharing, revealing -/

theorem share_sim (v v' : T s) (σ : Fin 3) :
    M.Sim σ (Alike σ v v') (share v) (share v') := by
  have holds : ∀ v a b : T s, Holds v ![(a, b), (b, v - a - b), (v - a - b, a)] := by
    intro v a b
    refine ⟨fun i => by fin_cases i <;> rfl, ?_⟩
    show a + b + (v - a - b) = v
    abel
  have e : ∀ v : T s, share v = RandM.sample s fun a => RandM.sample s fun b =>
      RandM.pure (![(a, b), (b, v - a - b), (v - a - b, a)],
        [⟨0, s, a⟩, ⟨0, s, b⟩, ⟨1, s, b⟩, ⟨1, s, v - a - b⟩, ⟨2, s, v - a - b⟩, ⟨2, s, a⟩]) :=
    fun v => rfl
  rw [e v, e v']
  fin_cases σ
  · refine .sample (Equiv.refl _) fun a => .sample (Equiv.refl _) fun b => .pure ⟨?_, ?_⟩
    · exact ⟨holds v a b, holds v' a b, rfl⟩
    · rfl
  · refine .sample (Equiv.addRight (v' - v)) fun a => .sample (Equiv.refl _) fun b =>
      .pure ⟨⟨holds v a b, holds v' _ b, ?_⟩, ?_⟩ <;>
      have : v' - (a + (v' - v)) - b = v - a - b := by abel
    · show (b, v - a - b) = (b, v' - (a + (v' - v)) - b); rw [this]
    · show [_, _] = [_, _]
      show [(⟨1, s, b⟩ : Msg), ⟨1, s, v - a - b⟩] = [⟨1, s, b⟩, ⟨1, s, v' - (a + (v' - v)) - b⟩]
      rw [this]
  · refine .sample (Equiv.refl _) fun a => .sample (Equiv.addRight (v' - v)) fun b =>
      .pure ⟨⟨holds v a b, holds v' a _, ?_⟩, ?_⟩ <;>
      have : v' - a - (b + (v' - v)) = v - a - b := by abel
    · show (v - a - b, a) = (v' - a - (b + (v' - v)), a); rw [this]
    · show [(⟨2, s, v - a - b⟩ : Msg), ⟨2, s, a⟩] = [⟨2, s, v' - a - (b + (v' - v))⟩, ⟨2, s, a⟩]
      rw [this]

theorem Holds.reconstruct {v : T s} {x : Shares (T s)} (h : Holds v x) (p : Option (Fin 3)) :
    reconstruct x p = v := by
  match p with
  | none => exact h.2
  | some 0 => exact h.sum 0
  | some 1 => exact h.sum 1
  | some 2 => exact h.sum 2

theorem reveal_holds {v : T s} {x : Shares (T s)} (h : Holds v x) :
    M.All (IsPub v) (reveal x) := fun i => h.reconstruct (some i)

/-- Revealing tells `σ` nothing beyond the value. -/
theorem reveal_sim {v : T s} {x x' : Shares (T s)} (h : Alike σ v v x x') :
    M.Sim σ (fun y y' => IsPub v y ∧ IsPub v y') (reveal x) (reveal x') := by
  have h3 := h.third
  unfold reveal
  refine .tell_bind ?_ (.tell_bind ?_ (.tell_bind ?_ (.pure ⟨?_, ?_⟩)))
  · rintro rfl; exact h3
  · rintro rfl; exact h3
  · rintro rfl; exact h3
  · exact fun i => h.1.reconstruct (some i)
  · exact fun i => h.2.1.reconstruct (some i)

/-! ## Correlated draws and re-sharing -/

/-- The draw `σ` cannot compute may be permuted, depending on the two it can. -/
theorem pairwise_sim (e : T s → T s → (T s ≃ T s)) :
    M.Sim σ (fun f f' => f' σ = f σ ∧ f' (σ + 1) = f (σ + 1) ∧
      f' (σ + 2) = e (f σ) (f (σ + 1)) (f (σ + 2))) (pairwise s) (pairwise s) := by
  have eq : pairwise s = RandM.sample s fun a => RandM.sample s fun b => RandM.sample s fun c =>
      RandM.pure (![a, b, c],
        [⟨0, s, a⟩, ⟨0, s, b⟩, ⟨1, s, b⟩, ⟨1, s, c⟩, ⟨2, s, c⟩, ⟨2, s, a⟩]) := rfl
  rw [eq]
  fin_cases σ
  · refine .sample (Equiv.refl _) fun a => .sample (Equiv.refl _) fun b =>
      .sample (e a b) fun c => .pure ⟨⟨rfl, rfl, rfl⟩, rfl⟩
  · -- the unseen draw is the first one
    refine .swapL (.swapR (.sample (Equiv.refl _) fun b => .swapL (.swapR
      (.sample (Equiv.refl _) fun c => .sample (e b c) fun a => .pure ⟨⟨rfl, rfl, rfl⟩, rfl⟩))))
  · -- the unseen draw is the second one
    refine .sample (Equiv.refl _) fun a => .swapL (.swapR
      (.sample (Equiv.refl _) fun c => .sample (e c a) fun b => .pure ⟨⟨rfl, rfl, rfl⟩, rfl⟩))

theorem zeroSharing_sum : M.All (fun a => a 0 + a 1 + a 2 = 0) (zeroSharing s) := by
  intro a b c
  show a - b + (b - c) + (c - a) = 0
  abel

/-- The zero share of server `σ + 1` may be shifted between the two runs. -/
theorem zeroSharing_sim (d : T s) :
    M.Sim σ (fun a a' => a' σ = a σ ∧ a' (σ + 1) = a (σ + 1) + d ∧
      a' (σ + 2) = a (σ + 2) - d) (zeroSharing s) (zeroSharing s) := by
  unfold zeroSharing
  refine .bind (pairwise_sim fun _ _ => Equiv.subRight d) fun f f' ⟨h1, h2, h3⟩ => .pure ?_
  rw [Equiv.subRight_apply] at h3
  simp only [fin3_succ2, fin3_succ3, h1, h2, h3]
  refine ⟨trivial, ?_, ?_⟩ <;> abel

theorem zeroSharing_sim_sum (d : T s) :
    M.Sim σ (fun a a' => (a' σ = a σ ∧ a' (σ + 1) = a (σ + 1) + d ∧
      a' (σ + 2) = a (σ + 2) - d) ∧ a 0 + a 1 + a 2 = 0 ∧ a' 0 + a' 1 + a' 2 = 0)
      (zeroSharing s) (zeroSharing s) :=
  (zeroSharing_sim d).and_all zeroSharing_sum zeroSharing_sum

theorem reshare_holds {zs : Srt} {bc : T zs → T t} (hb : ∀ a b, bc (a + b) = bc a + bc b)
    (hb0 : bc 0 = 0) (parts : Fin 3 → T t) :
    M.All (Holds (parts 0 + parts 1 + parts 2)) (reshare bc parts) := by
  unfold reshare
  rw [M.all_bind]
  refine zeroSharing_sum.mono fun a ha => ?_
  refine ⟨fun i => rfl, ?_⟩
  show parts 0 + bc (a 0) + (parts 1 + bc (a 1)) + (parts 2 + bc (a 2)) = _
  have : bc (a 0) + bc (a 1) + bc (a 2) = 0 := by rw [← hb, ← hb, ha, hb0]
  calc _ = parts 0 + parts 1 + parts 2 + (bc (a 0) + bc (a 1) + bc (a 2)) := by abel
    _ = _ := by rw [this, add_zero]

theorem reshare_sim {zs : Srt} {bc : T zs → T t} (hb : ∀ a b, bc (a + b) = bc a + bc b)
    (hs : Function.Surjective bc) {parts parts' : Fin 3 → T t} (hσ : parts σ = parts' σ) :
    M.Sim σ (Alike σ (parts 0 + parts 1 + parts 2) (parts' 0 + parts' 1 + parts' 2))
      (reshare bc parts) (reshare bc parts') := by
  have hb0 : bc 0 = 0 := by
    have := hb 0 0
    rw [add_zero] at this
    exact left_eq_add.1 this
  have hbneg : ∀ a b, bc (a - b) = bc a - bc b := by
    intro a b
    rw [eq_sub_iff_add_eq, ← hb, sub_add_cancel]
  obtain ⟨d, hd⟩ := hs (parts (σ + 1) - parts' (σ + 1))
  have key : M.Sim σ (fun x x' => x σ = x' σ) (reshare bc parts) (reshare bc parts') := by
    unfold reshare
    refine .bind (zeroSharing_sim d) fun a a' ⟨h1, h2, h3⟩ => ?_
    have z0 : parts σ + bc (a σ) = parts' σ + bc (a' σ) := by rw [hσ, h1]
    have z1 : parts (σ + 1) + bc (a (σ + 1)) = parts' (σ + 1) + bc (a' (σ + 1)) := by
      rw [h2, hb, hd]; abel
    refine .tell_bind ?_ (.tell_bind ?_ (.tell_bind ?_ (.pure ?_)))
    · rintro rfl; exact z1
    · rintro rfl; exact z1
    · rintro rfl; exact z1
    · exact Prod.ext z0 z1
  refine (key.and_all (reshare_holds hb hb0 parts) (reshare_holds hb hb0 parts')).mono ?_
  exact fun x x' ⟨h, h1, h2⟩ => ⟨h1, h2, h⟩

/-- The local products of the three servers add up to the product. -/
theorem bilin_parts {f : T s → T u → T t} (hl : ∀ a b c, f (a + b) c = f a c + f b c)
    (hr : ∀ a b c, f c (a + b) = f c a + f c b) {v : T s} {v₂ : T u} {x : Shares (T s)}
    {y : Shares (T u)} (h : Holds v x) (h₂ : Holds v₂ y) :
    (fun i : Fin 3 => f (x i).1 (y i).1 + f (x i).1 (y i).2 + f (x i).2 (y i).1) 0 +
      (fun i : Fin 3 => f (x i).1 (y i).1 + f (x i).1 (y i).2 + f (x i).2 (y i).1) 1 +
      (fun i : Fin 3 => f (x i).1 (y i).1 + f (x i).1 (y i).2 + f (x i).2 (y i).1) 2 = f v v₂ := by
  have e0 : (x 0).2 = (x 1).1 := h.1 0
  have e1 : (x 1).2 = (x 2).1 := h.1 1
  have e2 : (x 2).2 = (x 0).1 := h.1 2
  have g0 : (y 0).2 = (y 1).1 := h₂.1 0
  have g1 : (y 1).2 = (y 2).1 := h₂.1 1
  have g2 : (y 2).2 = (y 0).1 := h₂.1 2
  rw [← h.2, ← h₂.2]
  simp only [hl, hr, e0, e1, e2, g0, g1, g2]
  abel

theorem bilin_holds {zs : Srt} {f : T s → T u → T t} {bc : T zs → T t}
    (hl : ∀ a b c, f (a + b) c = f a c + f b c) (hr : ∀ a b c, f c (a + b) = f c a + f c b)
    (hb : ∀ a b, bc (a + b) = bc a + bc b) (hb0 : bc 0 = 0) {v : T s} {v₂ : T u}
    {x : Shares (T s)} {y : Shares (T u)} (h : Holds v x) (h₂ : Holds v₂ y) :
    M.All (Holds (f v v₂)) (bilin f bc x y) := by
  rw [← bilin_parts hl hr h h₂]
  exact reshare_holds hb hb0 _

theorem bilin_sim {zs : Srt} {f : T s → T u → T t} {bc : T zs → T t}
    (hl : ∀ a b c, f (a + b) c = f a c + f b c) (hr : ∀ a b c, f c (a + b) = f c a + f c b)
    (hb : ∀ a b, bc (a + b) = bc a + bc b) (hs : Function.Surjective bc)
    {v v' : T s} {v₂ v₂' : T u} {x x' : Shares (T s)} {y y' : Shares (T u)}
    (h : Alike σ v v' x x') (h₂ : Alike σ v₂ v₂' y y') :
    M.Sim σ (Alike σ (f v v₂) (f v' v₂')) (bilin f bc x y) (bilin f bc x' y') := by
  rw [← bilin_parts hl hr h.1 h₂.1, ← bilin_parts hl hr h.2.1 h₂.2.1]
  refine reshare_sim (parts := fun i => f (x i).1 (y i).1 + f (x i).1 (y i).2 + f (x i).2 (y i).1)
    (parts' := fun i => f (x' i).1 (y' i).1 + f (x' i).1 (y' i).2 + f (x' i).2 (y' i).1) hb hs ?_
  simp only [h.2.2, h₂.2.2]

theorem and_xor_left {w : ℕ} (a b c : BitVec w) : (a ^^^ b) &&& c = (a &&& c) ^^^ (b &&& c) := by
  ext j hj
  simp only [BitVec.getElem_xor, BitVec.getElem_and]
  cases a[j] <;> cases b[j] <;> cases c[j] <;> rfl

theorem and_xor_right {w : ℕ} (a b c : BitVec w) : c &&& (a ^^^ b) = (c &&& a) ^^^ (c &&& b) := by
  ext j hj
  simp only [BitVec.getElem_xor, BitVec.getElem_and]
  cases a[j] <;> cases b[j] <;> cases c[j] <;> rfl

theorem band_add_left {w n : ℕ} (a b c : T (.bool w n)) :
    band (a + b) c = band a c + band b c := by
  funext i; exact XBits.ext (and_xor_left _ _ _)

theorem band_add_right {w n : ℕ} (a b c : T (.bool w n)) :
    band c (a + b) = band c a + band c b := by
  funext i; exact XBits.ext (and_xor_right _ _ _)

theorem band2_sim {w n : ℕ} {v v' v₂ v₂' : T (.bool w n)} {x x' y y' : Shares (T (.bool w n))}
    (h : Alike σ v v' x x') (h₂ : Alike σ v₂ v₂' y y') :
    M.Sim σ (Alike σ (band v v₂) (band v' v₂')) (band2 x y) (band2 x' y') :=
  bilin_sim band_add_left band_add_right (fun _ _ => rfl) Function.surjective_id h h₂

/-- Elementwise disjunction. -/
def bor {w n : ℕ} (x y : T (.bool w n)) : T (.bool w n) :=
  fun i => ⟨(x i).bits ||| (y i).bits⟩

theorem bor_eq {w n : ℕ} (x y : T (.bool w n)) : x + y + band x y = bor x y := by
  funext i
  refine XBits.ext ?_
  show ((x i).bits ^^^ (y i).bits) ^^^ ((x i).bits &&& (y i).bits) = (x i).bits ||| (y i).bits
  ext j hj
  simp only [BitVec.getElem_xor, BitVec.getElem_and, BitVec.getElem_or]
  cases (x i).bits[j] <;> cases (y i).bits[j] <;> rfl

theorem bor2_sim {w n : ℕ} {v v' v₂ v₂' : T (.bool w n)} {x x' y y' : Shares (T (.bool w n))}
    (h : Alike σ v v' x x') (h₂ : Alike σ v₂ v₂' y y') :
    M.Sim σ (Alike σ (bor v v₂) (bor v' v₂')) (bor2 x y) (bor2 x' y') := by
  unfold bor2
  refine .bind (band2_sim h h₂) fun z z' hz => .pure ?_
  rw [← bor_eq, ← bor_eq]
  exact (h.add h₂).add hz

theorem randomSharing_sim (d : T s) :
    M.Sim σ (fun x x' => ∃ v, Alike σ v (v + d) x x') (randomSharing s) (randomSharing s) := by
  unfold randomSharing
  refine .bind (pairwise_sim fun _ _ => Equiv.addRight d) fun f f' ⟨h1, h2, h3⟩ => .pure ?_
  have h3' : f' (σ + 2) = f (σ + 2) + d := h3
  refine ⟨f 0 + f 1 + f 2, ⟨fun i => rfl, rfl⟩, ⟨fun i => rfl, ?_⟩, ?_⟩
  · show f' 0 + f' 1 + f' 2 = _
    rw [fin3_sum f' σ, fin3_sum f σ, h1, h2, h3']; abel
  · exact Prod.ext h1.symm h2.symm

end Verif.Aby3
