import Mathlib.Probability.ProbabilityMassFunction.Constructions
import Mathlib.Probability.Distributions.Uniform
import Mathlib.Data.ZMod.Basic
import Mathlib.Tactic.Abel

/-!
# Randomised computations

Every place where tf-encrypted draws randomness (`sample_uniform`, `sample_seeded_uniform`,
dealer masks, zero sharings, `random.random() < 0.5`) becomes a `sample` or `coin` node of a
finite decision tree.

* Correctness ("for every mask") is `RandM.All`: the property holds at every leaf.
* Secrecy ("with uniform masks") is equality of the `PMF` obtained by drawing each node
  uniformly and independently.

The samplers are idealised here: a node is an independent uniform draw from the whole ring.
How far the real samplers are from that is the subject of C18, C19, C20 and C33.
-/

namespace Verif

/-- A randomised computation; `T s` is the set of ring tensors of shape `s`. -/
inductive RandM {S : Type} (T : S → Type) (α : Type) : Type
  /-- no more randomness -/
  | pure (a : α) : RandM T α
  /-- draw a uniform element of `T s` -/
  | sample (s : S) (k : T s → RandM T α) : RandM T α
  /-- draw a fair bit (`random.random() < 0.5`) -/
  | coin (k : Bool → RandM T α) : RandM T α

namespace RandM

variable {S : Type} {T : S → Type} {α β γ : Type}

/-- Sequencing. -/
def bind : RandM T α → (α → RandM T β) → RandM T β
  | .pure a, f => f a
  | .sample s k, f => .sample s fun t => (k t).bind f
  | .coin k, f => .coin fun b => (k b).bind f

instance : Monad (RandM T) where
  pure := .pure
  bind := .bind

/-- A single uniform draw. -/
def draw (s : S) : RandM T (T s) := .sample s .pure

/-- A single fair bit. -/
def flip : RandM T Bool := .coin .pure

/-- `P` holds whatever is drawn. -/
def All (P : α → Prop) : RandM T α → Prop
  | .pure a => P a
  | .sample _ k => ∀ t, All P (k t)
  | .coin k => ∀ b, All P (k b)

@[simp] theorem bind_eq (m : RandM T α) (f : α → RandM T β) : (m >>= f) = m.bind f := rfl
@[simp] theorem pure_eq (a : α) : (Pure.pure a : RandM T α) = .pure a := rfl
@[simp] theorem bind_pure (a : α) (f : α → RandM T β) : (RandM.pure a).bind f = f a := rfl
@[simp] theorem bind_sample (s : S) (k : T s → RandM T α) (f : α → RandM T β) :
    (RandM.sample s k).bind f = .sample s fun t => (k t).bind f := rfl
@[simp] theorem bind_coin (k : Bool → RandM T α) (f : α → RandM T β) :
    (RandM.coin k).bind f = .coin fun t => (k t).bind f := rfl
@[simp] theorem draw_bind (s : S) (f : T s → RandM T β) : (draw s).bind f = .sample s f := rfl
@[simp] theorem flip_bind (f : Bool → RandM T β) : (flip).bind f = .coin f := rfl
@[simp] theorem all_pure (P : α → Prop) (a : α) : All P (.pure a : RandM T α) ↔ P a := Iff.rfl
@[simp] theorem all_sample (P : α → Prop) (s : S) (k : T s → RandM T α) :
    All P (.sample s k) ↔ ∀ t, All P (k t) := Iff.rfl
@[simp] theorem all_coin (P : α → Prop) (k : Bool → RandM T α) :
    All P (.coin k) ↔ ∀ t, All P (k t) := Iff.rfl

theorem bind_assoc (m : RandM T α) (f : α → RandM T β) (g : β → RandM T γ) :
    (m.bind f).bind g = m.bind fun a => (f a).bind g := by
  induction m with
  | pure a => rfl
  | sample s k ih => simp [ih]
  | coin k ih => simp [ih]

theorem bind_pure_right (m : RandM T α) : m.bind .pure = m := by
  induction m with
  | pure a => rfl
  | sample s k ih => simp [ih]
  | coin k ih => simp [ih]

instance : LawfulMonad (RandM T) := LawfulMonad.mk'
  (id_map := fun x => bind_pure_right x)
  (pure_bind := fun _ _ => rfl)
  (bind_assoc := fun x f g => bind_assoc x f g)

theorem all_bind {P : β → Prop} (m : RandM T α) (f : α → RandM T β) :
    All P (m.bind f) ↔ All (fun a => All P (f a)) m := by
  induction m with
  | pure a => rfl
  | sample s k ih => simp [ih]
  | coin k ih => simp [ih]

theorem All.mono {P Q : α → Prop} (h : ∀ a, P a → Q a) : ∀ {m : RandM T α}, All P m → All Q m
  | .pure _, hm => h _ hm
  | .sample _ _, hm => fun t => All.mono h (hm t)
  | .coin _, hm => fun t => All.mono h (hm t)

theorem All.and {P Q : α → Prop} :
    ∀ {m : RandM T α}, All P m → All Q m → All (fun a => P a ∧ Q a) m
  | .pure _, hm, hn => ⟨hm, hn⟩
  | .sample _ _, hm, hn => fun t => All.and (hm t) (hn t)
  | .coin _, hm, hn => fun t => All.and (hm t) (hn t)

theorem All.trivial {P : α → Prop} (h : ∀ a, P a) : ∀ m : RandM T α, All P m
  | .pure a => h a
  | .sample _ k => fun t => All.trivial h (k t)
  | .coin k => fun t => All.trivial h (k t)

/-- The distribution of the result when every draw is uniform and independent. -/
noncomputable def dist [∀ s, Fintype (T s)] [∀ s, Nonempty (T s)] : RandM T α → PMF α
  | .pure a => PMF.pure a
  | .sample s k => (PMF.uniformOfFintype (T s)).bind fun t => (k t).dist
  | .coin k => (PMF.uniformOfFintype Bool).bind fun b => (k b).dist

/-- An observation that is the same for every draw has a point distribution. -/
theorem All.dist_map_eq_pure [∀ s, Fintype (T s)] [∀ s, Nonempty (T s)] {f : α → β} {c : β} :
    ∀ {m : RandM T α}, All (fun a => f a = c) m → m.dist.map f = PMF.pure c
  | .pure a, h => by
    have : f a = c := h
    simp [dist, PMF.pure_map, this]
  | .sample s k, h => by
    simp only [dist, PMF.map_bind]
    simp only [fun t => All.dist_map_eq_pure (h t), PMF.bind_const]
  | .coin k, h => by
    simp only [dist, PMF.map_bind]
    simp only [fun t => All.dist_map_eq_pure (h t), PMF.bind_const]

/-- Two computations are coupled by `R` when they draw in lock step and each draw of the second
is a fixed permutation (which may depend on the past) of the draw of the first. Independent
draws may be put in another order first. -/
inductive Coupled (R : α → β → Prop) : RandM T α → RandM T β → Prop
  | pure {a b} (h : R a b) : Coupled R (.pure a) (.pure b)
  | sample {s} {k : T s → RandM T α} {l : T s → RandM T β} (σ : T s ≃ T s)
      (h : ∀ t, Coupled R (k t) (l (σ t))) : Coupled R (.sample s k) (.sample s l)
  | coin {k : Bool → RandM T α} {l : Bool → RandM T β}
      (h : ∀ t, Coupled R (k t) (l t)) : Coupled R (.coin k) (.coin l)
  | swapL {s u} {k : T s → T u → RandM T α} {n : RandM T β}
      (h : Coupled R (.sample u fun y => .sample s fun x => k x y) n) :
      Coupled R (.sample s fun x => .sample u fun y => k x y) n
  | swapR {s u} {k : T s → T u → RandM T β} {n : RandM T α}
      (h : Coupled R n (.sample u fun y => .sample s fun x => k x y)) :
      Coupled R n (.sample s fun x => .sample u fun y => k x y)

theorem Coupled.bind {R : α → β → Prop} {Q : γ → δ → Prop} {m : RandM T α} {n : RandM T β}
    {f : α → RandM T γ} {g : β → RandM T δ} (h : Coupled R m n)
    (hf : ∀ a b, R a b → Coupled Q (f a) (g b)) : Coupled Q (m.bind f) (n.bind g) := by
  induction h with
  | pure h => exact hf _ _ h
  | sample σ _ ih => exact .sample σ ih
  | coin _ ih => exact .coin ih
  | swapL _ ih => exact .swapL ih
  | swapR _ ih => exact .swapR ih

theorem Coupled.mono {R Q : α → β → Prop} {m : RandM T α} {n : RandM T β}
    (h : Coupled R m n) (hq : ∀ a b, R a b → Q a b) : Coupled Q m n := by
  induction h with
  | pure h => exact .pure (hq _ _ h)
  | sample σ _ ih => exact .sample σ ih
  | coin _ ih => exact .coin ih
  | swapL _ ih => exact .swapL ih
  | swapR _ ih => exact .swapR ih

theorem uniform_bind_equiv {A : Type} [Fintype A] [Nonempty A] (σ : A ≃ A) (f : A → PMF β) :
    ((PMF.uniformOfFintype A).bind fun t => f (σ t)) = (PMF.uniformOfFintype A).bind f := by
  ext b
  simp only [PMF.bind_apply, PMF.uniformOfFintype_apply]
  rw [← Equiv.tsum_eq σ (fun a => (Fintype.card A : ENNReal)⁻¹ * (f a) b)]

/-- Coupling implies that the distributions of any common observation agree. -/
theorem Coupled.dist_map_eq [∀ s, Fintype (T s)] [∀ s, Nonempty (T s)]
    {R : α → β → Prop} {m : RandM T α} {n : RandM T β} (h : Coupled R m n)
    (u : α → γ) (v : β → γ) (huv : ∀ a b, R a b → u a = v b) :
    m.dist.map u = n.dist.map v := by
  induction h with
  | pure h => simp [dist, PMF.pure_map, huv _ _ h]
  | @sample s k l σ _ ih =>
    simp only [dist, PMF.map_bind, ih]
    exact uniform_bind_equiv σ fun t => PMF.map v (l t).dist
  | coin _ ih => simp only [dist, PMF.map_bind, ih]
  | swapL _ ih => rw [← ih]; simp only [dist]; rw [PMF.bind_comm]
  | swapR _ ih => rw [ih]; simp only [dist]; rw [PMF.bind_comm]

theorem Coupled.refl (m : RandM T α) : Coupled (fun a b => a = b) m m := by
  induction m with
  | pure a => exact .pure rfl
  | sample s k ih => exact .sample (Equiv.refl _) ih
  | coin k ih => exact .coin ih

/-- Non-vacuity: one-time padding ; the two computations below draw once
and are coupled by equality although they add different secrets. -/
example (x y : ZMod 7) :
    Coupled (T := fun _ : Unit => ZMod 7) (· = ·)
      (.sample () fun r => .pure (x - r)) (.sample () fun r => .pure (y - r)) :=
  .sample (Equiv.addRight (y - x)) fun t => .pure (by simp [Equiv.addRight]; abel)

end RandM
end Verif
