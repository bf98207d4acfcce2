import Verif.Core.Rand

/-!
# Typed registers for straight-line programs

Programs are straight-line (SSA): every operation names earlier results by a typed variable,
so sub-results can be shared arbitrarily, exactly like Python objects holding tensors.
-/

namespace Verif

variable {S : Type}

/-- A reference to an earlier result of shape `s`. -/
inductive Var : List S → S → Type
  | here {Γ : List S} {s : S} : Var (s :: Γ) s
  | there {Γ : List S} {s t : S} (x : Var Γ s) : Var (t :: Γ) s

/-- One value per earlier result. -/
inductive Env (V : S → Type) : List S → Type
  | nil : Env V []
  | cons {s : S} {Γ : List S} (v : V s) (e : Env V Γ) : Env V (s :: Γ)

namespace Env
variable {V W : S → Type}

/-- Look a register up. -/
def get : {Γ : List S} → {s : S} → Env V Γ → Var Γ s → V s
  | _, _, .cons v _, .here => v
  | _, _, .cons _ e, .there x => e.get x

/-- Overwrite a register. -/
def set : {Γ : List S} → {s : S} → Env V Γ → Var Γ s → V s → Env V Γ
  | _, _, .cons _ e, .here, w => .cons w e
  | _, _, .cons v e, .there x, w => .cons v (e.set x w)

/-- Pointwise relation between two register files. -/
def Rel (R : ∀ s, V s → W s → Prop) : {Γ : List S} → Env V Γ → Env W Γ → Prop
  | _, .nil, .nil => True
  | _, .cons v e, .cons w f => R _ v w ∧ Rel R e f

theorem Rel.get {R : ∀ s, V s → W s → Prop} {Γ : List S} {s : S} {e : Env V Γ} {f : Env W Γ}
    (h : Rel R e f) (x : Var Γ s) : R s (e.get x) (f.get x) := by
  induction x with
  | here => cases e; cases f; exact h.1
  | there x ih => cases e; cases f; exact ih h.2

theorem Rel.set {R : ∀ s, V s → W s → Prop} {Γ : List S} {s : S} {e : Env V Γ} {f : Env W Γ}
    (h : Rel R e f) (x : Var Γ s) {v : V s} (hv : R s v (f.get x)) : Rel R (e.set x v) f := by
  induction x with
  | here => cases e; cases f; exact ⟨hv, h.2⟩
  | there x ih => cases e; cases f; exact ⟨h.1, ih h.2 hv⟩

theorem Rel.set₂ {R : ∀ s, V s → W s → Prop} {Γ : List S} {s : S} {e : Env V Γ} {f : Env W Γ}
    (h : Rel R e f) (x : Var Γ s) {v : V s} {w : W s} (hv : R s v w) :
    Rel R (e.set x v) (f.set x w) := by
  induction x with
  | here => cases e; cases f; exact ⟨hv, h.2⟩
  | there x ih => cases e; cases f; exact ⟨h.1, ih h.2 hv⟩

theorem get_set_same {Γ : List S} {s : S} (e : Env V Γ) (x : Var Γ s) (v : V s) :
    (e.set x v).get x = v := by
  induction x with
  | here => cases e; rfl
  | there x ih => cases e; exact ih _ _

end Env
end Verif

namespace Verif.Env
variable {S : Type} {V W : S → Type}

/-- Apply a function to every register. -/
def map (g : ∀ s, V s → W s) : {Γ : List S} → Env V Γ → Env W Γ
  | _, .nil => .nil
  | _, .cons v e => .cons (g _ v) (e.map g)

@[simp] theorem get_map (g : ∀ s, V s → W s) {Γ : List S} {s : S} (e : Env V Γ) (x : Var Γ s) :
    (e.map g).get x = g s (e.get x) := by
  induction x with
  | here => cases e; rfl
  | there x ih => cases e; exact ih _

end Verif.Env
