import Verif.Pond.Model

/-!
# What Pond programs are supposed to compute

Independent of shares, masks and randomness: a program is run on cleartext ring values.
-/

namespace Verif.Pond

variable {S : Type} {T : S → Type}

/-- The tensor `b` stands for the cleartext value `v`: public copies agree with `v` at both
servers, private shares add up to `v`, and a masked tensor carries a correct opening of `v - a`
for a correctly shared mask `a`. -/
def Represents {A : Type} [AddCommGroup A] (v : A) : Body A → Prop
  | .plain (.pub v0 v1) => v0 = v ∧ v1 = v
  | .plain (.priv p) => p.x0 + p.x1 = v
  | .masked m => m.unmasked.x0 + m.unmasked.x1 = v ∧ m.a0 + m.a1 = m.a ∧
      m.alpha0 = v - m.a ∧ m.alpha1 = v - m.a

variable [∀ s, AddCommGroup (T s)] {I : Type} {ι : I → S}

/-- Cleartext value of one operation in the ring, when no rescaling takes place. -/
def Op.clear (inp : ∀ i, T (ι i)) {Γ : List S} {t : S} (e : Env T Γ) : Op T ι Γ t → T t
  | .const v _ => v
  | .input i _ => inp i
  | .add x y => e.get x + e.get y
  | .sub x y => e.get x - e.get y
  | .lin _ f x => f (e.get x)
  | .concat f x y => f (e.get x, e.get y)
  | .bilin _ f x y => f (e.get x) (e.get y)
  | .square f _ x => f (e.get x) (e.get x)
  | .mask x => e.get x
  | .truncate x => e.get x
  | .reveal x => e.get x

/-- Cleartext value of a program in the ring. -/
def Prog.clear (inp : ∀ i, T (ι i)) {Γ : List S} {t : S} : Prog T ι Γ t → Env T Γ → T t
  | .ret x, e => e.get x
  | .step o k, e => k.clear inp (.cons (o.clear inp e) e)

/-- The operation does not create a scaled value and is not an explicit truncation. -/
def Op.unscaled {Γ : List S} {t : S} : Op T ι Γ t → Bool
  | .const _ sc => !sc
  | .input _ sc => !sc
  | .truncate _ => false
  | _ => true

/-- The program only creates unscaled values and never truncates explicitly, so nothing is ever
rescaled. -/
def Prog.Unscaled {Γ : List S} {t : S} : Prog T ι Γ t → Prop
  | .ret _ => True
  | .step o k => o.unscaled = true ∧ k.Unscaled

/-- Cleartext semantics with rescaling. `Tr sc s x z` says that `z` is an acceptable rescaling
of `x` with `is_scaled` flag `sc`; it is applied to a product exactly when both operands are scaled. The flag of every result
is part of the semantics. -/
def Op.Clear (Tr : Bool → ∀ s, T s → T s → Prop) (inp : ∀ i, T (ι i)) {Γ : List S} {t : S}
    (e : Env (fun s => T s × Bool) Γ) : Op T ι Γ t → T t × Bool → Prop
  | .const v sc, r => r = (v, sc)
  | .input i sc, r => r = (inp i, sc)
  | .add x y, r => r = ((e.get x).1 + (e.get y).1, (e.get x).2)
  | .sub x y, r => r = ((e.get x).1 - (e.get y).1, (e.get x).2)
  | .lin _ f x, r => r = (f (e.get x).1, (e.get x).2)
  | .concat f x y, r => r = (f ((e.get x).1, (e.get y).1), (e.get x).2)
  | .bilin _ f x y, r =>
      r.2 = ((e.get x).2 || (e.get y).2) ∧
      if (e.get x).2 = true ∧ (e.get y).2 = true then Tr true t (f (e.get x).1 (e.get y).1) r.1
      else r.1 = f (e.get x).1 (e.get y).1
  | .square f _ x, r =>
      r.2 = (e.get x).2 ∧
      if (e.get x).2 = true then Tr true t (f (e.get x).1 (e.get x).1) r.1
      else r.1 = f (e.get x).1 (e.get x).1
  | .mask x, r => r = e.get x
  | .truncate x, r => Tr (e.get x).2 t (e.get x).1 r.1 ∧ r.2 = (e.get x).2
  | .reveal x, r => r = e.get x

/-- `p.Clear Tr inp e r`: on cleartext registers `e` the program can return `r`. -/
def Prog.Clear (Tr : Bool → ∀ s, T s → T s → Prop) (inp : ∀ i, T (ι i)) {Γ : List S} {t : S} :
    Prog T ι Γ t → Env (fun s => T s × Bool) Γ → T t × Bool → Prop
  | .ret x, e, r => r = e.get x
  | .step o k, e, r => ∃ c, o.Clear Tr inp e c ∧ k.Clear Tr inp (.cons c e) r

/-- A truncation implementation meets the rescaling relation `Tr`, for every randomness. -/
structure Cfg.Sound (C : Cfg T) (Tr : Bool → ∀ s, T s → T s → Prop) : Prop where
  pub : ∀ sc s x, Tr sc s x (C.truncPub s x)
  priv : ∀ sc s (p : Priv (T s)),
    (C.truncPriv sc s p).All fun r => Tr sc s (p.x0 + p.x1) (r.1.x0 + r.1.x1)

/-- Static kind of a tensor. -/
inductive Kind | pub | priv | masked
  deriving DecidableEq, Repr

/-- Kind of a tensor. -/
def Body.kind {A : Type} : Body A → Kind
  | .plain (.pub _ _) => .pub
  | .plain (.priv _) => .priv
  | .masked _ => .masked

/-- What combining a public and a non-public (or two non-public) operands gives. -/
def Kind.join : Kind → Kind → Kind
  | .pub, .pub => .pub
  | _, _ => .priv

/-- Static kind and flag of one operation's result, or the exception it raises.  This is the
documented dispatch table: it mentions neither values nor randomness. -/
def Op.ty {Γ : List S} {t : S} (e : Env (fun _ => Kind × Bool) Γ) :
    Op T ι Γ t → Except Err (Kind × Bool)
  | .const _ sc => .ok (.pub, sc)
  | .input _ sc => .ok (.priv, sc)
  | .add x y =>
      -- two non-public operands are not checked
      if (e.get x).1 ≠ .pub ∧ (e.get y).1 ≠ .pub ∨ (e.get x).2 = (e.get y).2
      then .ok ((e.get x).1.join (e.get y).1, (e.get x).2) else .error .assertion
  | .sub x y =>
      if (e.get x).2 = (e.get y).2
      then .ok ((e.get x).1.join (e.get y).1, (e.get x).2) else .error .assertion
  | .lin k _ x =>
      match (e.get x).1, k with
      | .masked, .keepMask => .ok (.masked, (e.get x).2)
      | .masked, .dropMask => .ok (.priv, (e.get x).2)
      | .masked, .squeeze => .error .type
      | κ, _ => .ok (κ, (e.get x).2)
  | .concat _ x y =>
      if (e.get x).2 = (e.get y).2 then
        if (e.get x).1 = (e.get y).1 then .ok (e.get x) else .error .type
      else .error .assertion
  | .bilin k _ x y =>
      if k = .conv2d ∧ ((e.get x).1 = .pub ↔ (e.get y).1 ≠ .pub) then .error .notImplemented
      else .ok ((e.get x).1.join (e.get y).1, (e.get x).2 || (e.get y).2)
  | .square _ _ x => .ok ((e.get x).1.join (e.get x).1, (e.get x).2)
  | .mask x => if (e.get x).1 = .priv then .ok (.masked, (e.get x).2) else .error .type
  | .truncate x => .ok ((e.get x).1.join (e.get x).1, (e.get x).2)
  | .reveal x => if (e.get x).1 = .pub then .error .type else .ok (.pub, (e.get x).2)

/-- Static kind and flag of a program's result, or the first exception. -/
def Prog.ty {Γ : List S} {t : S} : Prog T ι Γ t → Env (fun _ => Kind × Bool) Γ →
    Except Err (Kind × Bool)
  | .ret x, e => .ok (e.get x)
  | .step o k, e =>
    match o.ty e with
    | .ok c => k.ty (.cons c e)
    | .error er => .error er

/-! ## Secrecy -/

/-- What one server sees: the messages addressed to it, in order, or the exception. -/
def view (σ : Server) {A : Type} : Except Err (A × List (Msg T)) → Except Err (List (Msg T))
  | .ok (_, tr) => .ok (tr.filter (·.dst = σ))
  | .error e => .error e

/-- Is the operation an opening? -/
def Op.isReveal {Γ : List S} {t : S} : Op T ι Γ t → Bool
  | .reveal _ => true
  | _ => false

/-- The program opens nothing on purpose. -/
def Prog.NoReveal {Γ : List S} {t : S} : Prog T ι Γ t → Prop
  | .ret _ => True
  | .step o k => o.isReveal = false ∧ k.NoReveal

/-- The operation is a matrix product of a private or masked tensor (left) by a public one. -/
def Op.matmulByPublic {Γ : List S} {t : S} (e : Env (fun _ => Kind × Bool) Γ) :
    Op T ι Γ t → Prop
  | .bilin .matmul _ x y => (e.get x).1 ≠ .pub ∧ (e.get y).1 = .pub
  | _ => False

/-- The program never multiplies a private or masked matrix from the right by a public one. The
kinds of its registers are `e`; nothing is asked of what follows an operation that raises. -/
def Prog.NoMatmulByPublic {Γ : List S} {t : S} :
    Prog T ι Γ t → Env (fun _ => Kind × Bool) Γ → Prop
  | .ret _, _ => True
  | .step o k, e => ¬ o.matmulByPublic e ∧
      ∀ c, o.ty e = .ok c → k.NoMatmulByPublic (.cons c e)

/-- The share held by a server. -/
def Priv.of {A : Type} (σ : Server) (p : Priv A) : A :=
  match σ with
  | .s0 => p.x0
  | .s1 => p.x1

/-- The configured truncation reveals nothing to server `σ`: runs on two values of which `σ` holds
the same share can be matched, draw by draw, such that `σ` sees the same and ends up with the same
share. True of local truncation (C11); the interactive truncation only hides statistically. -/
def Cfg.Hides (C : Cfg T) (σ : Server) : Prop :=
  ∀ sc s (p q : Priv (T s)), p.of σ = q.of σ →
    RandM.Coupled (fun r r' => r.1.of σ = r'.1.of σ ∧
      r.2.filter (·.dst = σ) = r'.2.filter (·.dst = σ)) (C.truncPriv sc s p) (C.truncPriv sc s q)

end Verif.Pond
