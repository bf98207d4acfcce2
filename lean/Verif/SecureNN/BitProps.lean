import Verif.Pond.Props

/-!
# SecureNN bit operators (C37)

The operators are Pond programs; they are stated over an arbitrary commutative ring (the main ring, the
prime field) and for public, private and masked operands. The constants `1` and `2` are lifted without
scaling, because the operands must be unscaled (pond.py:904-959).
-/

namespace Verif.SecureNN

open Pond RandM

variable {R : Type} [CommRing R]

/-- All tensors are elements of the one ring. -/
abbrev One (R : Type) : Unit → Type := fun _ => R

/-- The two operands. -/
abbrev Ops : Bool → Unit := fun _ => ()

/-- Programs on operands from the ring. -/
abbrev P (R : Type) [CommRing R] (Γ : List Unit) := Prog (One R) Ops Γ ()

/-- Create an operand of the given kind: a public constant `v`, or the private input `i`, masked or
not. -/
def load (κ : Kind) (v : R) (i : Bool) {Γ : List Unit}
    (k : ∀ Γ', (Var Γ () → Var Γ' ()) → Var Γ' () → P R Γ') : P R Γ :=
  match κ with
  | .pub => .step (s := ()) (.const v false) (k (() :: Γ) .there .here)
  | .priv => .step (s := ()) (.input i false) (k (() :: Γ) .there .here)
  | .masked => .step (s := ()) (.input i false) <| .step (s := ()) (.mask .here)
      (k (() :: () :: Γ) (fun x => .there (.there x)) .here)

/-- `bitwise_not` (securenn.py:90-101): `self.sub(1, x)`. -/
def notProg (κ : Kind) (x : R) : P R [] :=
  load κ x false fun _ _ x =>
    .step (s := ()) (.const 1 false) <| .step (s := ()) (.sub .here (.there x)) (.ret .here)

/-- `bitwise_and` (securenn.py:103-116): `x * y`. -/
def andProg (κ κ' : Kind) (x y : R) : P R [] :=
  load κ x false fun _ _ x => load κ' y true fun _ th y =>
    .step (s := ()) (.bilin .mul AddMonoidHom.mul (th x) y) (.ret .here)

/-- `bitwise_or` (securenn.py:118-131): `x + y - self.bitwise_and(x, y)`. -/
def orProg (κ κ' : Kind) (x y : R) : P R [] :=
  load κ x false fun _ _ x => load κ' y true fun _ th y =>
    .step (s := ()) (.add (th x) y) <|
    .step (s := ()) (.bilin .mul AddMonoidHom.mul (.there (th x)) (.there y)) <|
    .step (s := ()) (.sub (.there .here) .here) (.ret .here)

/-- `bitwise_xor` (securenn.py:133-146): `x + y - self.bitwise_and(x, y) * 2`. -/
def xorProg (κ κ' : Kind) (x y : R) : P R [] :=
  load κ x false fun _ _ x => load κ' y true fun _ th y =>
    .step (s := ()) (.add (th x) y) <|
    .step (s := ()) (.bilin .mul AddMonoidHom.mul (.there (th x)) (.there y)) <|
    .step (s := ()) (.const 2 false) <|
    .step (s := ()) (.bilin .mul AddMonoidHom.mul (.there .here) .here) <|
    .step (s := ()) (.sub (.there (.there (.there .here))) .here) (.ret .here)

/-- A boolean as a ring element. -/
def val (b : Bool) : R := if b then 1 else 0

/-- The values of the two operands. -/
def inputs (a b : Bool) : ∀ i : Bool, One R (Ops i)
  | false => val a
  | true => val b

/-- The program returns an unscaled tensor for the bit `b`, whatever is drawn. -/
def Computes (C : Cfg (One R)) (inp : ∀ i : Bool, One R (Ops i)) (p : P R []) (b : Bool) : Prop :=
  (p.start C inp).All fun r => ∃ v tr, r = .ok (v, tr) ∧ v.sc = false ∧ Represents (val b : R) v.body

theorem computes_of {C : Cfg (One R)} {inp : ∀ i : Bool, One R (Ops i)} {p : P R []} {b : Bool}
    (hu : p.Unscaled) (hv : p.clear inp .nil = val b) (ht : ∃ κ, p.ty .nil = .ok (κ, false)) :
    Computes C inp p b := by
  obtain ⟨κ, ht⟩ := ht
  refine All.mono ?_ (All.and (program_exact C inp p hu) (program_flags C inp p))
  rintro (e | ⟨v, tr⟩) ⟨h1, h2⟩
  · simp only [ht] at h2; cases h2
  · simp only [ht] at h2
    have h3 : false = v.sc := by
      have := Except.ok.inj h2
      exact congrArg Prod.snd this
    exact ⟨v, tr, rfl, h3.symm, hv ▸ h1 v tr rfl⟩

/-- **C37.** In every commutative ring, for operands that are bits, each of them public, private or
masked, and for every randomness of the sharings and of the dealer: the operators never raise and
return the negation, conjunction, disjunction and exclusive or. -/
theorem bit_operators (C : Cfg (One R)) (κ κ' : Kind) (a b : Bool) :
    Computes C (inputs a b) (notProg κ (val a)) (!a) ∧
    Computes C (inputs a b) (andProg κ κ' (val a) (val b)) (a && b) ∧
    Computes C (inputs a b) (orProg κ κ' (val a) (val b)) (a || b) ∧
    Computes C (inputs a b) (xorProg κ κ' (val a) (val b)) (a ^^ b) := by
  refine ⟨?_, ?_, ?_, ?_⟩
  · refine computes_of ?_ ?_ ?_
    · cases κ <;> simp [notProg, load, Prog.Unscaled, Op.unscaled]
    · cases κ <;> cases a <;> simp [notProg, load, Prog.clear, Op.clear, Env.get, inputs, val]
    · cases κ <;> exact ⟨_, rfl⟩
  · refine computes_of ?_ ?_ ?_
    · cases κ <;> cases κ' <;> simp [andProg, load, Prog.Unscaled, Op.unscaled]
    · cases κ <;> cases κ' <;> cases a <;> cases b <;>
        simp [andProg, load, Prog.clear, Op.clear, Env.get, inputs, val]
    · cases κ <;> cases κ' <;> exact ⟨_, rfl⟩
  · refine computes_of ?_ ?_ ?_
    · cases κ <;> cases κ' <;> simp [orProg, load, Prog.Unscaled, Op.unscaled]
    · cases κ <;> cases κ' <;> cases a <;> cases b <;>
        simp [orProg, load, Prog.clear, Op.clear, Env.get, inputs, val]
    · cases κ <;> cases κ' <;> exact ⟨_, rfl⟩
  · refine computes_of ?_ ?_ ?_
    · cases κ <;> cases κ' <;> simp [xorProg, load, Prog.Unscaled, Op.unscaled]
    · cases κ <;> cases κ' <;> cases a <;> cases b <;>
        simp [xorProg, load, Prog.clear, Op.clear, Env.get, inputs, val] <;> ring
    · cases κ <;> cases κ' <;> exact ⟨_, rfl⟩

/-- A concrete case: exclusive or of two private ones in `ZMod 107` is zero. -/
example (C : Cfg (One (ZMod 107))) :
    Computes C (inputs true true) (xorProg .priv .priv (val true) (val true)) false :=
  (bit_operators C .priv .priv true true).2.2.2

/-- The result is not the operand: the two bits differ in any non-trivial ring. -/
example : (val true : ZMod 107) ≠ val false := by decide

end Verif.SecureNN
