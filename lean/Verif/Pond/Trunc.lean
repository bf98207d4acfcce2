import Verif.Pond.Spec
import Verif.Fixed.Model

/-!
# Pond's truncations

Models `_truncate_public`, `_truncate_private_noninteractive`, `_truncate_private_interactive`
(pond.py 2358-2474) and `Tensor.truncate` of the factories (native.py 504-512,
int100.py 773-779), per element over `ZMod F.modulus`, and packages them as the `Cfg` a Pond program
is run with.
-/

namespace Verif.Pond

open Verif.Fixed

/-- Which factory code is used. -/
inductive Backend | native | crt
  deriving DecidableEq, Repr

section
variable (F : Factory)

/-- `right_shift` on a native signed integer: floor division of the signed value
(native.py 511-512). -/
def shiftTrunc (f : ℕ) (x : ZMod F.modulus) : ZMod F.modulus := ((F.rep x / 2 ^ f : ℤ) : ZMod _)

/-- `(self - (self % factor)) * factor_inverse` (native.py 507-509, int100.py 774-776). -/
def divTrunc (factor : ℕ) (inv : ℤ) (x : ZMod F.modulus) : ZMod F.modulus :=
  (x - ((F.rep x % factor : ℤ) : ZMod _)) * (inv : ZMod _)

/-- `Tensor.truncate(amount, base)`; `none` is the failing assertion of `inverse`
(native.py 504-509, int100.py 773-776). -/
def tensorTruncate (b : Backend) (base amount : ℕ) : Option (ZMod F.modulus → ZMod F.modulus) :=
  if b = .native ∧ base = 2 then some (shiftTrunc F amount)
  else (Helpers.inverse (base ^ amount : ℕ) F.modulus).map (divTrunc F (base ^ amount))

/-- `0 - x` as Python evaluates it: `x.__rsub__(0)`. The native factory returns `0 - x`; the CRT
factory calls `_lift(self, other)` and returns `x - 0` (int100.py 554-556). -/
def rsubZero (b : Backend) (x : ZMod F.modulus) : ZMod F.modulus :=
  match b with
  | .native => 0 - x
  | .crt => x - 0

/-- `_truncate_private_noninteractive` (pond.py 2391-2409). -/
def truncNoninteractive (b : Backend) (c : Config) :
    Option (Priv (ZMod F.modulus) → Priv (ZMod F.modulus)) :=
  (tensorTruncate F b c.base c.pFrac).map fun tr p =>
    { x0 := tr p.x0, x1 := rsubZero F b (tr (rsubZero F b p.x1)) }

/-- What `a + (bound / scaling_factor)` adds to the first share (pond.py 2427-2432): the number is
lifted with the flag of `a`, so it is multiplied by the scale only if `a` is scaled. -/
def rotation (c : Config) (sc : Bool) : ℕ := if sc then c.boundDouble else c.boundDouble / c.scale

/-- The value server 0 sends to server 1 (pond.py 2441-2446). -/
def maskedShare (c : Config) (sc : Bool) (a0 : ZMod F.modulus) (r : ℕ) : ZMod F.modulus :=
  (a0 + (rotation c sc : ZMod _)) + (r : ZMod _)

/-- `_truncate_private_interactive` (pond.py 2412-2474) for a given mask `r`, with `inv` the
inverse of the scale. -/
def truncInteractive (c : Config) (sc : Bool) (inv : ℤ) (a : Priv (ZMod F.modulus)) (r : ℕ) :
    Priv (ZMod F.modulus) :=
  let c0 := maskedShare F c sc a.x0 r
  let c1 := a.x1
  let cLower : ZMod F.modulus := ((F.rep (c0 + c1) % c.scale : ℤ) : ZMod _)
  let rLower : ZMod F.modulus := ((F.rep (r : ZMod _) % c.scale : ℤ) : ZMod _)
  let aLower0 := rLower * -1
  let aLower1 := cLower
  { x0 := (a.x0 - aLower0) * (inv : ZMod _), x1 := (a.x1 - aLower1) * (inv : ZMod _) }

end

section
variable {S : Type} {T : S → Type}

/-- A uniform integer in `[0, 2^k)`, as `k` fair bits (`sample_bounded`, native.py 182-201). -/
def drawBits : ℕ → RandM T ℕ
  | 0 => .pure 0
  | k + 1 => .coin fun b => (drawBits k).bind fun r => .pure (2 * r + b.toNat)

/-- One bounded mask per element. -/
def drawMasks (k : ℕ) : (n : ℕ) → RandM T (Fin n → ℕ)
  | 0 => .pure Fin.elim0
  | n + 1 => (drawBits k).bind fun r => (drawMasks k n).bind fun rs => .pure (Fin.cons r rs)
end

/-- Tensors with `n` elements (the shape only matters to the additive maps). -/
abbrev Vec (F : Factory) (n : ℕ) : Type := Fin n → ZMod F.modulus

/-- The truncation a Pond object uses (pond.py 2358-2388); `none` when building the graph raises:
`inverse` or `sample_bounded` fails its assertion. Server 0 sends its masked share to server 1. -/
def pondCfg (F : Factory) (b : Backend) (c : Config) : Option (Cfg (Vec F)) :=
  match tensorTruncate F b c.base c.pFrac with
  | none => none
  | some tr =>
    if c.noninteractive then
      (truncNoninteractive F b c).map fun f =>
        { truncPub := fun _ x i => tr (x i)
          truncPriv := fun _ _ p =>
            let q := fun i => f ⟨p.x0 i, p.x1 i⟩
            .pure (⟨fun i => (q i).x0, fun i => (q i).x1⟩, []) }
    else
      match Helpers.inverse c.scale F.modulus with
      | none => none
      | some inv =>
        if F.boundedOk c.maskBits then
          some
            { truncPub := fun _ x i => tr (x i)
              truncPriv := fun sc n p =>
                (drawMasks c.maskBits n).bind fun r =>
                  let q := fun i => truncInteractive F c sc inv ⟨p.x0 i, p.x1 i⟩ (r i)
                  .pure (⟨fun i => (q i).x0, fun i => (q i).x1⟩,
                    [⟨.s1, n, fun i => maskedShare F c sc (p.x0 i) (r i)⟩]) }
        else none

end Verif.Pond
