import Verif.Pond.FixedMul
import Mathlib.Analysis.SpecialFunctions.Pow.NNReal

/-!
# Division by public values, reciprocals and square roots of public tensors

Models `Pond.div` (pond.py 1033-1052), `_reciprocal_public` (pond.py 2995-3032, aby3.py 4281-4306) and `_sqrt_public`
(pond.py 4109-4146). Floating point numbers are exact.
-/

namespace Verif.Pond

open Verif.Fixed

/-- What these operations raise. -/
inductive DivErr | typeError | assertion | zeroDivision
  deriving DecidableEq

/-- What a tensor is divided by: a Python number, a public tensor, or anything else. -/
inductive Divisor (F : Factory) (n : ℕ)
  | float (q : ℚ)
  | int (z : ℤ)
  | pub (y : Vec F n) (sc : Bool)
  | other

variable (F : Factory) (c : Config) {n : ℕ}

/-- Conversion of a float to an integer type of `bits` bits (`tf.cast`, native.py 60-71): numbers out of range, infinities and NaN
give an unspecified `junk`. -/
def conv {m : ℕ} (bits : ℕ) (junk : ZMod m) (e : ℤ) : ZMod m := if -2 ^ (bits - 1) ≤ e ∧ e < 2 ^ (bits - 1) then (e : ZMod m) else junk

/-- `_reciprocal_public` on one server (pond.py 2995-3032): decode, invert, encode. `bits` is the size of the native type of
the tensors: 64 for int64, 32 for int100 (int100.py 387-389). -/
def recipPublic (bits : ℕ) (junk : ZMod F.modulus) (sc : Bool) (y : Vec F n) : Except DivErr (Vec F n) :=
  if sc then .ok fun i => if decodePond F c true (y i) = 0 then junk else conv bits junk (encode c true (decodePond F c true (y i))⁻¹)
  else .error .assertion

/-- The same in ABY3 (aby3.py 4281-4306). -/
def recipPublicAby3 (bits : ℕ) (junk : ZMod F.modulus) (sc : Bool) (y : Vec F n) : Except DivErr (Vec F n) :=
  if sc then .ok fun i => if decodeAby3 F c true (y i) = 0 then junk else conv bits junk (encode c true (decodeAby3 F c true (y i))⁻¹)
  else .error .assertion

/-- Conversion of a real number to an integer, towards zero. -/
noncomputable def toIntReal (x : ℝ) : ℤ := if 0 ≤ x then ⌊x⌋ else ⌈x⌉

/-- `_sqrt_public` on one server (pond.py 4109-4146): decode, take the root, encode. -/
noncomputable def sqrtPublic (bits : ℕ) (junk : ZMod F.modulus) (sc : Bool) (y : Vec F n) : Except DivErr (Vec F n) :=
  if sc then .ok fun i => if decodePond F c true (y i) < 0 then junk else
    conv bits junk (toIntReal (Real.sqrt (decodePond F c true (y i) : ℚ) * c.scale))
  else .error .assertion

/-- The multiplier that `div` computes (pond.py 1043-1050), with its scaling flag. The first `if` is not followed by
`elif`, so that a float falls through to the last branch. A number is lifted with the flag of `x` (`lift`, pond.py
904-959). -/
def multiplier (bits : ℕ) (junk : ZMod F.modulus) (xsc : Bool) : Divisor F n → Except DivErr (Vec F n × Bool)
  | .float q => if q = 0 then .error .zeroDivision else .error .typeError
  | .int z => if z = 0 then .error .zeroDivision else .ok (fun _ => (encode c xsc (1 / (z : ℚ)) : ZMod F.modulus), xsc)
  | .pub y sc => (recipPublic F c bits junk sc y).map fun r => (r, true)
  | .other => .error .typeError

/-- Share `x`, multiply, reveal. -/
def timesProg (xsc : Bool) (m : Vec F n × Bool) : Prog (Vec F) (fun _ : Unit => n) [] n :=
  .step (.input () xsc) <|
  .step (.const m.1 m.2) <|
  .step (.bilin (s := n) (u := n) (t := n) .mul AddMonoidHom.mul (.there .here) .here) <|
  .step (.reveal .here) (.ret .here)

/-- `Pond.div` of a private tensor, revealed: which program is run, or the exception raised before any computation. -/
def divProg (bits : ℕ) (junk : ZMod F.modulus) (xsc : Bool) (d : Divisor F n) : Except DivErr (Prog (Vec F) (fun _ : Unit => n) [] n) :=
  (multiplier F c bits junk xsc d).map (timesProg F xsc)

end Verif.Pond
