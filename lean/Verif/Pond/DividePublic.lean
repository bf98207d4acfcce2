import Verif.Pond.Divide

/-!
# Division of public tensors

Models `Pond.div` (pond.py 1033-1052) when the dividend is public as well (`_mul_public_public`, pond.py 2872-2889). Floating
point numbers are exact.
-/

namespace Verif.Pond

open Verif.Fixed

variable (F : Factory) (c : Config) {n : ℕ}

/-- Multiply two public tensors. -/
def timesPublicProg (x m : Vec F n × Bool) : Prog (Vec F) (fun _ : Empty => n) [] n :=
  .step (.const x.1 x.2) <|
  .step (.const m.1 m.2) <|
  .step (.bilin (s := n) (u := n) (t := n) .mul AddMonoidHom.mul (.there .here) .here) (.ret .here)

/-- `Pond.div` of a public tensor: which program is run, or the exception raised before any computation. -/
def divPublicProg (bits : ℕ) (junk : ZMod F.modulus) (x : Vec F n × Bool) (d : Divisor F n) :
    Except DivErr (Prog (Vec F) (fun _ : Empty => n) [] n) :=
  (multiplier F c bits junk x.2 d).map (timesPublicProg F x)

end Verif.Pond
