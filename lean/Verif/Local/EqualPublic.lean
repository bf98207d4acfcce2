import Verif.Local.PublicInput

/-!
# Equality of public tensors in Pond

Model of `equal` (pond.py 1444-1446, 4461-4478), with the lifting of numbers and the device on which each copy of
the result is computed. Tensors are flat and of the same length; a lifted number is a constant tensor of the
length of the other operand, which is what broadcasting makes of it.
-/

namespace Verif.Local.Pond

open Verif Verif.Pond

/-- An argument of `equal`. -/
inductive Operand (F : Fixed.Factory)
  | number (q : ℚ)
  | pub (x : Public F)
  /-- a private or masked tensor -/
  | hidden
  /-- an object that is neither a number nor a tensor of Pond -/
  | other

variable {F : Fixed.Factory}

/-- `define_constant(np.array(q), apply_scaling)` (pond.py 128-166) for a tensor of `n` entries. -/
def liftNumber (c : Fixed.Config) (apply : Bool) (n : ℕ) (q : ℚ) : Public F := constant c apply ⟨n, fun _ => q⟩

/-- `lift(x, y)` (pond.py 904-959) without `apply_scaling`: a number takes the scaling of the other operand. A
number beside a private or masked tensor is lifted too, which does not matter here. -/
def liftPair (c : Fixed.Config) : Operand F → Operand F → Except Err (Operand F × Operand F)
  | .number p, .number q => .ok (.pub (liftNumber c true 1 p), .pub (liftNumber c true 1 q))
  | .number p, .pub y => .ok (.pub (liftNumber c y.scaled y.n p), .pub y)
  | .number p, .hidden => .ok (.pub (liftNumber c true 1 p), .hidden)
  | .number _, .other => .error .type
  | .pub x, .number q => .ok (.pub x, .pub (liftNumber c x.scaled x.n q))
  | .hidden, .number q => .ok (.hidden, .pub (liftNumber c true 1 q))
  | .pub _, .other => .error .type
  | .hidden, .other => .error .type
  | .other, _ => .error .type
  | x, y => .ok (x, y)

/-- `equal` of two backing tensors (native.py 497-502, int100.py 651-665; that the latter compares residues is
`crt_equal`): one where the words are equal, else zero. -/
def equalWords {n : ℕ} (x y : RT F n) : RT F n := fun i => if x i = y i then 1 else 0

/-- `_equal_public_public` (pond.py 4461-4478): both copies are computed on the device of the first server, and
the scalings are not looked at. Tensors of different lengths raise. `equal` of int128 words returns a bare tensor of
TensorFlow (int128.py 495-497), which the constructor refuses (pond.py 1875). -/
def equalPublicPublic (int128 : Bool) (server0 server1 : Runtime.Player) : Public F → Public F → Except Err (Public F)
  | ⟨n, x0, x1, _⟩, ⟨m, y0, y1, _⟩ =>
    if h : m = n then
      if int128 then .error .assertion
      else mkPublic server0 server1 ⟨server0.device, equalWords x0 (h ▸ y0)⟩ ⟨server0.device, equalWords x1 (h ▸ y1)⟩
        false
    else .error .value

/-- `equal` (pond.py 1444-1446) with `dispatch` (1448-1471): there is a function for two public tensors
only. -/
def equal (int128 : Bool) (server0 server1 : Runtime.Player) (c : Fixed.Config) (x y : Operand F) : Except Err (Public F) :=
  match liftPair c x y with
  | .error e => .error e
  | .ok (.pub x, .pub y) => equalPublicPublic int128 server0 server1 x y
  | .ok _ => .error .type

end Verif.Local.Pond
