import Verif.Local.Model

/-!
# Defining constants and variables

Model of `define_constant`, `define_public_variable` and `define_private_variable` of ABY3 (aby3.py 284-462)
and Pond (pond.py 128-166, 211-347); `define_public_input` is in `Local/PublicInput.lean`. A variable is what it holds
when it has been defined; assignments are `Runtime/Vars.lean` (C39). Factories are identified with their word
size (ABY3), or are the one of the model or another one (Pond): `factory.variable` takes tensors of its own
class only (native.py 52-62, int100.py 332-341).
-/

namespace Verif.Local

open Verif

namespace Aby3
open Verif.Aby3

/-- A public tensor. -/
structure Public where
  w : ℕ
  n : ℕ
  vals : Pub (Words w n)
  scaled : Bool

/-- The initial value of a variable. Arrays and `tf.Tensor`s are encoded alike (aby3.py 802-812). -/
inductive Init
  | data (v : Vec)
  | pub (x : Public)
  | priv (x : Priv)
  | other

/-- `define_private_variable` (aby3.py 394-462). The new variable gets `is_scaled` and the share type from
the arguments of the call, also if the initial value is a private tensor. -/
def privateVariable (w frac : ℕ) (apply : Bool) (tag : Tag) : Init → Except Err (M Priv)
  | .data v =>
    match shareAs tag (fun i => encode w frac apply (v.val i)) with
    | .error e => .error e
    | .ok m => .ok (do
        let x ← m
        return ⟨w, v.n, x, apply, tag⟩)
  | .priv x => .ok (pure ⟨x.w, x.n, x.shares, apply, tag⟩)
  | .pub _ => .error .assertion
  | .other => .error .assertion

/-- `define_public_variable` (aby3.py 330-392). -/
def publicVariable (w frac : ℕ) (apply : Bool) : Init → Except Err Public
  | .data v => .ok ⟨w, v.n, fun _ i => encode w frac apply (v.val i), apply⟩
  | .pub x => if x.w = w then .ok ⟨x.w, x.n, x.vals, apply⟩ else .error .type
  | .priv _ => .error .assertion
  | .other => .error .assertion

/-- `define_constant` (aby3.py 284-328) of an array, tensor or number: the same words at the three servers. -/
def constant (w frac : ℕ) (apply : Bool) (v : Vec) : Public :=
  ⟨w, v.n, fun _ i => encode w frac apply (v.val i), apply⟩

end Aby3

namespace Pond
open Verif.Pond

variable (F : Fixed.Factory)

/-- The initial value of a variable; `foreign`: a public or private tensor of another factory. -/
inductive Init
  | data (v : Vec)
  | pub (n : ℕ) (v0 v1 : RT F n) (scaled : Bool)
  | priv (x : Shared F)
  | masked (n : ℕ) (x : Masked (RT F n)) (scaled : Bool)
  | foreign
  | other

/-- A public tensor. -/
structure Public where
  n : ℕ
  v0 : RT F n
  v1 : RT F n
  scaled : Bool

variable {F}

/-- `define_private_variable` (pond.py 275-347). A public tensor is shared by the first server. -/
def privateVariable (c : Fixed.Config) (apply : Bool) :
    Init F → Except Err (RandM (RT F) (Shared F))
  | .data v => .ok ((share (T := RT F) (s := v.n)
      (fun i => (Fixed.encode c apply (v.val i) : ZMod F.modulus))).bind fun x =>
        .pure ⟨v.n, x, apply⟩)
  | .pub n v0 _ _ => .ok ((share (T := RT F) (s := n) v0).bind fun x => .pure ⟨n, x, apply⟩)
  | .priv x => .ok (.pure ⟨x.n, x.x, apply⟩)
  | .masked _ _ _ => .error .assertion
  | .foreign => .error .type
  | .other => .error .assertion

/-- `define_public_variable` (pond.py 211-273). -/
def publicVariable (c : Fixed.Config) (apply : Bool) : Init F → Except Err (Public F)
  | .data v => .ok ⟨v.n, fun i => (Fixed.encode c apply (v.val i) : ZMod F.modulus),
      fun i => (Fixed.encode c apply (v.val i) : ZMod F.modulus), apply⟩
  | .pub n v0 v1 _ => .ok ⟨n, v0, v1, apply⟩
  | .priv _ => .error .assertion
  | .masked _ _ _ => .error .assertion
  | .foreign => .error .type
  | .other => .error .assertion

/-- `define_constant` (pond.py 128-166) of an array. -/
def constant (c : Fixed.Config) (apply : Bool) (v : Vec) : Public F :=
  ⟨v.n, fun i => (Fixed.encode c apply (v.val i) : ZMod F.modulus),
    fun i => (Fixed.encode c apply (v.val i) : ZMod F.modulus), apply⟩

end Pond

end Verif.Local
