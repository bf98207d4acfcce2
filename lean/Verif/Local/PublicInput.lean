import Verif.Local.Variables
import Verif.Runtime.Config

/-!
# Public inputs of a player

Model of `define_public_input` of ABY3 (aby3.py 683-736) and Pond (pond.py 360-415), with the devices on which
the values are placed: the constructors of public tensors check that every server's value is on the device of
that server (aby3_tensors.py 405-412, pond.py 1868-1884). The search for the player by name is in
`Local/Decorator.lean`.
-/

namespace Verif.Local

open Verif

/-- A device: job and task (config.py 117, 169). -/
abbrev Device := String × ℕ

/-- A value on a device. -/
structure Placed (A : Type) where
  dev : Device
  val : A

/-- One input or a list of them (aby3.py 722-736, pond.py 399-415). -/
def perInput {A : Type} (helper : RetVal → Except Err A) : Out → Except Err (Res A)
  | .tensor v static =>
    match helper (.tensor v static) with
    | .error e => .error e
    | .ok x => .ok (.one x)
  | .list vs =>
    match each helper vs with
    | .error e => .error e
    | .ok xs => .ok (.many xs)
  | .nothing => .error .type
  | .other => .error .type

namespace Aby3
open Verif.Aby3

/-- `ABY3PublicTensor(prot, values, is_scaled)` (aby3_tensors.py 405-412). -/
def mkPublic {w n : ℕ} (servers : Fin 3 → Runtime.Player) (vals : Fin 3 → Placed (Words w n))
    (scaled : Bool) : Except Err Public :=
  if ∀ i, (vals i).dev = (servers i).device then .ok ⟨w, n, fun i => (vals i).val, scaled⟩
  else .error .assertion

/-- `helper` of `define_public_input` (aby3.py 709-718): one encoded tensor, on the player's device, is taken
as the value of all servers. -/
def inputHelper (servers : Fin 3 → Runtime.Player) (player : Runtime.Player) (w frac : ℕ) (apply : Bool) :
    RetVal → Except Err Public
  | .tensor v true =>
    mkPublic (w := w) (n := v.n) servers (fun _ => ⟨player.device, fun i => encode w frac apply (v.val i)⟩) apply
  | .tensor _ false => .error .assertion
  | .other => .error .attribute

/-- `define_public_input` (aby3.py 683-736) once the player is known. -/
def publicInput (servers : Fin 3 → Runtime.Player) (player : Runtime.Player) (w frac : ℕ) (apply : Bool)
    (out : Out) : Except Err (Res Public) :=
  perInput (inputHelper servers player w frac apply) out

end Aby3

namespace Pond
open Verif.Pond

variable {F : Fixed.Factory}

/-- `PondPublicTensor(prot, value_on_0, value_on_1, is_scaled)` (pond.py 1868-1884). -/
def mkPublic {n : ℕ} (server0 server1 : Runtime.Player) (v0 v1 : Placed (RT F n)) (scaled : Bool) :
    Except Err (Public F) :=
  if v0.dev = server0.device ∧ v1.dev = server1.device then .ok ⟨n, v0.val, v1.val, scaled⟩
  else .error .assertion

/-- `helper` (pond.py 384-397): the encoded tensor is copied to the devices of the servers. -/
def inputHelper (server0 server1 : Runtime.Player) (c : Fixed.Config) (apply : Bool) :
    RetVal → Except Err (Public F)
  | .tensor v true =>
    let w : RT F v.n := fun i => (Fixed.encode c apply (v.val i) : ZMod F.modulus)
    mkPublic server0 server1 ⟨server0.device, w⟩ ⟨server1.device, w⟩ apply
  | .tensor _ false => .error .assertion
  | .other => .error .attribute

/-- `define_public_input` (pond.py 360-415) once the player is known. -/
def publicInput (server0 server1 : Runtime.Player) (c : Fixed.Config) (apply : Bool) (out : Out) :
    Except Err (Res (Public F)) :=
  perInput (inputHelper server0 server1 c apply) out

end Pond

end Verif.Local
