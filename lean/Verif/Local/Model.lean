import Verif.Aby3.Model
import Verif.Pond.Model
import Verif.Fixed.Model

/-!
# Computations of one player on plaintext

Model of `define_local_computation` in ABY3 (aby3.py 561-649) and Pond (pond.py 515-624), which is
also what `define_private_input` and `define_output` call (aby3.py 651-683, pond.py 625-674).

Plaintext tensors are flattened to their entries, floats are exact rationals. The player's function
is an arbitrary function from the list of its inputs to what Python lets it return. Errors are
values; as they are raised while the graph is built, they come before any randomness.
-/

namespace Verif.Local

open Verif

/-- A plaintext tensor. -/
structure Vec where
  /-- number of entries -/
  n : ℕ
  /-- the entries -/
  val : Fin n → ℚ

/-- Python exceptions. -/
inductive Err
  /-- `ValueError` -/
  | value
  /-- `TypeError` -/
  | type
  /-- `AssertionError` -/
  | assertion
  /-- `AttributeError` -/
  | attribute
  /-- `NotImplementedError` -/
  | notImplemented
deriving DecidableEq, Repr

/-- An element of what the function returns: a `tf.Tensor`, whose static shape may or may not be
fully defined, or another object (one without `shape.is_fully_defined`). -/
inductive RetVal
  | tensor (v : Vec) (static : Bool)
  | other

/-- What the function returns: `None`, a `tf.Tensor`, a list or tuple, or another object. -/
inductive Out
  | nothing
  | tensor (v : Vec) (static : Bool)
  | list (vs : List RetVal)
  | other

/-- What the call returns: `None`, a tensor, or a list of tensors. -/
inductive Res (A : Type)
  | nothing
  | one (x : A)
  | many (xs : List A)

/-- Apply a fallible step to each element in turn, as a list comprehension does: the first
exception is raised. -/
def each {A B : Type} (f : A → Except Err B) : List A → Except Err (List B)
  | [] => .ok []
  | a :: as =>
    match f a with
    | .error e => .error e
    | .ok b =>
      match each f as with
      | .error e => .error e
      | .ok bs => .ok (b :: bs)

namespace Aby3
open Verif.Aby3

/-- `ShareType` (aby3_tensors.py 20-23). -/
inductive Tag
  | pub
  | arithmetic
  | boolean
deriving DecidableEq, Repr

/-- The words of a tensor, whatever their share type. -/
abbrev Words (w n : ℕ) : Type := Fin n → BitVec w

/-- `ABY3PrivateTensor`: the shares, `is_scaled` and `share_type` (aby3_tensors.py 559-600). -/
structure Priv where
  w : ℕ
  n : ℕ
  shares : Shares (Words w n)
  scaled : Bool
  tag : Tag

/-- What is passed as an argument: a public tensor, a private tensor, a backing tensor
(`AbstractTensor`), or anything else, which `reconstruct_input` returns as it is. -/
inductive Arg
  | pub (w n : ℕ) (v : Pub (Words w n)) (scaled : Bool)
  | priv (x : Priv)
  | backing
  | plain (v : Vec)

/-- `_decode` of one word (aby3.py 833-840, native.py `to_native`, bool factory: 0 and 1). -/
def decode {w : ℕ} (frac : ℕ) (scaled : Bool) (x : BitVec w) : ℚ :=
  let n : ℤ := if w = 1 then x.toNat else x.toInt
  if scaled then (n : ℚ) / 2 ^ frac else n

/-- `_encode` of one entry (aby3.py 802-812, the `tf.Tensor` branch) and `factory.tensor`
(native.py 42-45, 60-71: `tf.cast`): towards zero for integer types, nonzero for `tf.bool`. What
`tf.cast` makes of numbers outside the integer type is not specified; here they wrap. -/
def encode (w frac : ℕ) (scaled : Bool) (q : ℚ) : BitVec w :=
  let s := if scaled then q * 2 ^ frac else q
  if w = 1 then (if s = 0 then 0 else 1) else BitVec.ofInt w (Fixed.toInt s)

/-- `_reconstruct` with a given share type (aby3.py 899-936): sum or xor of the shares. -/
def reconstructAs {w n : ℕ} (tag : Tag) (x : Shares (Words w n)) (p : Option (Fin 3)) :
    Except Err (Words w n) :=
  match tag with
  | .arithmetic => .ok (reconstruct (s := .arith w n) x p)
  | .boolean => .ok (toArith (reconstruct (s := .bool w n) (x.map toBool) p))
  | .pub => .error .notImplemented

/-- `reconstruct_input` (aby3.py 600-626). `ABY3PublicTensor.unwrapped` has three elements
(aby3_tensors.py 428-456), so unpacking it into two raises `ValueError`. Private tensors are
reconstructed with the share type of the call, not with their own. -/
def openArg (frac : ℕ) (callTag : Tag) (p : Option (Fin 3)) : Arg → Except Err Vec
  | .plain v => .ok v
  | .pub _ _ _ _ => .error .value
  | .priv x =>
    match reconstructAs callTag x.shares p with
    | .error e => .error e
    | .ok w => .ok ⟨x.n, fun i => decode frac x.scaled (w i)⟩
  | .backing => .error .type

/-- What reconstruction at the player makes the player's server learn: the share it lacks. A player
that is no server is not a party of the protocol's threat model and learns all three. -/
def receive (p : Option (Fin 3)) : Arg → M Unit
  | .priv x =>
    match p with
    | some 0 => M.tell (s := .arith x.w x.n) 0 (x.shares 2).1
    | some 1 => M.tell (s := .arith x.w x.n) 1 (x.shares 0).1
    | some 2 => M.tell (s := .arith x.w x.n) 2 (x.shares 1).1
    | none => pure ()
  | _ => pure ()

/-- All arguments. -/
def receiveAll (p : Option (Fin 3)) : List Arg → M Unit
  | [] => pure ()
  | a :: as => do receive p a; receiveAll p as

/-- `_share` (aby3.py 842-887) by share type. -/
def shareAs {w n : ℕ} (tag : Tag) (v : Words w n) : Except Err (M (Shares (Words w n))) :=
  match tag with
  | .arithmetic => .ok (share (s := .arith w n) v)
  | .boolean => .ok (do
      let x ← share (s := .bool w n) (toBool v)
      return x.map toArith)
  | .pub => .error .notImplemented

/-- `share_output` (aby3.py 587-598) into a factory of `w` bits. -/
def shareOutput (w frac : ℕ) (apply : Bool) (tag : Tag) : RetVal → Except Err (M Priv)
  | .other => .error .attribute
  | .tensor v static =>
    if static then
      match shareAs tag (fun i => encode w frac apply (v.val i)) with
      | .error e => .error e
      | .ok m => .ok (do
          let x ← m
          return ⟨w, v.n, x, apply, tag⟩)
    else .error .assertion

/-- Run the sharings one after the other. -/
def runAll {A : Type} : List (M A) → M (List A)
  | [] => pure []
  | m :: ms => do
    let x ← m
    let xs ← runAll ms
    return x :: xs

/-- The part of `define_local_computation` after the function has returned
(aby3.py 640-649). -/
def shareResult (w frac : ℕ) (apply : Bool) (tag : Tag) : Out → Except Err (M (Res Priv))
  | .nothing => .ok (pure .nothing)
  | .tensor v static =>
    match shareOutput w frac apply tag (.tensor v static) with
    | .error e => .error e
    | .ok m => .ok (do let x ← m; return .one x)
  | .list vs =>
    match each (shareOutput w frac apply tag) vs with
    | .error e => .error e
    | .ok ms => .ok (do let xs ← runAll ms; return .many xs)
  | .other => .error .type

/-- `define_local_computation` (aby3.py 561-649) at a player, with function `f`, results in a
factory of `w` bits. `p` says which server the player is, if any. -/
def defineLocal (w frac : ℕ) (p : Option (Fin 3)) (f : List Vec → Out) (args : List Arg)
    (apply : Bool) (tag : Tag) : Except Err (M (Res Priv)) :=
  match each (openArg frac tag p) args with
  | .error e => .error e
  | .ok inputs =>
    match shareResult w frac apply tag (f inputs) with
    | .error e => .error e
    | .ok m => .ok (do receiveAll p args; m)

end Aby3

namespace Pond
open Verif.Pond

/-- Ring tensors of a factory: `n` residues. -/
abbrev RT (F : Fixed.Factory) : ℕ → Type := fun n => Fin n → ZMod F.modulus

variable (F : Fixed.Factory)

/-- What is passed as an argument (see `Aby3.Arg`), with its `is_scaled` flag. -/
inductive Arg
  | pub (n : ℕ) (v0 v1 : RT F n) (scaled : Bool)
  | priv (n : ℕ) (x : Priv (RT F n)) (scaled : Bool)
  | masked (n : ℕ) (x : Masked (RT F n)) (scaled : Bool)
  | backing
  | plain (v : Vec)

/-- A private tensor that is returned. -/
structure Shared where
  n : ℕ
  x : Priv (RT F n)
  scaled : Bool

variable {F}

/-- `reconstruct_input` (pond.py 570-596). -/
def openArg (c : Fixed.Config) : Arg F → Except Err Vec
  | .plain v => .ok v
  | .pub n v0 _ scaled => .ok ⟨n, fun i => Fixed.decodePond F c scaled (v0 i)⟩
  | .priv n x scaled => .ok ⟨n, fun i => Fixed.decodePond F c scaled (reconstruct x i)⟩
  | .masked n x scaled => .ok ⟨n, fun i => Fixed.decodePond F c scaled (reconstruct x.unmasked i)⟩
  | .backing => .error .type

/-- `share_output` (pond.py 542-568). With `masked`, line 560 applies a unary plus to a backing
tensor; no tensor class defines `__pos__`, so Python raises `TypeError`. -/
def shareOutput (c : Fixed.Config) (apply masked : Bool) :
    RetVal → Except Err (RandM (RT F) (Shared F))
  | .other => .error .attribute
  | .tensor v static =>
    if static then
      if masked then .error .type
      else .ok ((share (T := RT F) (s := v.n)
        (fun i => (Fixed.encode c apply (v.val i) : ZMod F.modulus))).bind fun x =>
          .pure ⟨v.n, x, apply⟩)
    else .error .assertion

/-- Run the sharings one after the other. -/
def runAll {A : Type} : List (RandM (RT F) A) → RandM (RT F) (List A)
  | [] => .pure []
  | m :: ms => m.bind fun x => (runAll ms).bind fun xs => .pure (x :: xs)

/-- After the function has returned (pond.py 611-624). -/
def shareResult (c : Fixed.Config) (apply masked : Bool) :
    Out → Except Err (RandM (RT F) (Res (Shared F)))
  | .nothing => .ok (.pure .nothing)
  | .tensor v static =>
    match shareOutput c apply masked (.tensor v static) with
    | .error e => .error e
    | .ok m => .ok (m.bind fun x => .pure (.one x))
  | .list vs =>
    match each (shareOutput c apply masked) vs with
    | .error e => .error e
    | .ok ms => .ok ((runAll ms).bind fun xs => .pure (.many xs))
  | .other => .error .type

/-- `define_local_computation` (pond.py 515-624). -/
def defineLocal (c : Fixed.Config) (f : List Vec → Out) (args : List (Arg F))
    (apply masked : Bool) : Except Err (RandM (RT F) (Res (Shared F))) :=
  match each (openArg c) args with
  | .error e => .error e
  | .ok inputs => shareResult c apply masked (f inputs)

end Pond

end Verif.Local
