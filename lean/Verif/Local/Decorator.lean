import Verif.Local.Model
import Verif.Runtime.Config

/-!
# The decorator `local_computation`

Model of `local_computation` of ABY3 (aby3.py 464-559) and Pond (pond.py 418-513), which are the same
text, and of the first lines of `define_local_computation`, which find the player (aby3.py 582-584,
pond.py 538-540). The rest of `define_local_computation` is `Local/Model.lean`.

Objects are modelled as far as the decorator looks at them: whether they are `None`, a string, a
`Player` or something else, and what their attribute `player_name` is. Keyword arguments are lists of
pairs with distinct names.
-/

namespace Verif.Local

open Verif

/-- An object where a player is expected: `None`, a name, a `Player` (its identity, as in
`Runtime/Config.lean`), or something else. -/
inductive Ref
  | none
  | name (s : String)
  | player (id : ℕ)
  | other
deriving DecidableEq, Repr

/-- An argument of a decorated function. -/
structure PyArg (A : Type) where
  /-- what `define_local_computation` sees -/
  val : A
  /-- the object itself, where a player is expected -/
  self : Ref
  /-- its attribute `player_name`, `none` if there is none -/
  attr : Ref

/-- The function of the player: positional and keyword arguments, as plaintext. -/
abbrev Func (V : Type) : Type := List V → List (String × V) → Out

/-- The configuration in use (`get_config`, config.py 261-263). -/
inductive Conf
  | loc (c : Runtime.LocalConfig)
  | rem (c : Runtime.RemoteConfig)

/-- The players of a configuration. -/
def Conf.players : Conf → List Runtime.Player
  | .loc c => c.players
  | .rem c => c.players

/-- `get_player` by name (config.py 136-142, 221-222): the configuration afterwards and the position
of the player. -/
def Conf.getPlayer : Conf → String → Conf × Option ℕ
  | .loc c, s => (.loc (c.getPlayer s).1, (c.getPlayer s).2)
  | .rem c, s => (.rem c, c.players.findIdx? fun p => p.name == s)

/-- A protocol's `define_local_computation`: the names of its options, and its body once the player is
known, for a function of positional arguments. -/
structure Proto (A V ω R : Type) where
  known : List String
  body : ℕ → (List V → Out) → List A → List (String × ω) → Except Err R

variable {A V ω R : Type}

/-- `define_local_computation(player, computation_fn, arguments=args, **opts)` (aby3.py 561-584,
pond.py 515-540). Options that are not parameters, or that are given already, raise `TypeError`. A
`Player` object is not looked up. -/
def define (P : Proto A V ω R) (c : Conf) (player : Ref) (f : List V → Out) (args : List A)
    (opts : List (String × ω)) : Conf × Except Err R :=
  if opts.any (fun o => decide (o.1 ∉ P.known)) then (c, .error .type)
  else match player with
    | .name s =>
      match c.getPlayer s with
      | (c', some i) => (c', P.body i f args opts)
      | (c', none) => (c', .error .assertion)
    | .player i => (c, P.body i f args opts)
    | .none => (c, .error .assertion)
    | .other => (c, .error .assertion)

/-- `compute_func_kwargs.get("player_name", None)` (aby3.py 526, pond.py 480). -/
def kwPlayer (kw : List (String × PyArg A)) : Ref :=
  match kw.find? fun k => k.1 == "player_name" with
  | some k => k.2.self
  | none => .none

/-- The search for the player (aby3.py 523-534, pond.py 477-488). -/
def resolve (dec : Ref) (args : List (PyArg A)) (kw : List (String × PyArg A)) : Ref :=
  let r := if dec = .none then kwPlayer kw else dec
  if r = .none then
    match args with
    | [] => r
    | a :: _ => a.attr
  else r

/-- A decorated function: configuration, positional and keyword arguments to the configuration
afterwards and the result. -/
abbrev Wrapped (A R : Type) : Type :=
  Conf → List (PyArg A) → List (String × PyArg A) → Conf × Except Err R

/-- `decorator` and `compute_func_wrapper` (aby3.py 518-550, pond.py 472-504). Only the positional
arguments are passed on. -/
def decorator (P : Proto A V ω R) (dec : Ref) (opts : List (String × ω)) (f : Func V) :
    Wrapped A R := fun c args kw =>
  if resolve dec args kw = .none then (c, .error .value)
  else define P c (resolve dec args kw) (fun vs => f vs []) (args.map (·.val)) opts

/-- The argument of `local_computation`: a callable or something else. -/
inductive DecArg (V : Type)
  | func (f : Func V)
  | ref (r : Ref)

/-- What `local_computation` returns: a decorator or a decorated function. -/
inductive Decorated (A V R : Type)
  | decorator (d : Func V → Wrapped A R)
  | wrapped (g : Wrapped A R)

/-- `local_computation` (aby3.py 502-516, 552-559; pond.py 456-470, 506-513). -/
def localComputation (P : Proto A V ω R) (d : DecArg V) (opts : List (String × ω)) :
    Decorated A V R :=
  match d with
  | .func f => .wrapped (decorator P .none opts f)
  | .ref r => .decorator (decorator P r opts)

/-- A value of an option. -/
inductive Opt
  | flag (b : Bool)
  | tag (t : Aby3.Tag)
  | factory (w : ℕ)
  | text (s : String)

/-- A flag among the options, or its default. Values of another type are not modelled: they count as
the default. -/
def flagOr (opts : List (String × Opt)) (name : String) (d : Bool) : Bool :=
  match opts.lookup name with
  | some (.flag b) => b
  | _ => d

/-- The share type among the options (default `ShareType.ARITHMETIC`, aby3.py 567). -/
def tagOr (opts : List (String × Opt)) : Aby3.Tag :=
  match opts.lookup "share_type" with
  | some (.tag t) => t
  | _ => .arithmetic

/-- The word size of the factory among the options (aby3.py 580). -/
def widthOr (opts : List (String × Opt)) (d : ℕ) : ℕ :=
  match opts.lookup "factory" with
  | some (.factory w) => w
  | _ => d

/-- Which server a player is, if any. -/
def serverOf (servers : Fin 3 → ℕ) (i : ℕ) : Option (Fin 3) :=
  if i = servers 0 then some 0 else if i = servers 1 then some 1
  else if i = servers 2 then some 2 else none

/-- `define_local_computation` of ABY3 (aby3.py 561-649). -/
def aby3 (w frac : ℕ) (servers : Fin 3 → ℕ) :
    Proto Aby3.Arg Vec Opt (Verif.Aby3.M (Res Aby3.Priv)) where
  known := ["apply_scaling", "share_type", "name_scope", "factory"]
  body i f args opts :=
    Aby3.defineLocal (widthOr opts w) frac (serverOf servers i) f args
      (flagOr opts "apply_scaling" true) (tagOr opts)

/-- `define_local_computation` of Pond (pond.py 515-624), with one factory. -/
def pond (F : Fixed.Factory) (c : Fixed.Config) :
    Proto (Pond.Arg F) Vec Opt (RandM (Pond.RT F) (Res (Pond.Shared F))) where
  known := ["apply_scaling", "name_scope", "masked", "factory"]
  body _ f args opts :=
    Pond.defineLocal c f args (flagOr opts "apply_scaling" true) (flagOr opts "masked" false)

end Verif.Local
