import Mathlib.Logic.Function.Basic
import Mathlib.Data.List.Basic

/-!
# Switching protocols

Models `Protocol.__enter__`/`__exit__` (protocol/protocol.py:28-39), `set_protocol` and `set_config`
(`__init__.py`:63-93) and `get_all_funcs` (protocol/__init__.py:20-31).
-/

namespace Verif.Runtime

variable {P : Type} [DecidableEq P]

/-- What a global name of the package is bound to. -/
inductive Binding (P : Type)
  /-- `_prot_func_not_implemented` -/
  | stub
  /-- a bound method of a protocol object -/
  | method (p : P) (name : String)
  deriving DecidableEq

/-- The public methods of protocol objects, and the names that `get_all_funcs` collects from the classes
Pond, SecureNN and ABY3. -/
structure Classes (P : Type) where
  /-- public methods of an object -/
  methods : P → List String
  /-- `__all_prot_funcs__` -/
  allFuncs : List String

/-- The global state. -/
structure Scope (P : Type) where
  /-- `__protocol__` -/
  current : Option P
  /-- the globals of the package that are, or could be, protocol functions -/
  globals : String → Option (Binding P)
  /-- the attribute `last_protocol` of each protocol object; `none`: never set -/
  last : P → Option (Option P)

/-- `set_protocol` (`__init__.py`:63-83). -/
def setProtocol (K : Classes P) (s : Scope P) (p : Option P) : Scope P :=
  let reset : String → Option (Binding P) := fun n =>
    if n ∈ K.allFuncs then some .stub else s.globals n
  let bound : String → Option (Binding P) :=
    match p with
    | none => reset
    | some q => fun n => if n ∈ K.methods q then some (.method q n) else reset n
  { s with current := p, globals := bound }

/-- `__enter__` (protocol.py:28-31). -/
def enter (K : Classes P) (s : Scope P) (p : P) : Scope P :=
  setProtocol K { s with last := Function.update s.last p (some s.current) } (some p)

/-- `__exit__` (protocol.py:33-39); `none` is the `AttributeError` of a missing `last_protocol`. -/
def exit (K : Classes P) (s : Scope P) (p : P) : Option (Scope P) :=
  (s.last p).map fun q => setProtocol K s q

/-- What a program does with protocols. -/
inductive Block (P : Type)
  | skip
  /-- raise an exception -/
  | raise
  /-- `tfe.set_protocol(p)`; with `none` also the effect of `tfe.set_config` -/
  | set (p : Option P)
  | seq (a b : Block P)
  /-- `with p: body` -/
  | within (p : P) (body : Block P)
  /-- `try: body except: pass` -/
  | guard (body : Block P)

/-- Execution: the final state, and whether an exception is propagating. `__exit__` runs in either
case. -/
def Block.exec (K : Classes P) : Block P → Scope P → Scope P × Bool
  | .skip, s => (s, false)
  | .raise, s => (s, true)
  | .set p, s => (setProtocol K s p, false)
  | .seq a b, s =>
    match a.exec K s with
    | (s', true) => (s', true)
    | (s', false) => b.exec K s'
  | .within p body, s =>
    match body.exec K (enter K s p) with
    | (s', e) =>
      match exit K s' p with
      | some s'' => (s'', e)
      | none => (s', true)
  | .guard body, s => ((body.exec K s).1, false)

end Verif.Runtime
