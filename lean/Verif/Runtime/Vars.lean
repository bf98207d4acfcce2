import Mathlib.Algebra.Group.Defs
import Mathlib.Data.List.Basic

/-!
# Variables

Models the factory variables (`tensor/native.py`:603-625, `tensor/int128.py` likewise,
`tensor/int100.py`:798-825, `tensor/boolfactory.py`:281-303), the variables of the protocols
(`pond.py`:2137-2204, `aby3_tensors.py`:515-645) and `assign` (`pond.py`:843-889, `aby3.py`:1117-1169).

A factory variable is a live cell (`tf.Variable`) together with the value it had when it was created,
which is what it is as a tensor (`_value`). A protocol variable consists of such components: two in Pond,
three (public) or six (private) in ABY3. The contents of a component (in an int100 variable: all its
residues) is an element of `G`.
-/

namespace Verif.Runtime.Vars

variable {G : Type}

/-- The type of a protocol tensor, as far as `assign` looks at it. -/
structure Meta where
  /-- private or public -/
  priv : Bool
  /-- `is_scaled` -/
  scaled : Bool
  deriving DecidableEq

/-- A protocol tensor; `shareType` (ABY3: arithmetic or boolean) is not looked at by `assign`. -/
structure Tensor (G : Type) where
  info : Meta
  shareType : Bool
  comps : List G

/-- A protocol variable. -/
structure Var (G : Type) where
  info : Meta
  shareType : Bool
  /-- the values the components had when they were created (native.py:611) -/
  snapshot : List G
  /-- the live cells -/
  live : List G
  /-- whether the factory's `assign` raises after assigning (int100.py:811-819, boolfactory.py:292-298) -/
  raising : Bool

/-- What `assign` does to the caller. -/
inductive Res
  | ok
  | assertion
  | typeError
  deriving DecidableEq

/-- Assign the components one after the other; an exception leaves the remaining ones as they were. -/
def assignComps (raising : Bool) : List G → List G → List G × Bool
  | c :: cells, v :: vals =>
    if raising then (v :: cells, true)
    else
      let r := assignComps raising cells vals
      (v :: r.1, r.2)
  | cells, _ => (cells, false)

/-- `assign` (pond.py:843-889, aby3.py:1117-1169). -/
def Var.assign (v : Var G) (t : Tensor G) : Var G × Res :=
  if v.info.priv ≠ t.info.priv then (v, .assertion)
  else if v.info.scaled ≠ t.info.scaled then (v, .assertion)
  else
    let r := assignComps v.raising v.live t.comps
    ({ v with live := r.1 }, if r.2 then .typeError else .ok)

/-- `read_value` (pond.py:2161-2169 and 2196-2204, aby3_tensors.py:536-544 and 634-645). -/
def Var.read (v : Var G) : Tensor G := ⟨v.info, v.shareType, v.live⟩

/-- The variable used as a tensor: every operation works on the components' `_value`. -/
def Var.use (v : Var G) : Tensor G := ⟨v.info, v.shareType, v.snapshot⟩

/-- `define_private_variable`/`define_public_variable`: the initial value is read once. -/
def Var.new (raising : Bool) (t : Tensor G) : Var G := ⟨t.info, t.shareType, t.comps, t.comps, raising⟩

/-- What is assigned. -/
inductive Src (G : Type)
  | tensor (t : Tensor G)
  /-- `assign(v, u.read_value())` -/
  | read (u : ℕ)
  /-- `assign(v, u)` -/
  | var (u : ℕ)

/-- The assigned tensor. -/
def Src.eval (vars : List (Var G)) : Src G → Option (Tensor G)
  | .tensor t => some t
  | .read u => vars[u]?.map Var.read
  | .var u => vars[u]?.map Var.use

/-- `prot.assign(vars[i], src)`; an exception is caught by the caller, the state remains. -/
def step (vars : List (Var G)) (a : ℕ × Src G) : List (Var G) :=
  match vars[a.1]?, a.2.eval vars with
  | some v, some t => vars.set a.1 (v.assign t).1
  | _, _ => vars

/-- A history of assignments. -/
def run (vars : List (Var G)) (h : List (ℕ × Src G)) : List (Var G) := h.foldl step vars

end Verif.Runtime.Vars
