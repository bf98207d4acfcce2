import Mathlib.Data.List.Basic

/-!
# The cache of operations and compiled functions

Models `memoize` (`protocol/protocol.py`:90-121) together with `function` (163-192): the cache `nodes` is one
dictionary for eager calls and for calls made while a function is traced. A tensor made during a trace
belongs to that trace; TensorFlow refuses it anywhere else. What the operations compute is not modelled here
(C38, C86), only where their results can be used. Results of `None` are never cached and left out.
-/

namespace Verif.Runtime.Trace

/-- Eager code, or a trace. Every tracing of a function is a trace of its own. -/
inductive World
  | eager
  | trace (k : ℕ)
deriving DecidableEq, Repr

/-- A tensor: which one, and where it was made. -/
structure T where
  id : ℕ
  made : World
deriving DecidableEq, Repr

/-- The key of the cache (protocol.py:108-110): the name of the operation and its arguments, by identity. -/
structure Key where
  op : String
  args : List T
deriving DecidableEq, Repr

/-- The cache, newest entries first, and the number of the next tensor. -/
structure State where
  nodes : List (Key × T)
  next : ℕ

/-- `nodes.get(node_key, None)` -/
def get (nodes : List (Key × T)) (k : Key) : Option T :=
  (nodes.find? fun e => e.1 = k).map (·.2)

/-- `cache_nodes` (protocol.py:103-119): a cached result is returned as it is; otherwise the operation makes
a new tensor where it is called. -/
def call (s : State) (w : World) (k : Key) : State × T :=
  match get s.nodes k with
  | some t => (s, t)
  | none => (⟨(k, ⟨s.next, w⟩) :: s.nodes, s.next + 1⟩, ⟨s.next, w⟩)

/-- A history of calls, each made in eager code or in a trace. -/
def run (s : State) : List (World × Key) → State × List T
  | [] => (s, [])
  | (w, k) :: h =>
    let r := call s w k
    let rest := run r.1 h
    (rest.1, r.2 :: rest.2)

/-- `nodes` at the start -/
def start (next : ℕ) : State := ⟨[], next⟩

end Verif.Runtime.Trace
