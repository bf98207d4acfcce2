import Mathlib.Data.Rat.Defs
import Mathlib.Data.List.Sort
import Mathlib.Data.String.Basic

/-!
# The memoiser

Models `tf_encrypted/protocol/protocol.py` (73-122) and the hand-written caches of `pond.py`.

Python values are those that occur as arguments of protocol methods. Objects with the default hash
(tensors, factories, players) are their identity. Floats are exact rationals. The keys of dictionaries
are strings (keyword arguments), in insertion order and distinct.
-/

namespace Verif.Runtime

/-- Arguments of protocol methods. -/
inductive Py
  | none
  | bool (b : Bool)
  | int (i : ℤ)
  | float (q : ℚ)
  | str (s : String)
  | tuple (l : List Py)
  | list (l : List Py)
  | dict (d : List (String × Py))
  /-- `tf.TensorShape`; an unknown dimension is `none` -/
  | shape (l : List (Option ℕ))
  /-- an object that is hashed and compared by identity -/
  | obj (id : ℕ)
  /-- an object without hash (an array, a slice): its address and its text -/
  | raw (address : ℕ) (text : String)

/-- Dictionary keys, up to Python's `==`: `True == 1 == 1.0`. -/
inductive HK
  | none
  | num (q : ℚ)
  | str (s : String)
  | tuple (l : List HK)
  | obj (id : ℕ)

/-- `sorted(...)` on pairs with distinct string keys (protocol.py:77-81): only the keys are
compared. -/
def sortKeys {α : Type} (d : List (String × α)) : List (String × α) :=
  d.insertionSort fun a b => a.1 ≤ b.1

mutual
/-- `make_hashable` (protocol.py:73-91). -/
def makeHashable : Py → HK
  | .none => .none
  | .bool b => .num (if b then 1 else 0)
  | .int i => .num i
  | .float q => .num q
  | .str s => .str s
  | .tuple l => .tuple (makeList l)
  | .list l => .tuple (makeList l)
  | .dict d => .tuple ((sortKeys (makeDict d)).map fun kv => .tuple [.str kv.1, kv.2])
  | .shape l => .tuple (l.map fun
      | Option.none => .none
      | some n => .num n)
  | .obj id => .obj id
  | .raw a t => .str (toString a ++ t)

/-- `[make_hashable(y) for y in x]`. -/
def makeList : List Py → List HK
  | [] => []
  | x :: l => makeHashable x :: makeList l

/-- The items of a dictionary. -/
def makeDict : List (String × Py) → List (String × HK)
  | [] => []
  | (k, v) :: d => (k, makeHashable v) :: makeDict d
end

/-- One call of a memoised method: on which protocol object, which method, which arguments. -/
structure Call where
  /-- `self` -/
  prot : ℕ
  /-- `func.__name__` -/
  name : String
  /-- positional arguments -/
  args : List Py
  /-- keyword arguments -/
  kwargs : List (String × Py)

/-- The node key (protocol.py:108-110): the protocol object is not part of it. -/
def Call.key (c : Call) : String × HK × HK :=
  (c.name, makeHashable (.tuple c.args), makeHashable (.dict c.kwargs))

variable {C : Type}

/-- Objects by identity, and the global `nodes` (protocol.py:16). An entry may be `None`. -/
structure Memo (C : Type) where
  /-- contents of the objects created so far; the index is the identity -/
  heap : List C
  /-- the cache, newest entry first -/
  nodes : List ((String × HK × HK) × Option ℕ)

open Classical in
/-- `nodes.get(node_key, None)`. -/
noncomputable def Memo.get (m : Memo C) (k : String × HK × HK) : Option ℕ :=
  match m.nodes.find? (fun e => e.1 = k) with
  | some e => e.2
  | Option.none => Option.none

/-- What a method computes from the contents of the objects: a new object, or `None`. -/
abbrev Eval (C : Type) := List C → Call → Option C

/-- Run the method itself. -/
def Memo.fresh (ev : Eval C) (m : Memo C) (c : Call) : Memo C × Option ℕ :=
  match ev m.heap c with
  | some v => ({ m with heap := m.heap ++ [v] }, some m.heap.length)
  | Option.none => (m, Option.none)

/-- `cache_nodes` (protocol.py:103-120). -/
noncomputable def Memo.call (debug : Bool) (ev : Eval C) (m : Memo C) (c : Call) :
    Memo C × Option ℕ :=
  if debug then m.fresh ev c
  else
    match m.get c.key with
    | some id => (m, some id)
    | Option.none =>
      let r := m.fresh ev c
      ({ r.1 with nodes := (c.key, r.2) :: r.1.nodes }, r.2)

/-- What a program does: call methods, or change an object in place. -/
inductive Act (C : Type)
  | call (debug : Bool) (c : Call)
  | mutate (id : ℕ) (v : C)

/-- One action. -/
noncomputable def Memo.act (ev : Eval C) (m : Memo C) : Act C → Memo C
  | .call debug c => (m.call debug ev c).1
  | .mutate id v => { m with heap := m.heap.set id v }

/-- Start: nothing cached. -/
def Memo.empty (objs : List C) : Memo C := ⟨objs, []⟩

/-- A history. -/
noncomputable def Memo.run (ev : Eval C) (m : Memo C) (h : List (Act C)) : Memo C :=
  h.foldl (Memo.act ev) m

/-! ## Hand-written caches in Pond -/

/-- A Pond method with its own cache (pond.py:1073-1102 `transpose`, 1167-1196 `strided_slice`,
1208-1230 `stack`): the key consists of the method name and the operands; `α` is what else the caller
passes (the permutation, the slice, the axis), which the key omits. -/
def handMemo {α X R : Type} [DecidableEq X] (f : X → α → R) (cache : List (X × R)) (x : X) (a : α) :
    List (X × R) × R :=
  match cache.find? (fun e => e.1 = x) with
  | some e => (cache, e.2)
  | none => ((x, f x a) :: cache, f x a)

/-! ## `to_private` -/

/-- The components of a replicated tensor, `x[i][j]` held by server `i`. -/
abbrev Repl (G : Type) := (G × G) × (G × G) × (G × G)

/-- `_zeros_private` (aby3.py:5394-5415): every component is zero; the other methods do not matter
here. -/
def zerosEval {G : Type} [Zero G] : Eval (Repl G) := fun _ c =>
  if c.name = "zeros" then some ((0, 0), (0, 0), (0, 0)) else none

/-- The call `prot.zeros(shape, is_scaled, share_type, factory)` of aby3_tensors.py:490. -/
def zerosCall (prot : ℕ) (shape : List (Option ℕ)) (scaled : Bool) (shareType factory : ℕ) : Call :=
  ⟨prot, "zeros", [.shape shape, .bool scaled, .obj shareType, .obj factory], []⟩

/-- `ABY3PublicTensor.to_private` (aby3_tensors.py:488-493) of the public value `v`, outside debug
mode: take zeros, overwrite the two components that hold the first share, return the same object. -/
noncomputable def toPrivate {G : Type} [Zero G] (m : Memo (Repl G)) (prot : ℕ)
    (shape : List (Option ℕ)) (scaled : Bool) (shareType factory : ℕ) (v : G) :
    Memo (Repl G) × Option ℕ :=
  match m.call false zerosEval (zerosCall prot shape scaled shareType factory) with
  | (m', some id) =>
    match m'.heap[id]? with
    | some x =>
      ({ m' with heap := m'.heap.set id ((v, x.1.2), x.2.1, (x.2.2.1, v)) }, some id)
    | none => (m', none)
  | (m', none) => (m', none)

end Verif.Runtime
