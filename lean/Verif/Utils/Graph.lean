import Mathlib.Data.Fintype.Card
import Mathlib.Data.Finset.Card
import Mathlib.Logic.Relation
import Mathlib.Tactic.Linarith

/-!
# Searching a graph

`flatten` and `reachable_nodes` of `tf_encrypted/utils.py`. Nodes of a graph are the members of any
finite type; a graph may contain cycles (loops of TensorFlow do). That nodes can be put in a `set` is
taken for granted: TensorFlow 2 lets tensors into sets only in graph mode.
-/

namespace Verif.Utils

/-- What a node is. -/
inductive Kind (N : Type)
  /-- a `tf.Tensor` and the operation that computes it -/
  | tensor (op : N)
  /-- a `tf.Operation`, its inputs and its control inputs -/
  | operation (inputs controls : List N)
  /-- anything else -/
  | other

/-- Arguments: a node, or a list or tuple of arguments. -/
inductive Nest (N : Type)
  | leaf (x : N)
  | list (xs : List (Nest N))

/-- `flatten` (utils.py:5-16). -/
def flatten {N : Type} : Nest N → List N
  | .leaf x => [x]
  | .list xs => (xs.attach.map fun x => flatten x.1).flatten
termination_by n => sizeOf n
decreasing_by
  have := List.sizeOf_lt_of_mem x.2
  simp only [Nest.list.sizeOf_spec]
  omega

/-- The only exception. -/
inductive Err
  | typeError
deriving DecidableEq

variable {N : Type} [DecidableEq N]

/-- `if subnode not in reachable: reachable.add(subnode); queue.append(subnode)` for a list of subnodes
(utils.py:38-40, 44-47). -/
def addNew : List N → Finset N × List N → Finset N × List N
  | [], s => s
  | n :: ns, s => if n ∈ s.1 then addNew ns s else addNew ns (insert n s.1, s.2 ++ [n])

/-- The nodes a node refers to, or `TypeError` (utils.py:35-50). -/
def subnodes (g : N → Kind N) (n : N) : Except Err (List N) :=
  match g n with
  | .tensor op => .ok [op]
  | .operation ins ctrl => .ok (ins ++ ctrl)
  | .other => .error .typeError

/-- Every step takes a node from the queue and moves new ones into it. -/
theorem addNew_measure [Fintype N] (ns : List N) (s : Finset N × List N) :
    (addNew ns s).1ᶜ.card + (addNew ns s).2.length = s.1ᶜ.card + s.2.length := by
  induction ns generalizing s with
  | nil => rfl
  | cons n ns ih =>
    unfold addNew
    split
    · exact ih s
    · rename_i h
      rw [ih]
      have h1 : (insert n s.1)ᶜ.card + 1 = s.1ᶜ.card := by
        rw [Finset.compl_insert, Finset.card_erase_add_one (Finset.mem_compl.2 h)]
      simp only [List.length_append, List.length_singleton]
      omega

/-- The `while` loop (utils.py:32-50). -/
def search [Fintype N] (g : N → Kind N) (s : Finset N × List N) : Except Err (Finset N) :=
  match hq : s.2 with
  | [] => .ok s.1
  | n :: q =>
    match subnodes g n with
    | .error e => .error e
    | .ok ns => search g (addNew ns (s.1, q))
termination_by s.1ᶜ.card + s.2.length
decreasing_by
  rw [addNew_measure, hq]
  simp

/-- `reachable_nodes(*nodes)` (utils.py:19-52). -/
def reachableNodes [Fintype N] (g : N → Kind N) (nodes : List (Nest N)) : Except Err (Finset N) :=
  let ns := flatten (.list nodes)
  search g (ns.toFinset, ns)

end Verif.Utils
