import Mathlib.Logic.Function.Basic
import Mathlib.Data.List.Basic
import Mathlib.Algebra.BigOperators.Group.List.Basic

/-!
# Converted models: evaluating an ONNX graph and its gradients

Models `tf_encrypted/convert/convert.py`: `_build_node` (182-208) as far as names are concerned,
`_build_forward` (210-231) and `_build_backward` (233-262).

A graph is its list of nodes in file order. What a node computes is arbitrary: `fwd` takes the
values of its non-constant inputs and returns its outputs; `bwd` takes the gradients of its outputs
and returns those of its non-constant inputs (`none`: it raises). Weights live inside `fwd`/`bwd`:
`optimizer.apply_gradients` (252) runs after the node's own gradients are computed and no later
step of the same pass reads them.
-/

namespace Verif.Convert

variable {ν : Type} [DecidableEq ν] {V G : Type}

/-- A node of the graph, with the layer built for it (`build_node`). -/
structure Node (ν V G : Type) where
  name : ν
  ins : List ν
  outs : List ν
  fwd : List V → Option (List V)
  bwd : List G → Option (List G)

/-- `model_proto.graph`. -/
structure Graph (ν V G : Type) where
  inputs : List ν
  outputs : List ν
  nodes : List (Node ν V G)

/-- `tfe_nodes[name]` (convert.py 203): a dictionary filled in file order, so the last node of a
name wins. -/
def Graph.layer (g : Graph ν V G) (name : ν) : Option (Node ν V G) :=
  g.nodes.reverse.find? fun nd => nd.name = name

/-- `for i, output in enumerate(outs): d[output] = res[i]`; `none` is the `IndexError`. -/
def setAll {W : Type} : (ν → Option W) → List ν → List W → Option (ν → Option W)
  | env, [], _ => some env
  | _, _ :: _, [] => none
  | env, o :: os, r :: rs => setAll (Function.update env o (some r)) os rs

/-- One iteration of the loop of `forward_function` (convert.py 217-225). -/
def forwardStep (g : Graph ν V G) (env : ν → Option V) (nd : Node ν V G) :
    Option (ν → Option V) := do
  let l ← g.layer nd.name
  let res ← l.fwd (nd.ins.filterMap env)
  setAll env nd.outs res

/-- The loop of `forward_function`. -/
def forwardLoop (g : Graph ν V G) : (ν → Option V) → List (Node ν V G) → Option (ν → Option V)
  | env, [] => some env
  | env, nd :: nds => (forwardStep g env nd).bind fun env => forwardLoop g env nds

/-- `forward_function` (convert.py 213-229). -/
def forward (g : Graph ν V G) (x : List V) : Option (List V) := do
  let env ← setAll (fun _ => none) g.inputs x
  let env ← forwardLoop g env g.nodes
  g.outputs.mapM env

/-- `nodes_output`: the names of inputs and of node outputs (convert.py 187-189, 205-208). -/
def Graph.known (g : Graph ν V G) : List ν := g.inputs ++ g.nodes.flatMap (·.outs)

/-- The inputs of a node that get a gradient (`if input in nodes_output`, convert.py 255-257). -/
def Graph.dyn (g : Graph ν V G) (nd : Node ν V G) : List ν := nd.ins.filter fun i => i ∈ g.known

/-- One iteration of the loop of `backward_function` (convert.py 241-257). The gradients are written
into the dictionary by assignment. -/
def backwardStep (g : Graph ν V G) (env : ν → Option G) (nd : Node ν V G) :
    Option (ν → Option G) := do
  let l ← g.layer nd.name
  let dy ← nd.outs.mapM env
  let dx ← l.bwd dy
  setAll env (g.dyn nd) dx

/-- The loop over `reversed(nodes)`. -/
def backwardLoop (g : Graph ν V G) : (ν → Option G) → List (Node ν V G) → Option (ν → Option G)
  | env, [] => some env
  | env, nd :: nds => (backwardStep g env nd).bind fun env => backwardLoop g env nds

/-- `backward_function` (convert.py 237-260). -/
def backward (g : Graph ν V G) (dy : List G) : Option (List G) := do
  let env ← setAll (fun _ => none) g.outputs dy
  let env ← backwardLoop g env g.nodes.reverse
  g.inputs.mapM env

end Verif.Convert
