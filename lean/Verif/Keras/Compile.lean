import Mathlib.Logic.Function.Basic
import Mathlib.Data.List.Basic

/-!
# Compiling a model, and what a training step then does

`Sequential.compile` and `backward` (`tf_encrypted/keras/models/sequential.py`), `optimizers.get`
(`tf_encrypted/keras/optimizers.py`), `fit_batch` and the part of `fit` that makes and calls the training
function (`tf_encrypted/keras/models/base_model.py`), and `tfe.function` (`protocol.py`).

Layers, losses and optimizers are objects, given by numbers. What is observed is which optimizer object
updates which layer, and which loss is used; the numbers themselves are `Keras/Optim.lean` and
`Keras/Layers.lean`, the batches `Keras/Fit.lean`. Forward passes and the layers' `backward` do not raise
here. The configuration's debug flag stays the same throughout, and the optimizers of earlier calls are kept
by someone, so that a graph that uses them still runs.
-/

namespace Verif.Keras.Compile

/-- The exceptions. -/
inductive Err
  | «attribute»
  | assertion
  | runtime
deriving DecidableEq, Repr

/-- The argument `optimizer` of `compile`: `None`, a string, one of the classes `SGD`, `AMSgrad` and
`Adam`, or one of their instances. -/
inductive Ident
  | none
  | text (s : String)
  | cls
  | inst (k : ℕ)
deriving DecidableEq, Repr

/-- `self._optimizer`: `None`, a string, or an optimizer. -/
inductive Optimizer
  | none
  | text (s : String)
  | inst (k : ℕ)
deriving DecidableEq, Repr

/-- One training step as it is observed: the updates, by optimizer and layer in their order, and the
loss. -/
structure Step where
  updates : List (ℕ × ℕ)
  loss : ℕ
deriving DecidableEq, Repr

/-- A model, and the optimizers that exist. Batches of type `σ` stand for what `tf.function` tells apart:
the shapes and types of the tensors. -/
structure Model (σ : Type) where
  /-- `self.layers` and, layer by layer, `self.weights` -/
  layers : List ℕ := []
  /-- `self._optimizer` -/
  optimizer : Optimizer := .none
  /-- `self._loss` -/
  loss : Option ℕ := none
  /-- the layers that an optimizer was compiled with, its keys `id(W)` -/
  keys : ℕ → List ℕ := fun _ => []
  /-- the next new optimizer -/
  fresh : ℕ
  /-- `self.train_function`, with the graphs it has been traced to -/
  trainFn : Option (σ → Option Step) := none

variable {σ : Type}

/-- The end of `Sequential.add` (sequential.py:86-92), for a layer that is accepted. -/
def Model.add (m : Model σ) (l : ℕ) : Model σ := { m with layers := m.layers ++ [l] }

/-- `_known_optimizers` (optimizers.py:194-198). -/
def knownOptimizers : List String := ["sgd", "amsgrad", "adam"]

/-- `optimizers.get` (optimizers.py:201-209): the optimizer, and the next new one. -/
def get (fresh : ℕ) : Ident → Optimizer × ℕ
  | .cls => (.inst fresh, fresh + 1)
  | .text s => if s ∈ knownOptimizers then (.inst fresh, fresh + 1) else (.text s, fresh)
  | .inst k => (.inst k, fresh)
  | .none => (.none, fresh)

/-- `Sequential.compile` (sequential.py:132-144) and `compile` of the optimizers (optimizers.py:23-33).
The attributes are set before anything is tested. -/
def Model.compile (m : Model σ) (o : Ident) (loss : Option ℕ) : Model σ × Except Err Unit :=
  let g := get m.fresh o
  let m' := { m with optimizer := g.1, fresh := g.2, loss := loss }
  match g.1 with
  | .none => (m', .error .assertion)
  | .text _ => if loss = none then (m', .error .assertion) else (m', .error .attribute)
  | .inst k =>
    if loss = none then (m', .error .assertion)
    else ({ m' with keys := Function.update m'.keys k (m'.layers ++ m'.keys k) }, .ok ())

/-- The loop of `Sequential.backward` (sequential.py:125-130) over the layers from the last to the first:
the updates that were made, and how it ends. -/
def backward (optimizer : Optimizer) (keys : ℕ → List ℕ) : List ℕ → List (ℕ × ℕ) × Except Err Unit
  | [] => ([], .ok ())
  | l :: ls =>
    match optimizer with
    | .inst k =>
      if l ∈ keys k then
        let r := backward optimizer keys ls
        ((k, l) :: r.1, r.2)
      else ([], .error .runtime)
    | _ => ([], .error .attribute)

/-- `fit_batch` (base_model.py:54-67): the updates that were made, and the step or the exception. -/
def Model.fitBatch (m : Model σ) : List (ℕ × ℕ) × Except Err Step :=
  match m.loss with
  | none => ([], .error .attribute)
  | some loss =>
    match backward m.optimizer m.keys m.layers.reverse with
    | (us, .ok _) => (us, .ok ⟨us, loss⟩)
    | (us, .error e) => (us, .error e)

/-- One batch of `fit` (base_model.py:69-74, 112-120) with `tfe.function` (protocol.py:165-193). In debug
mode the Python function is run; otherwise a batch of a new kind is traced, which runs the Python function
without effect and keeps the graph, and the graph is run. The updates that were made, and the outcome. -/
def Model.fit (debug : Bool) (dec : DecidableEq σ) (m : Model σ) (s : σ) :
    Model σ × List (ℕ × ℕ) × Except Err Step :=
  let traces := m.trainFn.getD fun _ => none
  let m' := { m with trainFn := some traces }
  if debug then (m', m'.fitBatch)
  else match traces s with
    | some t => (m', t.updates, .ok t)
    | none =>
      match m'.fitBatch with
      | (_, .error e) => (m', [], .error e)
      | (_, .ok t) => ({ m' with trainFn := some (Function.update traces s (some t)) }, t.updates, .ok t)

/-- A call of the user. -/
inductive Call (σ : Type)
  | add (l : ℕ)
  | compile (o : Ident) (loss : Option ℕ)
  | fit (s : σ)

/-- The model after a call. An exception does not end the program: the user may catch it. -/
def Model.call (debug : Bool) (dec : DecidableEq σ) (m : Model σ) : Call σ → Model σ
  | .add l => m.add l
  | .compile o loss => (m.compile o loss).1
  | .fit s => (m.fit debug dec s).1

/-- The model after a history. -/
def Model.calls (debug : Bool) (dec : DecidableEq σ) (m : Model σ) (h : List (Call σ)) : Model σ :=
  h.foldl (fun m c => m.call debug dec c) m

end Verif.Keras.Compile
