import Mathlib.Algebra.Group.Defs
import Mathlib.Logic.Function.Basic
import Mathlib.Data.Rat.Defs

/-!
# The optimizers

Models `tf_encrypted/keras/optimizers.py`. A layer's weights are a list of variables; the optimizer
keeps, for each layer it was compiled with (keyed by the identity of the list), one slot per variable
and, for Adam, two scalars per layer.

Secure multiplications may round, each in its own way, so an update takes the number of the
operations carried out before it (`clock`), and the results of the multiplications may depend on it.
The order of reads and writes within a step is that of the code. Name scopes are dropped.
-/

namespace Verif.Keras

/-- What the optimizer and the layers hold: weights, slots and scalars by layer. -/
structure Opt (T S P : Type) where
  /-- the variables of each layer -/
  weights : ℕ → List T
  /-- `self.Vs[id(W)]` and its like; `none` when the key is missing -/
  slots : ℕ → Option (List S × P)
  /-- operations carried out so far -/
  clock : ℕ

variable {T S P : Type}

/-- The outcome of a call: finished, `RuntimeError` (optimizers.py:36-37) or `IndexError`. -/
inductive Outcome
  | done
  | unknownLayer
  | missingGradient
deriving DecidableEq

/-- `for i in range(len(W))` (optimizers.py:41, 104, 180): the body `upd` on the i-th weight, slot and
gradient. A missing gradient or slot raises and leaves what was already assigned. -/
def updateAll (upd : ℕ → T → S → T → T × S) : ℕ → List T → List S → List T →
    (List T × List S) × Outcome
  | _, [], ss, _ => (([], ss), .done)
  | _, w :: ws, [], _ => ((w :: ws, []), .missingGradient)
  | _, w :: ws, s :: ss, [] => ((w :: ws, s :: ss), .missingGradient)
  | t, w :: ws, s :: ss, g :: gs =>
      let r := upd t w s g
      let rest := updateAll upd (t + 1) ws ss gs
      ((r.1 :: rest.1.1, r.2 :: rest.1.2), rest.2)

/-- `apply_gradients` (optimizers.py:35-44, 96-116, 168-191): `pre` updates the scalars of the layer,
`upd` one weight. -/
def Opt.apply (pre : ℕ → P → P) (upd : ℕ → P → T → S → T → T × S) (o : Opt T S P) (k : ℕ)
    (grads : List T) : Opt T S P × Outcome :=
  match o.slots k with
  | none => (o, .unknownLayer)
  | some (ss, p) =>
      let p' := pre o.clock p
      let r := updateAll (fun t => upd t p') (o.clock + 1) (o.weights k) ss grads
      ({ weights := Function.update o.weights k r.1.1
         slots := Function.update o.slots k (some (r.1.2, p'))
         clock := o.clock + 1 + (o.weights k).length }, r.2)

/-- `compile` (optimizers.py:23-33, 66-94, 140-166): fresh slots for every layer listed. -/
def Opt.compile (s0 : S) (p0 : P) (o : Opt T S P) (layers : List ℕ) : Opt T S P :=
  { o with slots := fun k =>
      if k ∈ layers then some ((o.weights k).map fun _ => s0, p0) else o.slots k }

/-- A history of calls. It stops at the first one that raises. -/
def Opt.run (pre : ℕ → P → P) (upd : ℕ → P → T → S → T → T × S) (o : Opt T S P) :
    List (ℕ × List T) → Opt T S P × Outcome
  | [] => (o, .done)
  | (k, g) :: h =>
      match o.apply pre upd k g with
      | (o', .done) => o'.run pre upd h
      | (o', e) => (o', e)

/-- The three ways an operation of the protocol enters an update: multiplication by a Python number,
multiplication of two tensors, division by a public scalar. All take the clock. -/
structure Ops (T : Type) where
  /-- `c * x` for the `j`-th such product of the step -/
  scale : ℕ → ℕ → ℚ → T → T
  /-- `x * y` -/
  mul : ℕ → ℕ → T → T → T
  /-- `x / y` for public `y` -/
  div : ℕ → ℕ → T → T → T
  /-- `tfe.maximum` -/
  max : ℕ → T → T → T
  /-- `tfe.inv_sqrt` -/
  invSqrt : ℕ → T → T
  /-- `lift` of a Python number -/
  const : ℚ → T

variable [AddCommGroup T]

/-- `SGD.apply_gradients` for one weight (optimizers.py:42-44). The product with the gradient is
written twice; `j = 1` and `j = 2` are its two results. -/
def sgd (op : Ops T) (momentum lr : ℚ) (t : ℕ) (_ : Unit) (W V G : T) : T × T :=
  let diff := op.scale t 0 momentum V
  (W - (diff + op.scale t 1 lr G), diff + op.scale t 2 lr G)

/-- `AMSgrad.apply_gradients` for one weight (optimizers.py:105-116); the slot is (M, V, Vhat). -/
def amsgrad (op : Ops T) (lr beta1 beta2 eps : ℚ) (t : ℕ) (_ : Unit) (W : T) (s : T × T × T) (G : T) :
    T × (T × T × T) :=
  let M := op.scale t 0 beta1 s.1 + op.scale t 1 (1 - beta1) G
  let V := op.scale t 2 beta2 s.2.1 + op.mul t 0 (op.scale t 3 (1 - beta2) G) G
  let Vhat := op.max t s.2.2 V
  let diff := op.mul t 1 (op.scale t 4 lr M) (op.invSqrt t (Vhat + op.const eps))
  (W - diff, (M, V, Vhat))

/-- The running powers of Adam (optimizers.py:175-176); the scalars are (beta1_pow, beta2_pow). -/
def adamPre (op : Ops T) (beta1 beta2 : ℚ) (t : ℕ) (p : T × T) : T × T :=
  (op.scale t 0 beta1 p.1, op.scale t 1 beta2 p.2)

/-- `Adam.apply_gradients` for one weight (optimizers.py:181-191); the slot is (M, V). -/
def adam (op : Ops T) (lr beta1 beta2 eps : ℚ) (t : ℕ) (p : T × T) (W : T) (s : T × T) (G : T) :
    T × (T × T) :=
  let M := op.scale t 0 beta1 s.1 + op.scale t 1 (1 - beta1) G
  let V := op.scale t 2 beta2 s.2 + op.mul t 0 (op.scale t 3 (1 - beta2) G) G
  let mhat := op.div t 0 M (op.const 1 - p.1)
  let vhat := op.div t 1 V (op.const 1 - p.2)
  let diff := op.mul t 1 (op.scale t 4 lr mhat) (op.invSqrt t (vhat + op.const eps))
  (W - diff, (M, V))

end Verif.Keras
