import Verif.Keras.Weights

/-!
# `BatchNormalization`

`tf_encrypted/keras/layers/normalization.py` 89-246, in exact real arithmetic.
-/

namespace Verif.Keras

open Verif.Tensor

/-- What the layer raises. -/
inductive NormErr
  | value
  | index
  | unbound
  | notImplemented
  | shape
  deriving DecidableEq, Repr

/-- An operation on two tensors with broadcasting: `tfe.sub`, `tfe.mul`, `tfe.add`. -/
def bcastOp (f : ℝ → ℝ → ℝ) (a b : Ten ℝ) : Except NormErr (Ten ℝ) :=
  match bcastShape a.shape b.shape with
  | some s => .ok ⟨s, fun idx => f (Ten.bget a idx) (Ten.bget b idx)⟩
  | none => .error .shape

/-- The `axis` argument: a number, or a list of which the first entry is taken (normalization.py
133-136). -/
inductive AxisArg
  | num (a : ℤ)
  | list (l : List ℤ)

/-- The constructor (normalization.py 133-144): only 1 and 3 are accepted. -/
def normAxis : AxisArg → Except NormErr ℕ
  | .num a => if a = 1 then .ok 1 else if a = 3 then .ok 3 else .error .value
  | .list [] => .error .index
  | .list (a :: _) => if a = 1 then .ok 1 else if a = 3 then .ok 3 else .error .value

/-- `param_shape` (normalization.py 151-158). `input_shape[self.axis]` is read first, and no shape is
assigned for ranks other than 2 and 4. -/
def normParam (axis : ℕ) (input : List ℕ) : Except NormErr (List ℕ) :=
  match input[axis]? with
  | none => .error .index
  | some c =>
      if input.length = 2 then .ok ([1, 1].set axis c)
      else if input.length = 4 then .ok ([1, 1, 1, 1].set axis c)
      else .error .unbound

/-- The weights of the layer and the denominator it keeps beside them. -/
structure NormState where
  gamma : Option (Ten ℝ)
  beta : Option (Ten ℝ)
  mean : Ten ℝ
  variance : Ten ℝ
  denom : Ten ℝ

/-- `build` (normalization.py 150-186). The initialisers are called with the shape of the parameters;
`none` for `gamma` or `beta` is `scale=False` or `center=False`. -/
noncomputable def normBuild (axis : ℕ) (ε : ℝ) (gamma beta : Option (List ℕ → Ten ℝ)) (mean variance : List ℕ → Ten ℝ)
    (input : List ℕ) : Except NormErr NormState :=
  match normParam axis input with
  | .error e => .error e
  | .ok s => .ok
      { gamma := gamma.map fun g => g s
        beta := beta.map fun b => b s
        mean := mean s
        variance := variance s
        denom := normDenom ε (variance s) }

/-- `call` (normalization.py 188-210). -/
noncomputable def normCall (st : NormState) (x : Ten ℝ) : Except NormErr (Ten ℝ) :=
  match st.gamma, st.beta with
  | none, none => do
      let d ← bcastOp (· - ·) x st.mean
      bcastOp (· * ·) d st.denom
  | none, some b => do
      let d ← bcastOp (· - ·) x st.mean
      let m ← bcastOp (· * ·) d st.denom
      bcastOp (· + ·) m b
  | some g, none => do
      let d ← bcastOp (· - ·) x st.mean
      let m ← bcastOp (· * ·) g d
      bcastOp (· * ·) m st.denom
  | some g, some b => do
      let d ← bcastOp (· - ·) x st.mean
      let m ← bcastOp (· * ·) g d
      let m ← bcastOp (· * ·) m st.denom
      bcastOp (· + ·) m b

/-- `backward` (normalization.py 212-213). -/
def normBackward (_st : NormState) (_d : Ten ℝ) : Except NormErr (Ten ℝ) := .error .notImplemented

/-- `compute_output_shape` (normalization.py 215-216). -/
def normShape (input : List ℕ) : List ℕ := input

/-- The layer's weights in the order in which `build` adds them. -/
def NormState.weights (st : NormState) : List (Ten ℝ) :=
  st.gamma.toList ++ st.beta.toList ++ [st.mean, st.variance]

/-- `weights[i].reshape(shape)` for every weight of the layer; surplus weights are ignored and missing
ones raise (normalization.py 235-237). -/
def placeAll : List (Ten ℝ) → List (Ten ℝ) → Except NormErr (List (Ten ℝ))
  | [], _ => .ok []
  | _ :: _, [] => .error .index
  | v :: vs, t :: ts =>
      match Tensor.reshape t v.shape with
      | none => .error .shape
      | some r => (placeAll vs ts).map (r :: ·)

/-- The weights are written back where they came from. -/
def NormState.put (st : NormState) (ws : List (Ten ℝ)) : NormState :=
  match st.gamma, st.beta, ws with
  | some _, some _, [g, b, m, v] => { st with gamma := some g, beta := some b, mean := m, variance := v }
  | some _, none, [g, m, v] => { st with gamma := some g, mean := m, variance := v }
  | none, some _, [b, m, v] => { st with beta := some b, mean := m, variance := v }
  | none, none, [m, v] => { st with mean := m, variance := v }
  | _, _, _ => st

/-- `set_weights` (normalization.py 218-246), if it does not raise; what is left behind if it does is in
`Weights.lean`. -/
noncomputable def normSet (ε : ℝ) (st : NormState) (ws : List (Ten ℝ)) : Except NormErr NormState :=
  match placeAll st.weights ws with
  | .error e => .error e
  | .ok rs =>
      let st := st.put rs
      .ok { st with denom := normDenom ε st.variance }

end Verif.Keras
