import Mathlib.Data.List.Basic

/-!
# The training, prediction and evaluation loops

`tf_encrypted/keras/models/base_model.py`: `fit` (79-128), `predict` (143-170), `evaluate` (179-216) and
`data_wrap` (219-283). A tensor is the list of its samples along the first axis together with the shape
of one sample. One training step, one forward pass and one metric are parameters. Loops carry fuel: the
result `none` means that the loop was still running when the fuel was used up.
-/

namespace Verif.Keras

/-- The exceptions that the loops can raise. -/
inductive LoopErr
  | typeError
  | indexError
  | valueError
  | zeroDivision
  | /-- raised inside a training step -/ step
  deriving DecidableEq, Repr

/-- A private tensor: the shape of one sample, and the samples. -/
structure Data (α : Type) where
  sampleShape : List ℕ
  rows : List α

/-- `x[a:b]` along the first axis; `None` as `b` means up to the end. -/
def slice {α : Type} (a : ℕ) (b : Option ℕ) (l : List α) : List α :=
  match b with
  | none => l.drop a
  | some b => (l.take b).drop a

/-- Where a generator of `data_wrap` stands: before the test of the loop, or at the `yield`. -/
inductive GenSt
  | test (start : ℕ) (stop : Option ℕ)
  | yielded (start : ℕ) (stop : Option ℕ)
  deriving DecidableEq, Repr

/-- `while start_index < limit: yield batch(start_index, end_index)` up to the next `yield`. -/
def genTest {B : Type} (limit : ℕ) (batch : ℕ → Option ℕ → B) (start : ℕ) (stop : Option ℕ) :
    Except LoopErr (Option (B × GenSt)) :=
  if start < limit then .ok (some (batch start stop, .yielded start stop)) else .ok none

/-- `next(generator)` (base_model.py:224-232 and the three copies of it). Adding `None` is a
`TypeError`. The state after exhaustion is again exhausted. -/
def genNext {B : Type} (limit : ℕ) (size : Option ℕ) (batch : ℕ → Option ℕ → B) :
    GenSt → Except LoopErr (Option (B × GenSt))
  | .test s e => genTest limit batch s e
  | .yielded s e =>
    match size, e with
    | some k, some e => genTest limit batch (s + k) (some (e + k))
    | _, _ => .error .typeError

/-- `start_index = 0; end_index = batch_size`. -/
def genInit (size : Option ℕ) : GenSt := .test 0 size

/-- `x_data[0].shape[0]` where `x_data` is a tensor (base_model.py:227): its first sample, and the first
dimension of that. -/
def firstSampleDim {α : Type} (x : Data α) : Except LoopErr ℕ :=
  match x.rows, x.sampleShape with
  | [], _ => .error .indexError
  | _, [] => .error .indexError
  | _ :: _, d :: _ => .ok d

/-- `steps is not None and index + 1 >= steps` (base_model.py:127, 207). -/
def enough (steps : Option ℕ) (index : ℕ) : Bool :=
  match steps with
  | none => false
  | some k => k ≤ index + 1

/-- The loop over one epoch (base_model.py:121-128): `index` counts from zero, `next` is the iterator. -/
def epochLoop {B S W : Type} (next : S → Except LoopErr (Option (B × S))) (step : W → B → Except LoopErr W)
    (steps : Option ℕ) : ℕ → ℕ → S → W → Option (Except LoopErr (W × S))
  | 0, _, _, _ => none
  | fuel + 1, index, s, w =>
    match next s with
    | .error e => some (.error e)
    | .ok none => some (.ok (w, s))
    | .ok (some (b, s')) =>
      match step w b with
      | .error e => some (.error e)
      | .ok w' =>
        if enough steps index then some (.ok (w', s'))
        else epochLoop next step steps fuel (index + 1) s' w'

/-- `for e in range(epochs)` (base_model.py:118-128): all epochs draw from the one iterator that was
made before the loop (line 115). -/
def epochs {B S W : Type} (next : S → Except LoopErr (Option (B × S))) (step : W → B → Except LoopErr W)
    (steps : Option ℕ) (fuel : ℕ) : ℕ → S → W → Option (Except LoopErr (W × S))
  | 0, s, w => some (.ok (w, s))
  | n + 1, s, w =>
    match epochLoop next step steps fuel 0 s w with
    | none => none
    | some (.error e) => some (.error e)
    | some (.ok (w', s')) => epochs next step steps fuel n s' w'

/-- `fit_batch` (base_model.py:53-66) on a batch: every loss computes `1 / batch_size` in its gradient
(losses.py:52, 91, 119), which raises for an empty batch. -/
def fitBatch {X Y W : Type} (train : W → List X × List Y → Except LoopErr W) (w : W) (b : List X × List Y) :
    Except LoopErr W :=
  if b.2 = [] then .error .zeroDivision else train w b

/-- `fit(x, y, batch_size, epochs, steps_per_epoch)` with two private tensors (base_model.py:79-128,
222-234). -/
def fit {X Y W : Type} (train : W → List X × List Y → Except LoopErr W) (x : Data X) (y : Data Y)
    (size : Option ℕ) (nEpochs : ℕ) (steps : Option ℕ) (fuel : ℕ) (w : W) : Option (Except LoopErr W) :=
  -- the limit is computed when the generator first runs, that is in the first epoch
  if nEpochs = 0 then some (.ok w) else
  match firstSampleDim x with
  | .error e => some (.error e)
  | .ok limit =>
    match epochs (genNext limit size fun a b => (slice a b x.rows, slice a b y.rows)) (fitBatch train)
        steps fuel nEpochs (genInit size) w with
    | none => none
    | some (.error e) => some (.error e)
    | some (.ok (w', _)) => some (.ok w')

/-- `fit` with a list of private tensors as `x` (base_model.py:235-248): here `x_data[0]` is the first
tensor. -/
def fitMany {X Y W : Type} (train : W → List (List X) × List Y → Except LoopErr W) (xs : List (Data X))
    (y : Data Y) (size : Option ℕ) (nEpochs : ℕ) (steps : Option ℕ) (fuel : ℕ) (w : W) :
    Option (Except LoopErr W) :=
  if nEpochs = 0 then some (.ok w) else
  match xs with
  | [] => some (.error .indexError)
  | x₀ :: _ =>
    match epochs (genNext x₀.rows.length size fun a b => (xs.map fun x => slice a b x.rows, slice a b y.rows))
        (fun w b => if b.2 = [] then .error .zeroDivision else train w b) steps fuel nEpochs (genInit size) w with
    | none => none
    | some (.error e) => some (.error e)
    | some (.ok (w', _)) => some (.ok w')

/-- `next` of an iterator that has the elements of the list left. -/
def listNext {B : Type} : List B → Except LoopErr (Option (B × List B))
  | [] => .ok none
  | b :: t => .ok (some (b, t))

/-- `fit` with an iterator as `x` (base_model.py:220-221): it is used as it is. -/
def fitIter {B W : Type} (train : W → B → Except LoopErr W) (it : List B) (nEpochs : ℕ) (steps : Option ℕ)
    (fuel : ℕ) (w : W) : Option (Except LoopErr W) :=
  match epochs listNext train steps fuel nEpochs it w with
  | none => none
  | some (.error e) => some (.error e)
  | some (.ok (w', _)) => some (.ok w')

/-! ## Prediction -/

/-- What a prediction hands back: plain numbers or a private tensor. -/
inductive Out (Y : Type)
  | plain (v : List Y)
  | secret (v : List Y)
  deriving DecidableEq, Repr

/-- The numbers of a plain result. -/
def Out.plain? {Y : Type} : Out Y → Option (List Y)
  | .plain v => some v
  | .secret _ => none

/-- The contents of a private result. -/
def Out.secret? {Y : Type} : Out Y → Option (List Y)
  | .plain _ => none
  | .secret v => some v

/-- The list of all batches that a generator produces. -/
def drain {B S : Type} (next : S → Except LoopErr (Option (B × S))) : ℕ → S → Option (Except LoopErr (List B))
  | 0, _ => none
  | fuel + 1, s =>
    match next s with
    | .error e => some (.error e)
    | .ok none => some (.ok [])
    | .ok (some (b, s')) =>
      match drain next fuel s' with
      | none => none
      | some (.error e) => some (.error e)
      | some (.ok l) => some (.ok (b :: l))

/-- `make_predict_function(reveal)` (base_model.py:130-141) applied to one batch. -/
def predictStep {X Y : Type} (call : List X → List Y) (reveal : Bool) (b : List X) : Out Y :=
  if reveal then .plain (call b) else .secret (call b)

/-- `np.concatenate` of plain arrays or `tfe.concat` of private tensors; each refuses what the other
takes (base_model.py:152-155, 168). -/
def concatOut {Y : Type} (reveal : Bool) (l : List (Out Y)) : Except LoopErr (Out Y) :=
  if reveal then
    match l.mapM Out.plain? with
    | some vs => .ok (.plain vs.flatten)
    | none => .error .valueError
  else
    match l.mapM Out.secret? with
    | some vs => .ok (.secret vs.flatten)
    | none => .error .typeError

/-- A model keeps the prediction function that it made first: the flag that it was made with
(base_model.py:146-147). -/
structure Model where
  predictFn : Option Bool := none

/-- The predictions that were opened during a call. -/
def opened {Y : Type} (l : List (Out Y)) : List (List Y) :=
  l.filterMap Out.plain?

/-- The result of `predict`: what is returned or raised, the predictions that were opened on the way,
and the model afterwards. -/
structure Predicted (Y : Type) where
  result : Except LoopErr (Out Y)
  opened : List (List Y)
  model : Model

/-- `predict(x, batch_size, reveal)` for a private tensor (base_model.py:143-170, 249-260). `y_preds[0]`
(line 157) raises for no samples. -/
def predict {X Y : Type} (call : List X → List Y) (m : Model) (x : Data X) (size : Option ℕ) (reveal : Bool)
    (fuel : ℕ) : Option (Predicted Y) :=
  let fn := m.predictFn.getD reveal
  match drain (genNext x.rows.length size fun a b => slice a b x.rows) fuel (genInit size) with
  | none => none
  | some (.error e) =>
    -- raised by the generator after the first batch was predicted
    some ⟨.error e, opened [predictStep call fn (slice 0 size x.rows)], ⟨some fn⟩⟩
  | some (.ok bs) =>
    let outs := bs.map (predictStep call fn)
    some ⟨if outs = [] then .error .indexError else concatOut reveal outs, opened outs, ⟨some fn⟩⟩

/-! ## Evaluation -/

/-- The loop of `evaluate` (base_model.py:203-208): collect pairs until the data or the steps run out. -/
def collect {B S : Type} (next : S → Except LoopErr (Option (B × S))) (steps : Option ℕ) :
    ℕ → ℕ → S → Option (Except LoopErr (List B))
  | 0, _, _ => none
  | fuel + 1, index, s =>
    match next s with
    | .error e => some (.error e)
    | .ok none => some (.ok [])
    | .ok (some (b, s')) =>
      if enough steps index then some (.ok [b])
      else
        match collect next steps fuel (index + 1) s' with
        | none => none
        | some (.error e) => some (.error e)
        | some (.ok l) => some (.ok (b :: l))

/-- `evaluate(x, y, batch_size, steps, metrics)` with one metric, for two private tensors
(base_model.py:179-216): labels and predictions are concatenated; there must be something to
concatenate. -/
def evaluate {X Y R : Type} (call : List X → List Y) (metric : List Y → List Y → R) (x : Data X) (y : Data Y)
    (size : Option ℕ) (steps : Option ℕ) (fuel : ℕ) : Option (Except LoopErr R) :=
  match firstSampleDim x with
  | .error e => some (.error e)
  | .ok limit =>
    match collect (genNext limit size fun a b => (slice a b x.rows, slice a b y.rows)) steps fuel 0
        (genInit size) with
    | none => none
    | some (.error e) => some (.error e)
    | some (.ok bs) =>
      if bs = [] then some (.error .valueError)
      else some (.ok (metric (bs.map fun b => b.2).flatten (bs.map fun b => call b.1).flatten))

end Verif.Keras
