import Verif.Aby3.Network
import Verif.Aby3.Sigmoid
import Verif.Aby3.Softmax

/-!
# Predictions with a sigmoid or a softmax at the end (ABY3)

`activation="sigmoid"` or `activation="softmax"` of the last layer (`keras/activations.py` 14-16, 37-38), on the scores that
the network of `Network.lean` computes.
-/

namespace Verif.Aby3

open Verif

variable {w p k l : ℕ}

/-- `tfe.sigmoid(x)` with a given number of pieces; the protocol's default is five (aby3.py:1557-1558). -/
def sigmoidHead {n : ℕ} (frac : ℕ) (kind : Pieces) (x : Shares (T (.arith w n))) : M (Except Err (Shares (T (.arith w n)))) :=
  match sigmoid frac x kind with
  | .error e => return .error e
  | .ok s => do
    let y ← s
    return .ok y

/-- A prediction of a model whose last activation is the sigmoid. -/
def predictSigmoid (frac : ℕ) (kind : Pieces) (a : Arch k l) (θ : a.Params (Words w)) (x : T (.arith w (p * k))) :
    Except Err (M (Except Err (Shares (T (.arith w (p * l)))))) :=
  match predict frac a θ x with
  | .error e => .error e
  | .ok prog => .ok do
    let z ← prog
    sigmoidHead frac kind z

/-- The classes first: the model of `softmax` reduces the first axis where the code reduces the last one. -/
def classesFirst (x : T (.arith w (p * l))) : T (.arith w (l * p)) := fun i =>
  x (finProdFinEquiv ((finProdFinEquiv.symm i).2, (finProdFinEquiv.symm i).1))

/-- Once the graph of `softmax` is built, its result with the samples first again. -/
def samplesFirst : Except Err (Shares (T (.arith w (l * p)))) → Except Err (Shares (T (.arith w (p * l))))
  | .error e => .error e
  | .ok y => .ok (y.map classesFirst)

/-- `tfe.softmax(x)` along the last axis (aby3.py:1569-1577, 5526-5538). `m` and `prec` are those of the reciprocal. -/
def softmaxHead (rev : BitVec w → BitVec w) (frac m prec : ℕ) (x : Shares (T (.arith w (p * l)))) :
    M (Except Err (Shares (T (.arith w (p * l))))) :=
  match softmaxNet rev frac m prec l p (x.map classesFirst) with
  | .error e => return .error e
  | .ok s => do
    let y ← s
    return samplesFirst y

/-- A prediction of a model whose last activation is the softmax. -/
def predictSoftmax (rev : BitVec w → BitVec w) (frac m prec : ℕ) (a : Arch k l) (θ : a.Params (Words w))
    (x : T (.arith w (p * k))) : Except Err (M (Except Err (Shares (T (.arith w (p * l)))))) :=
  match predict frac a θ x with
  | .error e => .error e
  | .ok prog => .ok do
    let z ← prog
    softmaxHead rev frac m prec z

end Verif.Aby3
