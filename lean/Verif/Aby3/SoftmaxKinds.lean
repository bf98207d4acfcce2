import Verif.Aby3.Softmax
import Verif.Aby3.Exp19

/-!
# Softmax with the other approximations of the exponential

`tf_encrypted/protocol/aby3/aby3.py`: `softmax(x, approx_type, max_method)` (1569-1577, 5526-5538) and
`_exp_private` (5676-5693), for every value of `approx_type` and both ways to find the maximum. As in
`Softmax.lean` the axis that is reduced is the first one.
-/

namespace Verif.Aby3

open Verif

variable {w n c : ℕ}

/-- The argument `approx_type`; `other` is any other string. -/
inductive ExpKind
  | mpSpdz
  | as2019
  | infinity
  | other
deriving DecidableEq, Repr

/-- `prot.exp(adjusted_x, approx_type=approx_type, sign=-1)` (aby3.py:5533, 5676-5693). For an unknown
approximation `_exp_private` returns `None`, and `reduce_sum(None)` (aby3.py:5536, 1428-1430, 2019) raises
a `TypeError`. -/
def softmaxExp (kind : ExpKind) (rev : BitVec w → BitVec w) (frac m : ℕ) (x : Shares (T (.arith w n))) :
    Except Err (M (Except Err (Shares (T (.arith w n))))) :=
  match kind with
  | .mpSpdz => natExp frac .neg x
  | .as2019 => expAs rev frac m x
  | .infinity =>
    match expInf frac x with
    | .error e => .error e
    | .ok p => .ok do
      let z ← p
      return .ok z
  | .other => .error .typeError

/-- The softmax once the maximum is known (aby3.py:5529-5538). -/
def softmaxKindTail (kind : ExpKind) (rev : BitVec w → BitVec w) (frac m prec : ℕ)
    (x : Shares (T (.arith w (n * c)))) (mx : Shares (T (.arith w c))) :
    Except Err (M (Except Err (Shares (T (.arith w (n * c)))))) :=
  match softmaxExp kind rev frac m (softmaxShift frac x mx), mulPlan w frac true true with
  | .error e, _ => .error e
  | _, .error e => .error e
  | .ok p, .ok plan => .ok do
    let ex ← p
    softmaxCont rev frac m prec plan ex

/-- What follows the maximum; an error stops the construction of the graph. -/
def softmaxKindRun (kind : ExpKind) (rev : BitVec w → BitVec w) (frac m prec : ℕ)
    (x : Shares (T (.arith w (n * c)))) (mx : Shares (T (.arith w c))) :
    M (Except Err (Shares (T (.arith w (n * c))))) :=
  match softmaxKindTail kind rev frac m prec x mx with
  | .error e => return .error e
  | .ok p => p

/-- `reduce_max(x, axis=-1, keepdims=True, method=max_method)` (aby3.py:5528). -/
def softmaxMax (network : Bool) (n c : ℕ) (x : Shares (T (.arith w (n * c)))) :
    Except Err (M (Shares (T (.arith w c)))) :=
  match network with
  | true => reduceMaxNet n c x
  | false =>
    if h : 0 < n then .ok (reduceMaxTree (List.ofFn fun i : Fin n => x.map (row i)) (by
      rw [ne_eq, List.ofFn_eq_nil_iff]; omega))
    else .error .valueError

/-- `softmax(x, approx_type, max_method)` (aby3.py:5526-5538). -/
def softmaxKind (kind : ExpKind) (network : Bool) (rev : BitVec w → BitVec w) (frac m prec n c : ℕ)
    (x : Shares (T (.arith w (n * c)))) : Except Err (M (Except Err (Shares (T (.arith w (n * c)))))) :=
  match softmaxMax network n c x with
  | .error e => .error e
  | .ok s => .ok do
    let mx ← s
    softmaxKindRun kind rev frac m prec x mx

end Verif.Aby3
