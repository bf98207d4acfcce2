import Verif.Aby3.NatExp
import Verif.Aby3.Recip
import Verif.Aby3.Sort

/-!
# Softmax of a private tensor

`tf_encrypted/protocol/aby3/aby3.py`: `_reduce_max_network_private` with an axis (5073-5093) and
`_softmax_private` (5526-5538) with `approx_type="mp-spdz"`, the default. As in the model of `sort`, the
axis that is reduced is the first one: a tensor has `n` rows, the classes, and `c` columns. In the code
it is the last axis; the transpositions are permutations of the elements.
-/

namespace Verif.Aby3

open Verif

variable {w n c : ℕ}

/-- `gather(y, [0], axis)`, and `gather(y, 0, axis)`, which has the same elements. -/
def firstRow (h : 0 < n) (x : T (.arith w (n * c))) : T (.arith w c) :=
  fun k => x (finProdFinEquiv (⟨0, h⟩, k))

/-- One slice along the axis. -/
def row (i : Fin n) (x : T (.arith w (n * c))) : T (.arith w c) := fun k => x (finProdFinEquiv (i, k))

/-- A row, broadcast to all rows. -/
def spreadRows (n : ℕ) (x : T (.arith w c)) : T (.arith w (n * c)) := fun k => x (finProdFinEquiv.symm k).2

/-- `reduce_sum(x, axis)`. -/
def colSums (x : T (.arith w (n * c))) : T (.arith w c) := fun k => ∑ i : Fin n, x (finProdFinEquiv (i, k))

/-- `reduce_max(x, axis, method="network")` (aby3.py:5086-5092): sort in descending order, take the
first. -/
def reduceMaxNet (n c : ℕ) (x : Shares (T (.arith w (n * c)))) : Except Err (M (Shares (T (.arith w c)))) :=
  if h : 0 < n then
    match sort false n c x with
    | .error e => .error e
    | .ok s => .ok do
      let y ← s
      return y.map (firstRow h)
  else .error .valueError

/-- The last steps, `norm = reciprocal(reduce_sum(ex), nonsigned=True)` and `ex * norm`
(aby3.py:5535-5538). -/
def softmaxCont (rev : BitVec w → BitVec w) (frac m prec : ℕ) (plan : Option (BitVec w × BitVec w)) :
    Except Err (Shares (T (.arith w (n * c)))) → M (Except Err (Shares (T (.arith w (n * c)))))
  | .error e => return .error e
  | .ok ex =>
    match recipPos rev frac m prec (ex.map colSums) with
    | .error e => return .error e
    | .ok p => do
      let r ← p
      let z ← mulS frac plan ex (r.map (spreadRows n))
      return .ok z

/-- `x - logits_max - precision` (aby3.py:5530-5531). The number `2^-frac` is lifted to a scaled
constant. -/
def softmaxShift (frac : ℕ) (x : Shares (T (.arith w (n * c)))) (mx : Shares (T (.arith w c))) :
    Shares (T (.arith w (n * c))) :=
  subPub (Shares.map₂ (· - ·) x (mx.map (spreadRows n))) fun _ _ => constWord w frac (1 / 2 ^ frac)

/-- The softmax once the maximum is known (aby3.py:5529-5538). `m` and `prec` are those of
`reciprocal`. -/
def softmaxTail (rev : BitVec w → BitVec w) (frac m prec : ℕ) (x : Shares (T (.arith w (n * c))))
    (mx : Shares (T (.arith w c))) : Except Err (M (Except Err (Shares (T (.arith w (n * c)))))) :=
  match natExp frac .neg (softmaxShift frac x mx), mulPlan w frac true true with
  | .error e, _ => .error e
  | _, .error e => .error e
  | .ok p, .ok plan => .ok do
    let ex ← p
    softmaxCont rev frac m prec plan ex

/-- What follows the maximum; an error stops the construction of the graph. -/
def softmaxRun (rev : BitVec w → BitVec w) (frac m prec : ℕ) (x : Shares (T (.arith w (n * c))))
    (mx : Shares (T (.arith w c))) : M (Except Err (Shares (T (.arith w (n * c))))) :=
  match softmaxTail rev frac m prec x mx with
  | .error e => return .error e
  | .ok p => p

/-- `softmax(x)`: the maximum is found with a sorting network, the default. -/
def softmaxNet (rev : BitVec w → BitVec w) (frac m prec n c : ℕ) (x : Shares (T (.arith w (n * c)))) :
    Except Err (M (Except Err (Shares (T (.arith w (n * c)))))) :=
  match reduceMaxNet n c x with
  | .error e => .error e
  | .ok s => .ok do
    let mx ← s
    softmaxRun rev frac m prec x mx

/-- `softmax(x, max_method="tree")`. -/
def softmaxTree (rev : BitVec w → BitVec w) (frac m prec n c : ℕ) (x : Shares (T (.arith w (n * c)))) :
    Except Err (M (Except Err (Shares (T (.arith w (n * c)))))) :=
  if h : 0 < n then .ok do
    let mx ← reduceMaxTree (List.ofFn fun i : Fin n => x.map (row i)) (by
      rw [ne_eq, List.ofFn_eq_nil_iff]; omega)
    softmaxRun rev frac m prec x mx
  else .error .valueError

end Verif.Aby3
