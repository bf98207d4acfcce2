import Verif.Aby3.Poly
import Verif.Fixed.Model

/-!
# ABY3 powers of two

`tf_encrypted/protocol/aby3/aby3.py`: `exp2_pade` (5541-5575), `exp2` with
`approx_type="mp-spdz"` (5593-5614, 5643-5674). Numbers written in the source are exact rationals and
are encoded towards zero (`Fixed.toInt`), as `define_constant` does.
-/

namespace Verif.Aby3

open Verif

variable {w n : ℕ}

/-- The coefficients (aby3.py:5542-5552). -/
def padeCoeffs : List ℚ :=
  [1, 69314 / 100000, 24022 / 100000, 55504 / 1000000, 96183 / 10000000, 13327 / 10000000,
    15510 / 100000000, 14197 / 1000000000, 18633 / 10000000000]

/-- `degree` after the loop that ignores coefficients below the precision (aby3.py:5553-5560). -/
def padeDegree (frac : ℕ) : ℕ :=
  padeCoeffs.length - 1 - (padeCoeffs.reverse.takeWhile fun c => c < 1 / 2 ^ frac).length

/-- A rational constant as a word with `frac` fractional bits (aby3.py:284-328, 793-830). -/
def constWord (w frac : ℕ) (q : ℚ) : BitVec w := BitVec.ofInt w (Fixed.toInt (q * 2 ^ frac))

/-- The loop `for i in range(2, degree)` (aby3.py:5566-5567): `l` is `x_pows[1:i]`, `r` the number
of rounds left. -/
def padeLoop {α : Type} (mul : α → α → M α) (x : α) : ℕ → List α → M (List α)
  | 0, l => return l
  | r + 1, l => do
    let i := l.length + 1
    let y ← mul (l.getD (i / 2 - 1) x) (l.getD ((i + 1) / 2 - 1) x)
    padeLoop mul x r (l ++ [y])

/-- `x_pows[i] * c[i]` for the powers that were computed, and their sum (aby3.py:5569-5573). -/
def padeSum (frac : ℕ) (plan : Option (BitVec w × BitVec w)) :
    List (Shares (T (.arith w n))) → List (BitVec w) → Body (.arith w n) → M (Body (.arith w n))
  | y :: ys, c :: cs, acc => do
    let t ← mulRound frac plan (bilinPub (fun u v => emul id id u v) y fun _ _ => c)
    padeSum frac plan ys cs (.priv (plus t acc))
  | _, _, acc => return acc

/-- A private or public tensor plus the number `0.0`. -/
def plusZero : Body (.arith w n) → Body (.arith w n)
  | .priv a => .priv (addPub a fun _ => 0)
  | .pub a => .pub a

/-- `_exp2_pade_private` (aby3.py:5541-5575), with truncation constants `plan`. The loop stops
before `degree`, so from degree 2 on `x_pows[degree]` is still the integer 0 and the last term is
the number `0.0`. -/
def padeRun (frac : ℕ) (plan : Option (BitVec w × BitVec w)) (x : Shares (T (.arith w n))) :
    M (Body (.arith w n)) := do
  let deg := padeDegree frac
  let ys ← padeLoop (mulS frac plan) x (deg - 2) [x]
  let z ← padeSum frac plan ys ((padeCoeffs.drop 1).map (constWord w frac))
    (.pub fun _ _ => constWord w frac 1)
  return if 2 ≤ deg then plusZero z else z

/-- `exp2_pade` on a scaled tensor: with degree 0, `x_pows[1]` is out of range. -/
def exp2Pade (frac : ℕ) (x : Shares (T (.arith w n))) : Except Err (M (Body (.arith w n))) :=
  if padeDegree frac = 0 then .error .indexError
  else
    match mulPlan w frac true true with
    | .error e => .error e
    | .ok plan => .ok (padeRun frac plan x)

/-- `bits(x, k)` (aby3.py:5696-5707): bit `j` of element `i` at `(i, j)`. -/
def bitRows (k : ℕ) (x : T (.bool w n)) : T (.bool 1 (n * k)) :=
  fun m => ⟨BitVec.ofBool ((x (finProdFinEquiv.symm m).1).bits.getLsbD (finProdFinEquiv.symm m).2.1)⟩

/-- The `sign` argument of `exp2`. -/
inductive SignArg
  | pos
  | neg
  | unknown
deriving DecidableEq, Repr

/-- A private product with a tensor that may be public; the sum of a polynomial of positive degree
is private. -/
def mulBody (frac : ℕ) (x : Body (.arith w n)) (y : Shares (T (.arith w n))) :
    M (Shares (T (.arith w n))) :=
  match x with
  | .priv x => mulS frac none x y
  | .pub x => return pubBilin (fun u v => emul id id u v) x y

/-- The result of `exp2` from the two candidates `g` and `small_result` (aby3.py:5660-5674). -/
def exp2Choose (frac : ℕ) (sign : SignArg) (x : Shares (T (.arith w n)))
    (bx : Shares (T (.bool w n))) (g small : Shares (T (.arith w n))) :
    M (Shares (T (.arith w n))) :=
  match sign with
  | .pos => return g
  | .neg => do
    let o ← msb (subPub x fun _ _ => BitVec.ofInt w (-(frac * 2 ^ frac)))
    selectA o (.priv small) (.pub fun _ _ => 0)
  | .unknown => do
    let s := (bshr (w - 1) bx).map castBool
    let z ← selectA s (.priv g) (.priv small)
    let o ← msb (subPub x fun _ _ => BitVec.ofInt w (-(frac * 2 ^ frac)))
    selectA o (.priv z) (.pub fun _ _ => 0)

/-- `_exp2_private` with `approx_type="mp-spdz"` (aby3.py:5643-5674), once the bit decomposition and
the truncation constants are known. `n_int_bits` is 5, so `amount` is `2**5`. -/
def exp2Run (frac : ℕ) (sign : SignArg) (plan : Option (BitVec w × BitVec w))
    (plan32 : BitVec w × BitVec w) (bits : M (Shares (T (.bool w n))))
    (x : Shares (T (.arith w n))) : M (Shares (T (.arith w n))) := do
  let bx ← bits
  let ix := andConst (BitVec.ofNat w (2 ^ 5 - 1)) (bshr frac bx)
  let fx := andConst (BitVec.ofNat w (2 ^ frac - 1)) bx
  let d ← pow2Run 5 (by omega) (ix.map (bitRows 5))
  let f ← b2aBits fx frac
  let u ← padeRun frac plan f
  let g ← mulBody frac u d
  let small ← heurRun plan32.1 plan32.2 (2 ^ 5) g
  exp2Choose frac sign x bx g small

/-- `exp2` on a scaled tensor. -/
def exp2 (frac : ℕ) (sign : SignArg) (x : Shares (T (.arith w n))) :
    Except Err (M (Shares (T (.arith w n)))) :=
  match a2b none x with
  | .error e => .error e
  | .ok bits =>
    if padeDegree frac = 0 then .error .indexError
    else
      match mulPlan w frac true true, heurPlan w frac (2 ^ 5) with
      | .error e, _ => .error e
      | _, .error e => .error e
      | .ok plan, .ok plan32 => .ok (exp2Run frac sign plan plan32 bits x)

end Verif.Aby3
