import Verif.Aby3.Sort

/-!
# ABY3 powers, products and polynomials

`tf_encrypted/protocol/aby3/aby3.py`: `pow` (4083-4100), `polynomial` (4103-4123),
`multi_polynomial` (4126-4156), `polynomial_piecewise` (4159-4212), `sigmoid` (4215-4237),
`pow2_from_bits` (5578-5590), `prod` (5723-5741). Public coefficients are given as the words they
are encoded to.
-/

namespace Verif.Aby3

open Verif

variable {w n : ℕ}

/-- The constants of the truncation after a product of two tensors with flags `sx`, `sy`, if there
is one (aby3.py:2411-2413, 2487-2488). -/
def mulPlan (w frac : ℕ) (sx sy : Bool) : Except Err (Option (BitVec w × BitVec w)) :=
  if sx && sy then
    match heurPlan w frac frac with
    | .error e => .error e
    | .ok p => .ok (some p)
  else .ok none

/-- The truncation itself. -/
def mulRound (frac : ℕ) (plan : Option (BitVec w × BitVec w)) (z : Shares (T (.arith w n))) :
    M (Shares (T (.arith w n))) :=
  match plan with
  | none => return z
  | some p => heurRun p.1 p.2 frac z

/-- `x * y` for private tensors of the same shape (aby3.py:2443-2489). -/
def mulS (frac : ℕ) (plan : Option (BitVec w × BitVec w)) (x y : Shares (T (.arith w n))) :
    M (Shares (T (.arith w n))) := do
  let z ← Aby3.bilin (zs := .arith w n) (fun u v => emul id id u v) (spreadA id) x y
  mulRound frac plan z

/-- The loop of `_pow_private` (aby3.py:4091-4099). `result` is the integer `1` before the first
product; `1 * tmp` is `tmp` (a product with the power of two `2^0`, aby3.py:1256-1266). -/
def powLoop {α : Type} (mul : α → α → M α) (p : ℕ) (result : Option α) (tmp : α) : M α :=
  if h : p = 0 then return result.getD tmp
  else do
    let result ←
      if p % 2 = 1 then
        match result with
        | none => pure (some tmp)
        | some r => do
          let r ← mul r tmp
          pure (some r)
      else pure result
    if p / 2 = 0 then powLoop mul (p / 2) result tmp
    else do
      let tmp ← mul tmp tmp
      powLoop mul (p / 2) result tmp
termination_by p
decreasing_by all_goals omega

/-- `_pow_private`. Without a product (`p = 1`) the truncation is never set up. -/
def pow (frac : ℕ) (sc : Bool) (p : ℕ) (x : Shares (T (.arith w n))) :
    Except Err (M (Shares (T (.arith w n)))) :=
  if p < 1 then .error .assertion
  else
    match mulPlan w frac sc sc with
    | .ok plan => .ok (powLoop (mulS frac plan) p none x)
    | .error e => if p = 1 then .ok (return x) else .error e

/-- `_prod_private` (aby3.py:5723-5741) of the slices along the axis; without any slice the
recursion never ends. -/
def prod (frac : ℕ) (sc : Bool) (ts : List (Shares (T (.arith w n)))) (h : ts ≠ []) :
    Except Err (M (Shares (T (.arith w n)))) :=
  match mulPlan w frac sc sc with
  | .ok plan => .ok (tree (mulS frac plan) ts h)
  | .error e => if ts.length = 1 then .ok (return ts.head h) else .error e

/-- Column `j` of a tensor of `n` rows and `k` columns. -/
def takeCol {k : ℕ} (j : Fin k) (x : T (.arith w (n * k))) : T (.arith w n) :=
  fun i => x (finProdFinEquiv (i, j))

/-- The computation of `_pow2_from_bits_private` (aby3.py:5581-5590) on `n` rows of `k` bits. -/
def pow2Run (k : ℕ) (hk : 0 < k) (bits : Shares (T (.bool 1 (n * k)))) :
    M (Shares (T (.arith w n))) := do
  let d ← mulAbPub (fun _ i => BitVec.ofNat w (2 ^ 2 ^ (finProdFinEquiv.symm i).2.1 - 1)) bits
  tree (mulS 0 none) ((List.finRange k).map fun j => (addPub d fun _ _ => 1).map (takeCol j)) (by
    simp only [ne_eq, List.map_eq_nil_iff, List.finRange_eq_nil_iff]; omega)

/-- `_pow2_from_bits_private` (aby3.py:5578-5590). For `k ≥ 7` the constants do not fit a machine
word and NumPy makes an array of Python objects, which has no encoding; for `k = 0` there is no
slice to multiply. -/
def pow2FromBits (k : ℕ) (bits : Shares (T (.bool 1 (n * k)))) :
    Except Err (M (Shares (T (.arith w n)))) :=
  if hk : 0 < k ∧ k ≤ 6 then .ok (pow2Run k hk.1 bits) else .error .valueError

/-- A coefficient of `polynomial`. -/
inductive Coeff (w : ℕ)
  /-- zero: the term is left out -/
  | zero
  /-- another integer: an unscaled constant, the product is not truncated -/
  | int (c : BitVec w)
  /-- any other number: a constant with the flag of `x`, the product is truncated if that is set -/
  | word (c : BitVec w)
  /-- a power of two `2^(-a)`, `a > 0`: the term is truncated by `a` bits (`mul_pow2`,
  aby3.py:1274-1281) -/
  | shift (a : ℕ)

/-- One term of `polynomial` (aby3.py:4110-4122): `none` when left out. -/
def term (frac : ℕ) (sc : Bool) (x : Shares (T (.arith w n))) (i : ℕ) :
    Coeff w → Except Err (Option (M (Shares (T (.arith w n)))))
  | .zero => .ok none
  | .int c =>
    match pow frac sc i x with
    | .error e => .error e
    | .ok y => .ok (some do
      let y ← y
      return pubBilin (fun u v => emul id id u v) (fun _ _ => c) y)
  | .word c =>
    match pow frac sc i x, mulPlan w frac sc sc with
    | .error e, _ => .error e
    | _, .error e => .error e
    | .ok y, .ok plan => .ok (some do
      let y ← y
      mulRound frac plan (bilinPub (fun u v => emul id id u v) y fun _ _ => c))
  | .shift a =>
    match pow frac sc i x, heurPlan w (if sc then frac else 0) a with
    | .error e, _ => .error e
    | _, .error e => .error e
    | .ok y, .ok p => .ok (some do
      let y ← y
      heurRun p.1 p.2 a y)

/-- The terms from degree `i` on. -/
def termList (frac : ℕ) (sc : Bool) (x : Shares (T (.arith w n))) :
    ℕ → List (Coeff w) → Except Err (List (M (Shares (T (.arith w n)))))
  | _, [] => .ok []
  | i, c :: cs =>
    match term frac sc x i c, termList frac sc x (i + 1) cs with
    | .error e, _ => .error e
    | _, .error e => .error e
    | .ok none, .ok l => .ok l
    | .ok (some m), .ok l => .ok (m :: l)

/-- Compute the terms and add them up. -/
def sumTerms : List (M (Shares (T (.arith w n)))) → Body (.arith w n) → M (Body (.arith w n))
  | [], acc => return acc
  | m :: l, acc => do
    let z ← m
    sumTerms l (.priv (plus z acc))

/-- `_polynomial_private` (aby3.py:4103-4123): `c₀` is the constant coefficient, as a word encoded
like `x`. -/
def polynomial (frac : ℕ) (sc : Bool) (x : Shares (T (.arith w n))) (c₀ : BitVec w)
    (cs : List (Coeff w)) : Except Err (M (Body (.arith w n))) :=
  match termList frac sc x 1 cs with
  | .error e => .error e
  | .ok l => .ok (sumTerms l (.pub fun _ _ => c₀))

/-! ## Piecewise -/

/-- `tile(expand_dims(x, 0), [m, 1, ...])`: `m` rows, all equal to `x`. -/
def tileRows (m : ℕ) (x : T (.arith w n)) : T (.arith w (m * n)) :=
  fun k => x (finProdFinEquiv.symm k).2

/-- A column of numbers, broadcast to `n` columns. -/
def spreadCol {m : ℕ} (n : ℕ) (c : Fin m → BitVec w) : T (.arith w (m * n)) :=
  fun k => c (finProdFinEquiv.symm k).1

/-- The term of degree `i` of `multi_polynomial` (aby3.py:4147-4153): one power, multiplied with
the coefficients of all polynomials. -/
def multiTerm {m : ℕ} (frac : ℕ) (sc : Bool) (x : Shares (T (.arith w n))) (i : ℕ)
    (c : Fin m → BitVec w) : Except Err (M (Shares (T (.arith w (m * n))))) :=
  match pow frac sc i x, mulPlan w frac sc sc with
  | .error e, _ => .error e
  | _, .error e => .error e
  | .ok y, .ok plan => .ok do
    let y ← y
    mulRound frac plan (bilinPub (fun u v => emul id id u v) (y.map (tileRows m))
      fun _ => spreadCol n c)

/-- The terms from degree `i` on; `cs` lists, degree by degree, the coefficients of all
polynomials, padded with zeros. -/
def multiTerms {m : ℕ} (frac : ℕ) (sc : Bool) (x : Shares (T (.arith w n))) :
    ℕ → List (Fin m → BitVec w) → Except Err (List (M (Shares (T (.arith w (m * n))))))
  | _, [] => .ok []
  | i, c :: cs =>
    match multiTerm frac sc x i c, multiTerms frac sc x (i + 1) cs with
    | .error e, _ => .error e
    | _, .error e => .error e
    | .ok m, .ok l => .ok (m :: l)

/-- `_multi_polynomial_private` (aby3.py:4126-4156) for `m` polynomials. -/
def multiPolynomial {m : ℕ} (frac : ℕ) (sc : Bool) (x : Shares (T (.arith w n)))
    (c₀ : Fin m → BitVec w) (cs : List (Fin m → BitVec w)) :
    Except Err (M (Body (.arith w (m * n)))) :=
  match multiTerms frac sc x 1 cs with
  | .error e => .error e
  | .ok l => .ok (sumTerms l (.pub fun _ => spreadCol n c₀))

/-- `concat([pivots, ones], axis=0)`. -/
def onesBelow {m : ℕ} (p : T (.bool 1 (m * n))) (o : T (.bool 1 (1 * n))) :
    T (.bool 1 ((m + 1) * n)) := fun k =>
  if h : (finProdFinEquiv.symm k).1.1 < m then
    p (finProdFinEquiv (⟨_, h⟩, (finProdFinEquiv.symm k).2))
  else o (finProdFinEquiv (0, (finProdFinEquiv.symm k).2))

/-- `concat([ones, pivots ^ 1], axis=0)`. -/
def onesAbove {m : ℕ} (o : T (.bool 1 (1 * n))) (p : T (.bool 1 (m * n))) :
    T (.bool 1 ((m + 1) * n)) := fun k =>
  if h : (finProdFinEquiv.symm k).1.1 = 0 then o (finProdFinEquiv (0, (finProdFinEquiv.symm k).2))
  else p (finProdFinEquiv (⟨(finProdFinEquiv.symm k).1.1 - 1, by
    have := (finProdFinEquiv.symm k).1.2; omega⟩, (finProdFinEquiv.symm k).2))

/-- The selection bits of `polynomial_piecewise` (aby3.py:4172-4206): `m` breakpoints, `m + 1`
pieces. `less_equal` is the negation of the sign of `c - x`. -/
def pieceBits {m : ℕ} (x : Shares (T (.arith w n))) (c : Fin m → BitVec w) :
    M (Shares (T (.bool 1 ((m + 1) * n)))) := do
  let s ← msb (pubSub (fun _ => spreadCol n c) (x.map (tileRows m)))
  let pivots := bnot s
  let ones := toPrivate (fun _ => ⟨1⟩ : T (.bool 1 (1 * n)))
  let le := Shares.map₂ onesBelow pivots ones
  let gt := Shares.map₂ onesAbove ones (xorPub pivots fun _ _ => ⟨1⟩)
  band2 le gt

/-- `reduce_sum(·, axis=0)`. -/
def sumRows {m : ℕ} (x : T (.arith w (m * n))) : T (.arith w n) :=
  fun i => ∑ j, x (finProdFinEquiv (j, i))

/-- Lines 4209-4212: combine the pieces. -/
def choosePiece {m : ℕ} (f : Body (.arith w ((m + 1) * n)))
    (b : Shares (T (.bool 1 ((m + 1) * n)))) : M (Shares (T (.arith w n))) := do
  let r ← mulAbBody b f
  return r.map sumRows

/-- `_polynomial_piecewise_private` (aby3.py:4159-4212). -/
def piecewise {m : ℕ} (frac : ℕ) (sc : Bool) (x : Shares (T (.arith w n))) (c : Fin m → BitVec w)
    (c₀ : Fin (m + 1) → BitVec w) (cs : List (Fin (m + 1) → BitVec w)) :
    Except Err (M (Shares (T (.arith w n)))) :=
  match multiPolynomial frac sc x c₀ cs with
  | .error e => .error e
  | .ok f => .ok do
    let b ← pieceBits x c
    let f ← f
    choosePiece f b

end Verif.Aby3
