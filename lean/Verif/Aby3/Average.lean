import Verif.Aby3.InvSqrt

/-!
# Division by a public number, sums and averages

`add_n` and `div` of `tf_encrypted/protocol/aby3/aby3.py` with `mul_pow2`, as
`examples/application/simple-average/run.py` and `examples/application/federated-learning/run.py` use
them: `tfe.add_n(inputs) / len(inputs)`. Numbers are exact rationals; for fewer than 52 fractional
bits the double nearest to `1 / k` is encoded as the same word as `1 / k` itself.
-/

namespace Verif.Aby3

open Verif

variable {w n : ℕ}

/-- `is_power_of_two` with the exponent `math.log2(y)` (aby3.py:61-62), in exact arithmetic. -/
def log2? (y : ℚ) : Option ℤ :=
  if y.den = 1 ∧ y.num = 2 ^ Nat.log 2 y.num.toNat then some (Nat.log 2 y.num.toNat)
  else if y.num = 1 ∧ y.den = 2 ^ Nat.log 2 y.den then some (-(Nat.log 2 y.den : ℤ))
  else none

/-- The branches of `div` by a number (aby3.py:1283-1308). -/
inductive DivPlan (w : ℕ)
  /-- `mul_pow2(x, 0)` -/
  | same
  /-- `truncate(x, amount=a)` with its two constants -/
  | right (a : ℕ) (p : BitVec w × BitVec w)
  /-- `lshift(x, a)` -/
  | left (a : ℕ)
  /-- `mul(x, 1.0 / y)`: the product with a word and a truncation -/
  | times (plan : Option (BitVec w × BitVec w)) (c : BitVec w)

/-- Which branch is taken for a private tensor (`sc`: it is scaled) and a number `y`; zero raises
`ZeroDivisionError`. The constant is lifted with the flag of the tensor (aby3.py:1226-1231). -/
def divPlan (w frac : ℕ) (sc : Bool) (y : ℚ) : Except Err (DivPlan w) :=
  if y = 0 then .error .valueError else
  match log2? y with
  | some (.ofNat 0) => .ok .same
  | some (.ofNat (a + 1)) =>
    match heurPlan w (if sc then frac else 0) (a + 1) with
    | .error e => .error e
    | .ok p => .ok (.right (a + 1) p)
  | some (.negSucc a) => .ok (.left (a + 1))
  | none =>
    match mulPlan w frac sc sc with
    | .error e => .error e
    | .ok plan => .ok (.times plan (constWord w (if sc then frac else 0) (1 / y)))

/-- The division itself. -/
def divRun (frac : ℕ) (plan : DivPlan w) (x : Shares (T (.arith w n))) :
    M (Shares (T (.arith w n))) :=
  match plan with
  | .same => return x
  | .right a p => heurRun p.1 p.2 a x
  | .left a => return x.map (alift (· <<< a))
  | .times plan c => mulRound frac plan (bilinPub (fun u v => emul id id u v) x fun _ _ => c)

/-- Every owner shares its tensor (`define_private_input`, aby3.py:651-736). -/
def shareAll {s : Srt} : List (T s) → M (List (Shares (T s)))
  | [] => return []
  | v :: vs => do
    let x ← share v
    let xs ← shareAll vs
    return x :: xs

/-- `add_n` (aby3.py:1236-1239): `reduce` over a list that is not empty. -/
def addN {s : Srt} (x : Shares (T s)) (xs : List (Shares (T s))) : Shares (T s) :=
  xs.foldl (fun u v => Shares.map₂ (· + ·) u v) x

/-- `tfe.add_n(inputs) / len(inputs)` for private scaled inputs; `reduce` raises a `TypeError` for the
empty list. -/
def average (frac : ℕ) : List (T (.arith w n)) → Except Err (M (Shares (T (.arith w n))))
  | [] => .error .typeError
  | v :: vs =>
    match divPlan w frac true ((vs.length + 1 : ℕ) : ℚ) with
    | .error e => .error e
    | .ok plan => .ok do
      let x ← share v
      let xs ← shareAll vs
      divRun frac plan (addN x xs)

/-- The branches of `mul` with a number (aby3.py:1256-1281); `mul` has the same branches as `div`. -/
def numPlan (w frac : ℕ) (c : ℚ) : Except Err (DivPlan w) :=
  match log2? c with
  | some (.ofNat 0) => .ok .same
  | some (.ofNat (a + 1)) => .ok (.left (a + 1))
  | some (.negSucc a) =>
    match heurPlan w frac (a + 1) with
    | .error e => .error e
    | .ok p => .ok (.right (a + 1) p)
  | none =>
    match mulPlan w frac true true with
    | .error e => .error e
    | .ok plan => .ok (.times plan (constWord w frac c))

end Verif.Aby3
