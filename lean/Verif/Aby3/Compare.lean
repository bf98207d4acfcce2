import Verif.Aby3.Prog

/-!
# ABY3 comparisons, selection and reductions

`tf_encrypted/protocol/aby3/aby3.py`: comparisons and equality (2953-3038), `select`, `maximum`,
`cmp_swap` (1782-1850), `relu` (4240-4256), `reduce_max` (5013-5093) and
`reduce_max_with_argmax` (5104-5166). Operands have already been broadcast to one size. The share
functions come first, then the functions a user calls, which look at kinds and flags.
-/

namespace Verif.Aby3

open Verif

variable {w n : ℕ}

/-! ## On copies and shares -/

/-- `sub` (aby3.py:2238-2324), any operands, without the check of the flags. -/
def Body.sub : Body (.arith w n) → Body (.arith w n) → Body (.arith w n)
  | .priv a, .priv b => .priv (Shares.map₂ (· - ·) a b)
  | .priv a, .pub b => .priv (subPub a b)
  | .pub a, .priv b => .priv (pubSub a b)
  | .pub a, .pub b => .pub fun i => a i - b i

/-- `xor` (aby3.py:3041-3121), any operands. -/
def Body.xor : Body (.bool w n) → Body (.bool w n) → Body (.bool w n)
  | .priv a, .priv b => .priv (Shares.map₂ (· + ·) a b)
  | .priv a, .pub b => .priv (xorPub a b)
  | .pub a, .priv b => .priv (xorPub b a)
  | .pub a, .pub b => .pub fun i => a i + b i

/-- A private tensor plus any operand (aby3.py:2162-2236). -/
def plus (z : Shares (T (.arith w n))) : Body (.arith w n) → Shares (T (.arith w n))
  | .priv a => Shares.map₂ (· + ·) z a
  | .pub a => addPub z a

/-- A private tensor xor any operand. -/
def plusB (z : Shares (T (.bool w n))) : Body (.bool w n) → Shares (T (.bool w n))
  | .priv a => Shares.map₂ (· + ·) z a
  | .pub a => xorPub z a

/-- `mul_ab` (aby3.py:3986-4020) by a private bit. -/
def mulAbBody (c : Shares (T (.bool 1 n))) : Body (.arith w n) → M (Shares (T (.arith w n)))
  | .priv d => mulAb d c
  | .pub d => mulAbPub d c

/-- `select` on arithmetic operands (aby3.py:1811): `mul_ab(y - x, choice_bit) + x`. -/
def selectA (c : Shares (T (.bool 1 n))) (x y : Body (.arith w n)) : M (Shares (T (.arith w n))) := do
  let z ← mulAbBody c (y.sub x)
  return plus z x

/-- `and` of a boolean tensor with a private bit (aby3.py:3123-3214). -/
def andBody {m : ℕ} (q : Fin n → Fin m) (c : Shares (T (.bool 1 m))) :
    Body (.bool 1 n) → M (Shares (T (.bool 1 n)))
  | .priv d => Aby3.bilin (zs := .bool 1 n) (bandBc id q) (spreadB id) d c
  | .pub d => return pubBilin (bandBc id q) d c

/-- `select` on boolean operands (aby3.py:1804-1809): `((x ^ y) & choice_bit) ^ x`; element `i` of
the operands is selected by element `q i` of the bit. -/
def selectB {m : ℕ} (q : Fin n → Fin m) (c : Shares (T (.bool 1 m))) (x y : Body (.bool 1 n)) :
    M (Shares (T (.bool 1 n))) := do
  let z ← andBody q c (x.xor y)
  return plusB z x

/-- Both halves of a stacked tensor, `pack[0]` and `pack[1]`. -/
def half (k : ℕ) (h : k + n ≤ n + n) (x : T (.bool 1 (n + n))) : T (.bool 1 n) :=
  fun i => x ⟨k + i.1, by omega⟩

/-- `stack([x, y], axis=0)`, flattened. -/
def stack2 (x y : T (.arith w n)) : T (.arith w (n + n)) :=
  fun i => if h : i.1 < n then x ⟨i.1, h⟩ else y ⟨i.1 - n, by omega⟩

/-- `_equal_zero_private` (aby3.py:3033-3038). -/
def equalZero (x : Shares (T (.arith w n))) : M (Shares (T (.bool 1 n))) := do
  let pack := Shares.map₂ stack2 x (x.map (- ·))
  let m ← msb pack
  band2 (bnot (m.map (half 0 (by omega)))) (bnot (m.map (half n (by omega))))

/-- `maximum` of two private tensors: `c = x > y`, which is `msb(y - x)`; `select(c, y, x)`
(aby3.py:1814-1830). -/
def maxS (x y : Shares (T (.arith w n))) : M (Shares (T (.arith w n))) := do
  let c ← msb (Shares.map₂ (· - ·) y x)
  selectA c (.priv y) (.priv x)

/-- `cmp_swap` of two private tensors (aby3.py:1833-1850): one comparison, two selections, the
maximum first. -/
def cmpSwapS (x y : Shares (T (.arith w n))) :
    M (Shares (T (.arith w n)) × Shares (T (.arith w n))) := do
  let c ← msb (Shares.map₂ (· - ·) y x)
  let hi ← selectA c (.priv y) (.priv x)
  let lo ← selectA c (.priv x) (.priv y)
  return (lo, hi)

theorem take_half_ne {α : Type} {l : List α} (h : ¬ l.length ≤ 1) : l.take (l.length / 2) ≠ [] := by
  intro e
  have := congrArg List.length e
  simp only [List.length_take, List.length_nil] at this
  omega

theorem drop_half_ne {α : Type} {l : List α} (h : ¬ l.length ≤ 1) : l.drop (l.length / 2) ≠ [] := by
  intro e
  have := congrArg List.length e
  simp only [List.length_drop, List.length_nil] at this
  omega

/-- `build_comparison_tree` (aby3.py:5044-5052, 5109-5137): the list is cut at `len // 2`, both
parts are reduced, left part first. -/
def tree {α : Type} (f : α → α → M α) (l : List α) (h : l ≠ []) : M α :=
  if h1 : l.length ≤ 1 then return l.head h
  else do
    let a ← tree f (l.take (l.length / 2)) (take_half_ne h1)
    let b ← tree f (l.drop (l.length / 2)) (drop_half_ne h1)
    f a b
termination_by l.length
decreasing_by
  · simp only [List.length_take]; omega
  · simp only [List.length_drop]; omega

/-- `reduce_max` with an axis, method "tree" (aby3.py:5070-5075): the slices along the axis. -/
def reduceMaxTree (ts : List (Shares (T (.arith w n)))) (h : ts ≠ []) :
    M (Shares (T (.arith w n))) := tree maxS ts h

/-- `vec[k : k + m]`. -/
def slice {N : ℕ} (k m : ℕ) (h : k + m ≤ N) (x : T (.arith w N)) : T (.arith w m) :=
  fun i => x ⟨k + i.1, by omega⟩

/-- `vector_max` (aby3.py:5054-5064) on a vector of `n + 1` elements. -/
def vectorMax (n : ℕ) (x : Shares (T (.arith w (n + 1)))) : M (Shares (T (.arith w 1))) :=
  match n with
  | 0 => return x
  | n + 1 => do
    -- `halfway = (n + 2) // 2`; both slices have `n + 2 - halfway` elements
    let h := (n + 2) / 2
    let z ← maxS (x.map (slice 0 ((n + 1) / 2 + 1) (by omega)))
      (x.map (slice h ((n + 1) / 2 + 1) (by omega)))
    vectorMax ((n + 1) / 2) z
termination_by n
decreasing_by omega

/-- One node of the tree of `reduce_max_with_argmax` (aby3.py:5126-5137), one-hot indices. -/
def argNodeB {m : ℕ} (q : Fin m → Fin n) (l r : Shares (T (.arith w n)) × Body (.bool 1 m)) :
    M (Shares (T (.arith w n)) × Body (.bool 1 m)) := do
  let c ← msb (Shares.map₂ (· - ·) r.1 l.1)
  let mx ← selectA c (.priv r.1) (.priv l.1)
  let ix ← selectB q c r.2 l.2
  return (mx, .priv ix)

/-- The same with numbers as indices. -/
def argNodeA (l r : Shares (T (.arith w n)) × Body (.arith w n)) :
    M (Shares (T (.arith w n)) × Body (.arith w n)) := do
  let c ← msb (Shares.map₂ (· - ·) r.1 l.1)
  let mx ← selectA c (.priv r.1) (.priv l.1)
  let ix ← selectA c r.2 l.2
  return (mx, .priv ix)

/-- The index constants, output style "onehot" (aby3.py:5142-5155): the `k`-th is the `k`-th row of
the identity, along the axis; `axis i` is the position of element `i` on the axis. -/
def onehot {m : ℕ} (axis : Fin m → ℕ) (k : ℕ) : T (.bool 1 m) :=
  fun i => ⟨if axis i = k then 1 else 0⟩

/-- The index constants, output style "normal" (aby3.py:5156-5159): the number `k`, scaled. -/
def number (frac k : ℕ) : T (.arith w n) := fun _ => BitVec.ofNat w (k * 2 ^ frac)

/-- `reduce_max_with_argmax`, one-hot. -/
def argmaxOnehot {m : ℕ} (q : Fin m → Fin n) (axis : Fin m → ℕ)
    (ts : List (Shares (T (.arith w n)))) (h : ts ≠ []) :
    M (Shares (T (.arith w n)) × Body (.bool 1 m)) :=
  tree (argNodeB q) (ts.mapIdx fun k t => (t, .pub fun _ => onehot axis k)) (by simpa using h)

/-- `reduce_max_with_argmax`, numbers. -/
def argmaxNormal (frac : ℕ) (ts : List (Shares (T (.arith w n)))) (h : ts ≠ []) :
    M (Shares (T (.arith w n)) × Body (.arith w n)) :=
  tree argNodeA (ts.mapIdx fun k t => (t, .pub fun _ => number frac k)) (by simpa using h)

/-! ## What a user calls -/

/-- Is the tensor private? -/
def Val.isPriv {s : Srt} (x : Val s) : Bool :=
  match x.body with
  | .priv _ => true
  | .pub _ => false

/-- `sub` (aby3.py:2238-2324) as in `Op.exec`: public minus private is not checked. -/
def Val.sub (x y : Val (.arith w n)) : Except Err (Val (.arith w n)) :=
  if (!x.isPriv && y.isPriv) || x.sc == y.sc then .ok ⟨x.body.sub y.body, x.sc⟩
  else .error .assertion

/-- `less_than`: `msb(x - y)` (aby3.py:2989-3013). There is no function for two public operands.
The result is private and not scaled. -/
def lessThan (x y : Val (.arith w n)) : Except Err (M (Shares (T (.bool 1 n)))) :=
  match x.sub y with
  | .error e => if x.isPriv || y.isPriv then .error e else .error .typeError
  | .ok ⟨.pub _, _⟩ => .error .typeError
  | .ok ⟨.priv z, _⟩ => .ok (msb z)

/-- `~` of the result of a comparison. -/
def negated (r : Except Err (M (Shares (T (.bool 1 n))))) : Except Err (M (Shares (T (.bool 1 n)))) :=
  match r with
  | .error e => .error e
  | .ok m => .ok do
    let b ← m
    return bnot b

/-- `greater_than` (aby3.py:2953-2962): the operands are swapped. -/
def greaterThan (x y : Val (.arith w n)) : Except Err (M (Shares (T (.bool 1 n)))) := lessThan y x

/-- `greater_equal` (aby3.py:2965-2974). -/
def greaterEqual (x y : Val (.arith w n)) : Except Err (M (Shares (T (.bool 1 n)))) :=
  negated (lessThan x y)

/-- `less_equal` (aby3.py:2977-2986). -/
def lessEqual (x y : Val (.arith w n)) : Except Err (M (Shares (T (.bool 1 n)))) :=
  negated (greaterThan x y)

/-- `equal` (aby3.py:3016-3030). -/
def equal (x y : Val (.arith w n)) : Except Err (M (Shares (T (.bool 1 n)))) :=
  match x.sub y with
  | .error e => if x.isPriv || y.isPriv then .error e else .error .typeError
  | .ok ⟨.pub _, _⟩ => .error .typeError
  | .ok ⟨.priv z, _⟩ => .ok (equalZero z)

/-- `select(choice_bit, x, y)` on arithmetic operands (aby3.py:1802-1811): the flag of the result
and how to compute it from the private bit. The final addition checks the flags only when `x` is
public. -/
def select (x y : Val (.arith w n)) :
    Except Err (Bool × (Shares (T (.bool 1 n)) → M (Shares (T (.arith w n))))) :=
  match y.sub x with
  | .error e => .error e
  | .ok d =>
    if x.isPriv || d.sc == x.sc then .ok (d.sc, fun c => selectA c x.body y.body)
    else .error .assertion

/-- `maximum` (aby3.py:1814-1830). -/
def maximum (x y : Val (.arith w n)) : Except Err (M (Val (.arith w n))) :=
  match greaterThan x y, select y x with
  | .error e, _ => .error e
  | .ok _, .error e => .error e
  | .ok m, .ok (s, f) => .ok do
    let c ← m
    let z ← f c
    return ⟨.priv z, s⟩

/-- `cmp_swap` (aby3.py:1833-1850): minimum and maximum. -/
def cmpSwap (x y : Val (.arith w n)) : Except Err (M (Val (.arith w n) × Val (.arith w n))) :=
  match greaterThan x y, select y x, select x y with
  | .error e, _, _ => .error e
  | .ok _, .error e, _ => .error e
  | .ok _, .ok _, .error e => .error e
  | .ok m, .ok (s, f), .ok (t, g) => .ok do
    let c ← m
    let hi ← f c
    let lo ← g c
    return (⟨.priv lo, t⟩, ⟨.priv hi, s⟩)

/-- The number 0, lifted with the flag of the other operand (aby3.py:1181-1234). -/
def zeroV (s : Bool) : Val (.arith w n) := ⟨.pub fun _ => 0, s⟩

/-- `relu_with_cmp` (aby3.py:4246-4256): `cmp = x > 0`, `select(cmp, 0, x)`. -/
def reluWithCmp (x : Val (.arith w n)) :
    Except Err (M (Val (.arith w n) × Shares (T (.bool 1 n)))) :=
  match x with
  | ⟨.pub _, _⟩ => .error .typeError
  | x =>
    match greaterThan x (zeroV x.sc), select (zeroV x.sc) x with
    | .error e, _ => .error e
    | .ok _, .error e => .error e
    | .ok m, .ok (s, f) => .ok do
      let c ← m
      let z ← f c
      return (⟨.priv z, s⟩, c)

/-- The model of comparisons uses the same subtraction as the program language. -/
theorem exec_sub {I : Type} {ι : I → Srt} {Γ : List Srt} (frac : ℕ) (inp : ∀ i, T (ι i))
    (e : Env Val Γ) (x y : Var Γ (.arith w n)) :
    (Op.sub x y).exec frac inp e = (Val.sub (e.get x) (e.get y)).map fun v => (return v) := by
  rcases hx : e.get x with ⟨_ | _, sx⟩ <;> rcases hy : e.get y with ⟨_ | _, sy⟩ <;>
    simp only [Op.exec, hx, hy, Val.sub, Val.isPriv, Body.sub] <;>
    cases sx <;> cases sy <;> rfl

end Verif.Aby3
