import Verif.Aby3.Trunc

/-!
# ABY3 programs

Straight-line programs over public and private tensors, as a user writes them against the
protocol object. `Op.exec` follows `ABY3.dispatch` (aby3.py:2003-2021) and the functions it
selects: which function runs depends on whether the operands are public or private, a missing
function raises `TypeError`, and the functions check `is_scaled` flags as written below.
-/

namespace Verif.Aby3

open Verif

/-- A public tensor (aby3_tensors.py:510-540) or a private one (389-420). -/
inductive Body (s : Srt)
  /-- one copy per server -/
  | pub (p : Pub (T s))
  /-- two components per server -/
  | priv (x : Shares (T s))

/-- A tensor with its `is_scaled` flag. -/
structure Val (s : Srt) where
  /-- copies or shares -/
  body : Body s
  /-- `is_scaled` -/
  sc : Bool

/-- Truncation methods of `truncate` and `truncate_msb0` (aby3.py:1437-1454). The "cheetah" method
is treated separately. -/
inductive Method
  /-- `truncate(method="heuristic")`, the default -/
  | heuristic
  /-- `truncate(method="local")` -/
  | loc
  /-- `truncate_msb0(method="secureq8")` -/
  | secureq8
deriving DecidableEq

/-- The three bilinear operations on arithmetic tensors. -/
inductive MulKind
  /-- `mul` -/
  | mul
  /-- `matmul` -/
  | matmul
  /-- `conv2d` -/
  | conv2d
deriving DecidableEq

/-- One operation; `ι` gives the sorts of the private inputs and `Γ` those of earlier results. -/
inductive Op {I : Type} (ι : I → Srt) (Γ : List Srt) : Srt → Type
  /-- `define_constant` (aby3.py:284-328), or a public input -/
  | const {t : Srt} (v : T t) (sc : Bool) : Op ι Γ t
  /-- `define_private_input`, `define_private_variable` -/
  | input (i : I) (sc : Bool) : Op ι Γ (ι i)
  /-- `add` on arithmetic tensors -/
  | add {w n : ℕ} (x y : Var Γ (.arith w n)) : Op ι Γ (.arith w n)
  /-- `sub` -/
  | sub {w n : ℕ} (x y : Var Γ (.arith w n)) : Op ι Γ (.arith w n)
  /-- an additive local function of one tensor: `negative`, `reshape`, `transpose`, `reduce_sum`,
  `strided_slice`, `gather`, `tile`, and, on boolean tensors, the shifts and narrowing casts;
  `pub = false` when there is no function for public tensors (`lshift`, `logical_rshift`) -/
  | lin {s t : Srt} (pub : Bool) (g : T s →+ T t) (x : Var Γ s) : Op ι Γ t
  /-- any local function of a public tensor (`rshift`, `cast`, reading it with the other share
  type) -/
  | pubMap {s t : Srt} (g : T s → T t) (x : Var Γ s) : Op ι Γ t
  /-- `concat`, `stack` of two tensors -/
  | concat {s u t : Srt} (g : T s × T u →+ T t) (x : Var Γ s) (y : Var Γ u) : Op ι Γ t
  /-- `mul`, `matmul`, `conv2d`: `f` is the local product, the zero sharing has `m` elements and
  element `i` of the result is masked with its element `r i` -/
  | bilin {w n₁ n₂ n : ℕ} (k : MulKind)
      (f : T (.arith w n₁) →+ T (.arith w n₂) →+ T (.arith w n)) (m : ℕ) (r : Fin n → Fin m)
      (x : Var Γ (.arith w n₁)) (y : Var Γ (.arith w n₂)) : Op ι Γ (.arith w n)
  /-- `xor` -/
  | xor {w n : ℕ} (x y : Var Γ (.bool w n)) : Op ι Γ (.bool w n)
  /-- `and` with broadcasting: element `i` of the result is `x[p i] & y[q i]` -/
  | and {w n₁ n₂ n : ℕ} (p : Fin n → Fin n₁) (q : Fin n → Fin n₂) (x : Var Γ (.bool w n₁))
      (y : Var Γ (.bool w n₂)) : Op ι Γ (.bool w n)
  /-- `or` -/
  | or {w n : ℕ} (x y : Var Γ (.bool w n)) : Op ι Γ (.bool w n)
  /-- `not` -/
  | not {w n : ℕ} (x : Var Γ (.bool w n)) : Op ι Γ (.bool w n)
  /-- `a2b` -/
  | a2b {w n : ℕ} (nBits : Option ℕ) (x : Var Γ (.arith w n)) : Op ι Γ (.bool w n)
  /-- `b2a` on whole words -/
  | b2a {w n : ℕ} (x : Var Γ (.bool w n)) : Op ι Γ (.arith w n)
  /-- `b2a(nbits=k)` -/
  | b2aBits {w n : ℕ} (k : ℕ) (x : Var Γ (.bool w n)) : Op ι Γ (.arith w n)
  /-- `bit_extract` of an arithmetic tensor; `msb` is position `w - 1` -/
  | bitExtract {w n : ℕ} (i : ℕ) (x : Var Γ (.arith w n)) : Op ι Γ (.bool 1 n)
  /-- `bit_extract` of a boolean tensor -/
  | bitExtractB {w n : ℕ} (i : ℕ) (x : Var Γ (.bool w n)) : Op ι Γ (.bool 1 n)
  /-- `mul_ab` -/
  | mulAb {w n : ℕ} (x : Var Γ (.arith w n)) (b : Var Γ (.bool 1 n)) : Op ι Γ (.arith w n)
  /-- `truncate` and `truncate_msb0` -/
  | trunc {w n : ℕ} (m : Method) (a : ℕ) (x : Var Γ (.arith w n)) : Op ι Γ (.arith w n)
  /-- `reveal` -/
  | reveal {s : Srt} (x : Var Γ s) : Op ι Γ s

variable {I : Type} {ι : I → Srt} {Γ : List Srt} {t : Srt} {w n : ℕ}

/-- Broadcasting along an index map. -/
def spreadA {n m : ℕ} (r : Fin n → Fin m) (v : T (.arith w m)) : T (.arith w n) := fun i => v (r i)

/-- Broadcasting along an index map. -/
def spreadB {n m : ℕ} (r : Fin n → Fin m) (v : T (.bool w m)) : T (.bool w n) := fun i => v (r i)

/-- Elementwise conjunction with broadcasting. -/
def bandBc {n₁ n₂ n : ℕ} (p : Fin n → Fin n₁) (q : Fin n → Fin n₂) (x : T (.bool w n₁))
    (y : T (.bool w n₂)) : T (.bool w n) := band (spreadB p x) (spreadB q y)

/-- The elementwise product with broadcasting: element `i` is `x[p i] * y[q i]`. -/
def emul {n₁ n₂ n : ℕ} (p : Fin n → Fin n₁) (q : Fin n → Fin n₂) :
    T (.arith w n₁) →+ T (.arith w n₂) →+ T (.arith w n) where
  toFun x :=
    { toFun := fun y i => x (p i) * y (q i)
      map_zero' := by funext i; exact mul_zero _
      map_add' := fun y z => by funext i; exact mul_add _ _ _ }
  map_zero' := by
    refine AddMonoidHom.ext fun y => ?_
    funext i
    exact zero_mul _
  map_add' x z := by
    refine AddMonoidHom.ext fun y => ?_
    funext i
    exact add_mul _ _ _

/-- `mul` (aby3.py:2443-2489): the zero sharing has the shape of the first operand. -/
abbrev Op.mul {n₁ n₂ n : ℕ} (p : Fin n → Fin n₁) (q : Fin n → Fin n₂)
    (x : Var Γ (.arith w n₁)) (y : Var Γ (.arith w n₂)) : Op ι Γ (.arith w n) :=
  .bilin .mul (emul p q) n₁ p x y

/-- The last lines of a product with a private operand (aby3.py:2411-2413, 2487-2488, …): the flag
is the disjunction and the result is truncated, with the default method, when both operands are
scaled. -/
def finish (frac : ℕ) (sx sy : Bool) (z : M (Shares (T (.arith w n)))) :
    Except Err (M (Val (.arith w n))) :=
  if sx && sy then
    match heurPlan w frac frac with
    | .error e => .error e
    | .ok p => .ok do
      let z ← z
      let z ← heurRun p.1 p.2 frac z
      return ⟨.priv z, sx || sy⟩
  else .ok do
    let z ← z
    return ⟨.priv z, sx || sy⟩

/-- One operation: the exception it raises while the graph is built, or the computation.
`frac` is `fixedpoint_config.precision_fractional`. -/
def Op.exec (frac : ℕ) (inp : ∀ i, T (ι i)) (e : Env Val Γ) : Op ι Γ t → Except Err (M (Val t))
  | .const v sc => .ok (return ⟨.pub fun _ => v, sc⟩)
  | .input i sc => .ok do
      let x ← share (inp i)
      return ⟨.priv x, sc⟩
  | .add x y =>
    -- aby3.py:2148-2236
    match e.get x, e.get y with
    | ⟨.priv a, sx⟩, ⟨.priv b, _⟩ => .ok (return ⟨.priv (Shares.map₂ (· + ·) a b), sx⟩)
    | ⟨.priv a, sx⟩, ⟨.pub b, sy⟩ =>
      if sx = sy then .ok (return ⟨.priv (addPub a b), sx⟩) else .error .assertion
    | ⟨.pub a, sx⟩, ⟨.priv b, sy⟩ =>
      if sx = sy then .ok (return ⟨.priv (addPub b a), sx⟩) else .error .assertion
    | ⟨.pub a, sx⟩, ⟨.pub b, sy⟩ =>
      if sx = sy then .ok (return ⟨.pub fun i => a i + b i, sx⟩) else .error .assertion
  | .sub x y =>
    -- aby3.py:2238-2324
    match e.get x, e.get y with
    | ⟨.priv a, sx⟩, ⟨.priv b, sy⟩ =>
      if sx = sy then .ok (return ⟨.priv (Shares.map₂ (· - ·) a b), sx⟩) else .error .assertion
    | ⟨.priv a, sx⟩, ⟨.pub b, sy⟩ =>
      if sx = sy then .ok (return ⟨.priv (subPub a b), sx⟩) else .error .assertion
    | ⟨.pub a, sx⟩, ⟨.priv b, _⟩ => .ok (return ⟨.priv (pubSub a b), sx⟩)
    | ⟨.pub a, sx⟩, ⟨.pub b, sy⟩ =>
      if sx = sy then .ok (return ⟨.pub fun i => a i - b i, sx⟩) else .error .assertion
  | .lin pub g x =>
    match e.get x with
    | ⟨.priv a, sx⟩ => .ok (return ⟨.priv (a.map g), sx⟩)
    | ⟨.pub a, sx⟩ => if pub then .ok (return ⟨.pub fun i => g (a i), sx⟩) else .error .typeError
  | .pubMap g x =>
    match e.get x with
    | ⟨.priv _, _⟩ => .error .typeError
    | ⟨.pub a, sx⟩ => .ok (return ⟨.pub fun i => g (a i), sx⟩)
  | .concat g x y =>
    -- the first operand decides which function runs (aby3.py:4424-4467)
    match e.get x, e.get y with
    | ⟨.priv a, sx⟩, ⟨.priv b, sy⟩ =>
      if sx = sy then .ok (return ⟨.priv (Shares.map₂ (fun u v => g (u, v)) a b), sx⟩)
      else .error .assertion
    | ⟨.pub a, sx⟩, ⟨.pub b, sy⟩ =>
      if sx = sy then .ok (return ⟨.pub fun i => g (a i, b i), sx⟩) else .error .assertion
    | _, _ => .error .typeError
  | .bilin k f m r x y =>
    -- aby3.py:2365-2489, 2565-2670, 4930-4992
    match e.get x, e.get y with
    | ⟨.pub a, sx⟩, ⟨.pub b, sy⟩ =>
      if k = .mul then
        let p : Pub _ := fun i => f (a i) (b i)
        .ok (return ⟨.pub (if sx && sy then truncLocalPub frac p else p), sx || sy⟩)
      else .error .typeError
    | ⟨.pub a, sx⟩, ⟨.priv b, sy⟩ => finish frac sx sy (return pubBilin (fun u v => f u v) a b)
    | ⟨.priv a, sx⟩, ⟨.pub b, sy⟩ => finish frac sx sy (return bilinPub (fun u v => f u v) a b)
    | ⟨.priv a, sx⟩, ⟨.priv b, sy⟩ =>
      finish frac sx sy (Aby3.bilin (zs := .arith _ m) (fun u v => f u v) (spreadA r) a b)
  | .xor x y =>
    -- aby3.py:3041-3121
    match e.get x, e.get y with
    | ⟨.priv a, sx⟩, ⟨.priv b, _⟩ => .ok (return ⟨.priv (Shares.map₂ (· + ·) a b), sx⟩)
    | ⟨.priv a, sx⟩, ⟨.pub b, _⟩ => .ok (return ⟨.priv (xorPub a b), sx⟩)
    | ⟨.pub a, _⟩, ⟨.priv b, sy⟩ => .ok (return ⟨.priv (xorPub b a), sy⟩)
    | ⟨.pub a, sx⟩, ⟨.pub b, sy⟩ =>
      if sx = sy then .ok (return ⟨.pub fun i => a i + b i, sx⟩) else .error .assertion
  | .and (n₁ := n₁) p q x y =>
    -- aby3.py:3123-3214; the zero sharing has the shape of the first operand
    match e.get x, e.get y with
    | ⟨.priv a, sx⟩, ⟨.priv b, sy⟩ => .ok do
      let z ← Aby3.bilin (zs := .bool _ n₁) (bandBc p q) (spreadB p) a b
      return ⟨.priv z, sx || sy⟩
    | ⟨.priv a, sx⟩, ⟨.pub b, _⟩ => .ok (return ⟨.priv (bilinPub (bandBc p q) a b), sx⟩)
    | ⟨.pub a, _⟩, ⟨.priv b, sy⟩ => .ok (return ⟨.priv (pubBilin (bandBc p q) a b), sy⟩)
    | ⟨.pub _, _⟩, ⟨.pub _, _⟩ => .error .typeError
  | .or x y =>
    match e.get x, e.get y with
    | ⟨.priv a, sx⟩, ⟨.priv b, _⟩ => .ok do
      let z ← bor2 a b
      return ⟨.priv z, sx⟩
    | _, _ => .error .typeError
  | .not x =>
    match e.get x with
    | ⟨.priv a, sx⟩ => .ok (return ⟨.priv (bnot a), sx⟩)
    | ⟨.pub _, _⟩ => .error .typeError
  | .a2b nBits x =>
    match e.get x with
    | ⟨.priv a, sx⟩ =>
      match Aby3.a2b nBits a with
      | .error er => .error er
      | .ok m => .ok do
        let z ← m
        return ⟨.priv z, sx⟩
    | ⟨.pub _, _⟩ => .error .typeError
  | .b2a x =>
    match e.get x with
    | ⟨.priv a, sx⟩ => .ok do
      let z ← Aby3.b2a a
      return ⟨.priv z, sx⟩
    | ⟨.pub _, _⟩ => .error .typeError
  | .b2aBits k x =>
    match e.get x with
    | ⟨.priv a, sx⟩ => .ok do
      let z ← Aby3.b2aBits a k
      return ⟨.priv z, sx⟩
    | ⟨.pub _, _⟩ => .error .typeError
  | .bitExtract i x =>
    -- a public tensor has neither share type (aby3.py:1536-1540)
    match e.get x with
    | ⟨.priv a, _⟩ =>
      match Aby3.bitExtract i a with
      | .error er => .error er
      | .ok m => .ok do
        let z ← m
        return ⟨.priv z, false⟩
    | ⟨.pub _, _⟩ => .error .valueError
  | .bitExtractB i x =>
    match e.get x with
    | ⟨.priv a, _⟩ => .ok (return ⟨.priv (Aby3.bitExtractB i a), false⟩)
    | ⟨.pub _, _⟩ => .error .valueError
  | .mulAb x b =>
    -- aby3.py:3986-4020
    match e.get x, e.get b with
    | ⟨.priv a, sx⟩, ⟨.priv c, _⟩ => .ok do
      let z ← Aby3.mulAb a c
      return ⟨.priv z, sx⟩
    | ⟨.pub a, sx⟩, ⟨.priv c, _⟩ => .ok do
      let z ← mulAbPub a c
      return ⟨.priv z, sx⟩
    | _, ⟨.pub _, _⟩ => .error .typeError
  | .trunc m a x =>
    match m, e.get x with
    | .loc, ⟨.pub p, sx⟩ => .ok (return ⟨.pub (truncLocalPub a p), sx⟩)
    | _, ⟨.pub _, _⟩ => .error .typeError
    | .loc, ⟨.priv y, sx⟩ => .ok do
      let z ← truncLocal a y
      return ⟨.priv z, sx⟩
    | .secureq8, ⟨.priv y, sx⟩ =>
      match truncMsb0Q8 a y with
      | .error er => .error er
      | .ok m => .ok do
        let z ← m
        return ⟨.priv z, sx⟩
    | .heuristic, ⟨.priv y, sx⟩ =>
      match truncHeuristic (if sx then frac else 0) a y with
      | .error er => .error er
      | .ok m => .ok do
        let z ← m
        return ⟨.priv z, sx⟩
  | .reveal x =>
    match e.get x with
    | ⟨.priv a, sx⟩ => .ok do
      let p ← Aby3.reveal a
      return ⟨.pub p, sx⟩
    | ⟨.pub _, _⟩ => .error .typeError

/-- A straight-line program. -/
inductive Prog {I : Type} (ι : I → Srt) : List Srt → Srt → Type
  /-- the result -/
  | ret {Γ : List Srt} {t : Srt} (x : Var Γ t) : Prog ι Γ t
  /-- run an operation and continue with its result -/
  | step {Γ : List Srt} {s t : Srt} (o : Op ι Γ s) (k : Prog ι (s :: Γ) t) : Prog ι Γ t

/-- Run a program. -/
def Prog.run (frac : ℕ) (inp : ∀ i, T (ι i)) : {Γ : List Srt} → Prog ι Γ t → Env Val Γ →
    M (Except Err (Val t))
  | _, .ret x, e => return .ok (e.get x)
  | _, .step o k, e =>
    match o.exec frac inp e with
    | .error er => return .error er
    | .ok m => do
      let v ← m
      k.run frac inp (.cons v e)

end Verif.Aby3
