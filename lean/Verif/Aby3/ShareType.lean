import Verif.Aby3.Model

/-!
# Share types at run time

The programs of `Prog.lean` are typed: an operation for boolean sharings cannot even be written down for
an arithmetic one. In Python the share type is a tag of the tensor (`ABY3PrivateTensor.share_type`), and
whether it is looked at depends on the operation and on how it is called: `x + y` and `x ^ y` look at the
tag of the left operand (`aby3_tensors.py:108-185, 307-350`), `tfe.add(x, y)` does not. This file models
private tensors with their tags and the operations with exactly the checks they have.

A tensor is flattened to its elements. Operations that only move elements around (`transpose`, `reshape`,
`expand_dims`, `squeeze`, `strided_slice`, `gather`, `tile`, indexing, every part of `split`) are given by
the list of the positions they take. Left out: broadcasting (operands of different size are an error
here), scaling (C48) and tensors of single bits.
-/

namespace Verif.Aby3.ShareType

open Verif

/-- `ShareType` without `PUBLIC` (aby3_tensors.py:20-31). -/
inductive Tag
  | arith
  | bool
deriving DecidableEq

/-- A tensor in memory: the number of its elements and the elements. -/
structure Buf (w : ℕ) where
  /-- number of elements -/
  len : ℕ
  /-- the elements -/
  get : ℕ → BitVec w

/-- An `ABY3PrivateTensor` (aby3_tensors.py:555-575): its tag and the shares of the servers. -/
structure Priv (w : ℕ) where
  /-- `share_type` -/
  tag : Tag
  /-- `shares` -/
  sh : Shares (Buf w)

/-- What can go wrong. -/
inductive Err
  /-- `ValueError("unsupported share type …")` of the operators -/
  | shareType
  /-- a failed `assert` -/
  | assertion
  /-- sizes do not fit -/
  | shape
  /-- no such tensor -/
  | name
deriving DecidableEq

variable {w : ℕ}

/-- Elementwise operations. -/
def Buf.map (f : BitVec w → BitVec w) (x : Buf w) : Buf w := ⟨x.len, fun i => f (x.get i)⟩

/-- Elementwise operations. -/
def Buf.map₂ (f : BitVec w → BitVec w → BitVec w) (x y : Buf w) : Buf w :=
  ⟨x.len, fun i => f (x.get i) (y.get i)⟩

/-- The elements at the positions `p`. -/
def Buf.pick (p : List ℕ) (x : Buf w) : Buf w := ⟨p.length, fun i => x.get (p.getD i 0)⟩

/-- Sums over groups of positions (`tf.reduce_sum`). -/
def Buf.sums (g : List (List ℕ)) (x : Buf w) : Buf w :=
  ⟨g.length, fun i => ((g.getD i []).map x.get).sum⟩

/-- One tensor behind the other. -/
def Buf.append (x y : Buf w) : Buf w :=
  ⟨x.len + y.len, fun i => if i < x.len then x.get i else y.get (i - x.len)⟩

/-- How an operation is called: as an operator (a method) of the left operand, or as a function of
the protocol. -/
inductive Call
  | operator
  | function
deriving DecidableEq

/-- The operations. Operands are numbers of earlier tensors. -/
inductive Op (w : ℕ)
  /-- operations that move elements, e.g. `_transpose_private` (aby3.py:4349-4361, 4529-4540,
  4556-4567, 4583-4594, 4624-4650, 4667-4720, 4857-4886) -/
  | pick (p : List ℕ) (x : ℕ)
  /-- `_reduce_sum_private` (aby3.py:4406-4416) -/
  | sums (g : List (List ℕ)) (x : ℕ)
  /-- `_negative_private` (aby3.py:2326-2339) -/
  | neg (x : ℕ)
  /-- `_lshift_private` (aby3.py:3248-3265) -/
  | shl (k x : ℕ)
  /-- `_rshift_private` (aby3.py:3285-3302) -/
  | sar (k x : ℕ)
  /-- `_logical_rshift_private` (aby3.py:3305-3322) -/
  | shr (k x : ℕ)
  /-- `~x`, `not_` -/
  | inv (c : Call) (x : ℕ)
  /-- `x + y`, `add` -/
  | add (c : Call) (x y : ℕ)
  /-- `x - y`, `sub` -/
  | sub (c : Call) (x y : ℕ)
  /-- `x + v`, `add` for a public tensor `v` -/
  | addPub (c : Call) (x : ℕ) (v : Buf w)
  /-- `mul` of tensors that are not scaled, with the zero sharing `a, b, -(a + b)` -/
  | mul (a b : ℕ → BitVec w) (x y : ℕ)
  /-- `x ^ y`, `xor` -/
  | xor (c : Call) (x y : ℕ)
  /-- `x & y`, `and_`, with the zero sharing `a, b, a ^ b` -/
  | and (c : Call) (a b : ℕ → BitVec w) (x y : ℕ)
  /-- `concat` along the first axis and `stack`; other axes are `concat` and then `pick` -/
  | concat (x y : ℕ)

/-- The tag check of the operators `+` and `-` (aby3_tensors.py:119-127, 163-185). -/
def wantArith (c : Call) (x : Priv w) : Except Err Unit :=
  if c = .operator ∧ x.tag ≠ .arith then .error .shareType else .ok ()

/-- The tag check of `^`, `&` and `~` (aby3_tensors.py:307-346). -/
def wantBool (c : Call) (x : Priv w) : Except Err Unit :=
  if c = .operator ∧ x.tag ≠ .bool then .error .shareType else .ok ()

/-- The assertions of `_xor_private_private` and `_and_private_private` (aby3.py:3042-3043, 3124-3125). -/
def assertBool (x y : Priv w) : Except Err Unit :=
  if x.tag = .bool ∧ y.tag = .bool then .ok () else .error .assertion

/-- Operands have the same size. -/
def sameLen (x y : Buf w) : Except Err Unit := if x.len = y.len then .ok () else .error .shape

/-- The first share of the first server stands for the shape (aby3_tensors.py:582-584). -/
def Priv.buf (x : Priv w) : Buf w := (x.sh 0).1

/-- `_not_private` (aby3.py:3226-3245): the first share is inverted, at both servers that have it. -/
def invShares (x : Shares (Buf w)) : Shares (Buf w) :=
  ![((x 0).1.map (~~~ ·), (x 0).2), x 1, ((x 2).1, (x 2).2.map (~~~ ·))]

/-- `_add_private_public` (aby3.py:2162-2186). -/
def addPubShares (x : Shares (Buf w)) (v : Buf w) : Shares (Buf w) :=
  ![((x 0).1.map₂ (· + ·) v, (x 0).2), x 1, ((x 2).1, (x 2).2.map₂ (· + ·) v)]

/-- What a server computes in a multiplication; `m` and `p` are the product and the sum of the ring
(aby3.py:2453-2474, 3136-3152). -/
def cross (m p : BitVec w → BitVec w → BitVec w) (x y : Buf w × Buf w) (a : ℕ → BitVec w) : Buf w :=
  ⟨x.1.len, fun i => p (p (p (m (x.1.get i) (y.1.get i)) (m (x.1.get i) (y.2.get i)))
    (m (x.2.get i) (y.1.get i))) (a i)⟩

/-- Every server passes its part on to the one before it (aby3.py:2475-2484, 3153-3162). -/
def passOn (z0 z1 z2 : Buf w) : Shares (Buf w) := ![(z0, z1), (z1, z2), (z2, z0)]

/-- `_mul_private_private` (aby3.py:2443-2489). -/
def mulShares (a b : ℕ → BitVec w) (x y : Shares (Buf w)) : Shares (Buf w) :=
  passOn (cross (· * ·) (· + ·) (x 0) (y 0) a) (cross (· * ·) (· + ·) (x 1) (y 1) b)
    (cross (· * ·) (· + ·) (x 2) (y 2) fun i => -(a i + b i))

/-- `_and_private_private` (aby3.py:3123-3167). -/
def andShares (a b : ℕ → BitVec w) (x y : Shares (Buf w)) : Shares (Buf w) :=
  passOn (cross (· &&& ·) (· ^^^ ·) (x 0) (y 0) a) (cross (· &&& ·) (· ^^^ ·) (x 1) (y 1) b)
    (cross (· &&& ·) (· ^^^ ·) (x 2) (y 2) fun i => a i ^^^ b i)

/-- Look up a tensor. -/
def look {α : Type} (env : List α) (i : ℕ) : Except Err α :=
  match env[i]? with
  | some x => .ok x
  | none => .error .name

/-- An operation on one tensor: every share is transformed, the tag is kept. -/
def local₁ (f : Buf w → Buf w) (x : Priv w) : Priv w := ⟨x.tag, x.sh.map f⟩

/-- An operation on two tensors: the tag is that of the first. -/
def local₂ (f : Buf w → Buf w → Buf w) (x y : Priv w) : Priv w := ⟨x.tag, Shares.map₂ f x.sh y.sh⟩

/-- One operation, with the checks the code makes. -/
def Op.run (env : List (Priv w)) : Op w → Except Err (Priv w)
  | .pick p x => do
    let x ← look env x
    if p.all (· < x.buf.len) then return local₁ (Buf.pick p) x else throw .shape
  | .sums g x => do
    let x ← look env x
    if g.all (·.all (· < x.buf.len)) then return local₁ (Buf.sums g) x else throw .shape
  | .neg x => do return local₁ (Buf.map (- ·)) (← look env x)
  | .shl k x => do return local₁ (Buf.map (· <<< k)) (← look env x)
  | .sar k x => do return local₁ (Buf.map (·.sshiftRight k)) (← look env x)
  | .shr k x => do return local₁ (Buf.map (· >>> k)) (← look env x)
  | .inv c x => do
    let x ← look env x
    wantBool c x
    return ⟨x.tag, invShares x.sh⟩
  | .add c x y => do
    let x ← look env x
    let y ← look env y
    wantArith c x
    sameLen x.buf y.buf
    return local₂ (Buf.map₂ (· + ·)) x y
  | .sub c x y => do
    let x ← look env x
    let y ← look env y
    wantArith c x
    sameLen x.buf y.buf
    return local₂ (Buf.map₂ (· - ·)) x y
  | .addPub c x v => do
    let x ← look env x
    wantArith c x
    sameLen x.buf v
    return ⟨x.tag, addPubShares x.sh v⟩
  | .mul a b x y => do
    let x ← look env x
    let y ← look env y
    sameLen x.buf y.buf
    return ⟨x.tag, mulShares a b x.sh y.sh⟩
  | .xor c x y => do
    let x ← look env x
    let y ← look env y
    wantBool c x
    assertBool x y
    sameLen x.buf y.buf
    return local₂ (Buf.map₂ (· ^^^ ·)) x y
  | .and c a b x y => do
    let x ← look env x
    let y ← look env y
    wantBool c x
    assertBool x y
    sameLen x.buf y.buf
    return ⟨x.tag, andShares a b x.sh y.sh⟩
  | .concat x y => do
    let x ← look env x
    let y ← look env y
    return local₂ Buf.append x y

/-- A program: every operation adds a tensor at the end. -/
def runAll : List (Op w) → List (Priv w) → Except Err (List (Priv w))
  | [], env => .ok env
  | o :: os, env =>
    match o.run env with
    | .error e => .error e
    | .ok z => runAll os (env ++ [z])

end Verif.Aby3.ShareType
