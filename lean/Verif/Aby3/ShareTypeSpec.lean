import Verif.Aby3.ShareType

/-!
# What operations on tagged tensors should do

A private tensor stands for the sum of its three shares if it is tagged arithmetic, and for their xor if
it is tagged boolean.
-/

namespace Verif.Aby3.ShareType

variable {w : ℕ}

/-- The word three shares stand for. -/
def Tag.comb : Tag → BitVec w → BitVec w → BitVec w → BitVec w
  | .arith, a, b, c => a + b + c
  | .bool, a, b, c => a ^^^ b ^^^ c

/-- The private tensor `x` is a sharing of `v`: every server has its share and the next one, and the
shares stand for the words of `v`. -/
def Opens (x : Priv w) (v : Buf w) : Prop :=
  ∃ s : Fin 3 → Buf w, (∀ i, x.sh i = (s i, s (i + 1))) ∧ (∀ i, (s i).len = v.len) ∧
    ∀ j < v.len, v.get j = x.tag.comb ((s 0).get j) ((s 1).get j) ((s 2).get j)

/-- The operation on plain words. -/
def Op.plain (env : List (Buf w)) : Op w → Except Err (Buf w)
  | .pick p x => do
    let x ← look env x
    if p.all (· < x.len) then return x.pick p else throw .shape
  | .sums g x => do
    let x ← look env x
    if g.all (·.all (· < x.len)) then return x.sums g else throw .shape
  | .neg x => do return (← look env x).map (- ·)
  | .shl k x => do return (← look env x).map (· <<< k)
  | .sar k x => do return (← look env x).map (·.sshiftRight k)
  | .shr k x => do return (← look env x).map (· >>> k)
  | .inv _ x => do return (← look env x).map (~~~ ·)
  | .add _ x y => do
    let x ← look env x
    let y ← look env y
    sameLen x y
    return x.map₂ (· + ·) y
  | .sub _ x y => do
    let x ← look env x
    let y ← look env y
    sameLen x y
    return x.map₂ (· - ·) y
  | .addPub _ x v => do
    let x ← look env x
    sameLen x v
    return x.map₂ (· + ·) v
  | .mul _ _ x y => do
    let x ← look env x
    let y ← look env y
    sameLen x y
    return x.map₂ (· * ·) y
  | .xor _ x y => do
    let x ← look env x
    let y ← look env y
    sameLen x y
    return x.map₂ (· ^^^ ·) y
  | .and _ _ _ x y => do
    let x ← look env x
    let y ← look env y
    sameLen x y
    return x.map₂ (· &&& ·) y
  | .concat x y => do
    let x ← look env x
    let y ← look env y
    return x.append y

/-- A program on plain words. -/
def plainAll : List (Op w) → List (Buf w) → Except Err (List (Buf w))
  | [], env => .ok env
  | o :: os, env =>
    match o.plain env with
    | .error e => .error e
    | .ok z => plainAll os (env ++ [z])

/-- Which share types an operation is for, and the share type of its result: sums, differences,
products and negation are for arithmetic sharings; bitwise operations and right shifts for boolean
ones; moving elements and left shifts for both; joining for two of the same kind. A name that does not
exist raises in any case. -/
def Op.Meant (ts : List Tag) : Op w → Tag → Prop
  | .pick _ x, t | .shl _ x, t => ∀ s ∈ ts[x]?, s = t
  | .sums _ x, t | .neg x, t | .addPub _ x _, t => t = .arith ∧ ∀ s ∈ ts[x]?, s = .arith
  | .sar _ x, t | .shr _ x, t | .inv _ x, t => t = .bool ∧ ∀ s ∈ ts[x]?, s = .bool
  | .add _ x y, t | .sub _ x y, t | .mul _ _ x y, t =>
    t = .arith ∧ (∀ s ∈ ts[x]?, s = .arith) ∧ ∀ s ∈ ts[y]?, s = .arith
  | .xor _ x y, t | .and _ _ _ x y, t =>
    t = .bool ∧ (∀ s ∈ ts[x]?, s = .bool) ∧ ∀ s ∈ ts[y]?, s = .bool
  | .concat x y, t => (∀ s ∈ ts[x]?, s = t) ∧ ∀ s ∈ ts[y]?, s = t

/-- A program that uses every operation on the share types it is for. -/
inductive MeantAll : List (Op w) → List Tag → Prop
  | nil {ts : List Tag} : MeantAll [] ts
  | cons {o : Op w} {os : List (Op w)} {ts : List Tag} {t : Tag} :
      o.Meant ts t → MeantAll os (ts ++ [t]) → MeantAll (o :: os) ts

/-- The outcome on shares agrees with the outcome on plain words: the same exception, or sharings of
the plain results. -/
def Agree {α β : Type} (R : α → β → Prop) : Except Err α → Except Err β → Prop
  | .ok a, .ok b => R a b
  | .error e, .error e' => e = e'
  | _, _ => False

end Verif.Aby3.ShareType
