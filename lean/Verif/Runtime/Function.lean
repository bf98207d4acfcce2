import Mathlib.Data.List.Basic

/-!
# `tfe.function`: calling a function through a compiled graph

Models `protocol/protocol.py`:120-192 (`unwrap_func`, `wrap_func`, `input_unwrap`, `input_wrap`,
`function`), the bones of `protocol/pond/pond.py`:1631-1634, 1854-1856, 1929-1939, 1947-1949, 2006-2016,
2020-2027, 2082-2102 and of `protocol/aby3/aby3_tensors.py`:40-43, 467-478, 597-612, `from_bone` of
`pond.py`:678-722 and `aby3.py`:758-791, and the table of factories `tensor/__init__.py`:24-35.

A compiled function takes and returns TensorFlow tensors only. Protocol tensors in the arguments are taken
apart ("bones"), put together again inside, and likewise for the results.

TensorFlow's own part, `tf.function`, is taken for granted: it is described by `Graph` below. Devices are not
modelled here (`identity` copies to the device that had the value).
-/

namespace Verif.Runtime.Function

/-- The exceptions. -/
inductive Err
  | attribute | key | type
  /-- raised by the function itself -/
  | raised
deriving DecidableEq, Repr

/-- Factories of native tensors have 8, 16, 32 or 64 bits. -/
inductive Width
  | w8 | w16 | w32 | w64
deriving DecidableEq, Repr

/-- `native_type.size * 8` -/
def Width.bits : Width → ℕ
  | .w8 => 8
  | .w16 => 16
  | .w32 => 32
  | .w64 => 64

/-- The factories of backing tensors: boolean, native with or without explicit modulus
(`native_factory(dtype, modulus)`), the CRT factory int100 and int128. -/
inductive Fac
  | bool
  | native (w : Width) (modulus : Option ℕ)
  | int100
  | int128
deriving DecidableEq, Repr

/-- `factory.nbits` (boolfactory.py:77-79, native.py:103-105, int128.py:107-109); int100 has none, which is
an AttributeError. -/
def Fac.nbits : Fac → Except Err ℕ
  | .bool => .ok 0
  | .native w _ => .ok w.bits
  | .int100 => .error .attribute
  | .int128 => .ok 128

/-- `factories` (tensor/__init__.py:24-35); other keys are a KeyError. -/
def factories : ℕ → Except Err Fac
  | 0 => .ok .bool
  | 1 => .ok (.native .w8 none)
  | 2 => .ok (.native .w8 none)
  | 4 => .ok (.native .w8 none)
  | 8 => .ok (.native .w8 none)
  | 16 => .ok (.native .w16 none)
  | 32 => .ok (.native .w32 none)
  | 64 => .ok (.native .w64 none)
  | 100 => .ok .int100
  | 128 => .ok .int128
  | _ => .error .key

variable {P V O : Type}

/-- A backing tensor: its factory and its TensorFlow value. (For int100 the value is a list; it does not
matter here, since its bone raises.) -/
structure Back (V : Type) where
  fac : Fac
  val : V

/-- The kinds of sharing of ABY3 (aby3_tensors.py:19-23). -/
inductive ShareType
  | pub | arithmetic | boolean
deriving DecidableEq, Repr

/-- What a protocol tensor consists of, apart from the protocol. -/
inductive Body (V : Type)
  | aby3Public (v0 v1 v2 : Back V) (scaled : Bool)
  | aby3Private (s00 s01 s10 s11 s20 s21 : Back V) (scaled : Bool) (kind : ShareType)
  | pondPublic (v0 v1 : Back V) (scaled : Bool)
  | pondPrivate (s0 s1 : Back V) (scaled : Bool)
  /-- the masked value with its own two shares and flag, then a, a0, a1, alpha_on_0, alpha_on_1 -/
  | pondMasked (s0 s1 : Back V) (scaled : Bool) (a a0 a1 al0 al1 : Back V) (mscaled : Bool)

/-- A protocol tensor; `var`: it is a variable. -/
structure Tensor (P V : Type) where
  prot : P
  var : Bool
  body : Body V

/-- Bones: flags, the number of the factory, and TensorFlow tensors. -/
inductive Bone (V : Type)
  | aby3Public (scaled : Bool) (kind : ShareType) (factory : ℕ) (v0 v1 v2 : V)
  | aby3Private (scaled : Bool) (kind : ShareType) (factory : ℕ) (s00 s01 s10 s11 s20 s21 : V)
  | pondPublic (scaled : Bool) (factory : ℕ) (v0 v1 : V)
  | pondPrivate (scaled : Bool) (factory : ℕ) (s0 s1 : V)
  | pondMasked (scaled : Bool) (factory : ℕ) (uscaled : Bool) (ufactory : ℕ) (u0 u1 : V)
      (a a0 a1 al0 al1 : V)

/-- `to_native` of a backing tensor: the value (native.py:79-85, boolfactory.py:60-66), except that int128
tensors are converted to doubles (int128.py:70-76). `dbl` is that conversion. -/
def toNative (dbl : V → V) (x : Back V) : V :=
  match x.fac with
  | .int128 => dbl x.val
  | _ => x.val

/-- `bone` of a tensor. ABY3 takes `.value`, Pond takes `to_native()`; the factory is the one of the first
component. -/
def bone (dbl : V → V) : Body V → Except Err (Bone V)
  | .aby3Public v0 v1 v2 scaled => do
    let n ← v0.fac.nbits
    return .aby3Public scaled .pub n v0.val v1.val v2.val
  | .aby3Private s00 s01 s10 s11 s20 s21 scaled kind => do
    let n ← s00.fac.nbits
    return .aby3Private scaled kind n s00.val s01.val s10.val s11.val s20.val s21.val
  | .pondPublic v0 v1 scaled => do
    let n ← v0.fac.nbits
    return .pondPublic scaled n (toNative dbl v0) (toNative dbl v1)
  | .pondPrivate s0 s1 scaled => do
    let n ← s0.fac.nbits
    return .pondPrivate scaled n (toNative dbl s0) (toNative dbl s1)
  | .pondMasked s0 s1 scaled a a0 a1 al0 al1 mscaled => do
    let n ← a.fac.nbits
    let m ← s0.fac.nbits
    return .pondMasked mscaled n scaled m (toNative dbl s0) (toNative dbl s1) (toNative dbl a)
      (toNative dbl a0) (toNative dbl a1) (toNative dbl al0) (toNative dbl al1)

/-- The protocols: ABY3, and Pond with its descendant SecureNN. -/
inductive Family
  | aby3 | pond
deriving DecidableEq, Repr

/-- `from_bone` of a protocol. -/
def fromBone : Family → Bone V → Except Err (Body V)
  | .aby3, .aby3Public scaled _ n v0 v1 v2 => do
    let f ← factories n
    return .aby3Public ⟨f, v0⟩ ⟨f, v1⟩ ⟨f, v2⟩ scaled
  | .aby3, .aby3Private scaled kind n s00 s01 s10 s11 s20 s21 => do
    let f ← factories n
    return .aby3Private ⟨f, s00⟩ ⟨f, s01⟩ ⟨f, s10⟩ ⟨f, s11⟩ ⟨f, s20⟩ ⟨f, s21⟩ scaled kind
  | .pond, .pondPublic scaled n v0 v1 => do
    let f ← factories n
    return .pondPublic ⟨f, v0⟩ ⟨f, v1⟩ scaled
  | .pond, .pondPrivate scaled n s0 s1 => do
    let f ← factories n
    return .pondPrivate ⟨f, s0⟩ ⟨f, s1⟩ scaled
  | .pond, .pondMasked scaled n uscaled m u0 u1 a a0 a1 al0 al1 => do
    let f ← factories n
    let g ← factories m
    return .pondMasked ⟨g, u0⟩ ⟨g, u1⟩ uscaled ⟨f, a⟩ ⟨f, a0⟩ ⟨f, a1⟩ ⟨f, al0⟩ ⟨f, al1⟩ scaled
  | .aby3, .pondPublic _ n _ _ => do let _ ← factories n; .error .type
  | .aby3, .pondPrivate _ n _ _ => do let _ ← factories n; .error .type
  | .aby3, .pondMasked _ n _ _ _ _ _ _ _ _ _ => do let _ ← factories n; .error .type
  | .pond, .aby3Public _ _ n _ _ _ => do let _ ← factories n; .error .type
  | .pond, .aby3Private _ _ n _ _ _ _ _ _ => do let _ ← factories n; .error .type

/-- Python values: protocol tensors, bones, lists, tuples, dictionaries, anything else. -/
inductive Val (P V O : Type)
  | tensor (t : Tensor P V)
  | bone (b : Bone V)
  | list (l : List (Val P V O))
  | tuple (l : List (Val P V O))
  | dict (l : List (String × Val P V O))
  | other (o : O)

mutual
/-- `unwrap_func` (protocol.py:124-130). -/
def unwrap (dbl : V → V) : Val P V O → Except Err (Val P V O)
  | .list l => do return .list (← unwrapAll dbl l)
  | .tuple l => do return .list (← unwrapAll dbl l)
  | .tensor t => do return .bone (← bone dbl t.body)
  | .bone b => .ok (.bone b)
  | .dict l => .ok (.dict l)
  | .other o => .ok (.other o)
/-- `[unwrap_func(arg) for arg in wrap_args]` -/
def unwrapAll (dbl : V → V) : List (Val P V O) → Except Err (List (Val P V O))
  | [] => .ok []
  | v :: l => do return (← unwrap dbl v) :: (← unwrapAll dbl l)
end

/-- The current protocol (`tfe.get_protocol()`). -/
structure Current (P : Type) where
  prot : P
  family : Family

mutual
/-- `wrap_func` (protocol.py:133-141). -/
def wrap (cur : Current P) : Val P V O → Except Err (Val P V O)
  | .list l => do return .list (← wrapAll cur l)
  | .tuple l => do return .list (← wrapAll cur l)
  | .bone b => do return .tensor ⟨cur.prot, false, ← fromBone cur.family b⟩
  | .tensor t => .ok (.tensor t)
  | .dict l => .ok (.dict l)
  | .other o => .ok (.other o)
/-- `[wrap_func(arg) for arg in unwrap_args]` -/
def wrapAll (cur : Current P) : List (Val P V O) → Except Err (List (Val P V O))
  | [] => .ok []
  | v :: l => do return (← wrap cur v) :: (← wrapAll cur l)
end

/-- The loop over `wrap_kwargs.items()` in `input_unwrap` and `input_wrap` (protocol.py:144-162). -/
def onItems (f : Val P V O → Except Err (Val P V O)) : List (String × Val P V O) →
    Except Err (List (String × Val P V O))
  | [] => .ok []
  | (k, v) :: l => do
    let v' ← f v
    return (k, v') :: (← onItems f l)

/-- What `tf.function` does to values that are not tensors. -/
structure Graph (O : Type) where
  /-- An argument as the traced function sees it: arrays become tensors, other objects stay. -/
  arg : O → O
  /-- A result as the caller sees it: numbers and arrays become tensors, `None` stays; what cannot be
  converted (`none`) is a TypeError. -/
  res : O → Option O

/-- A result that cannot be converted is a TypeError. -/
def Graph.conv (G : Graph O) (o : O) : Except Err O :=
  match G.res o with
  | some o' => .ok o'
  | none => .error .type

mutual
/-- Arguments inside of `tf.function`: structures are traversed, dictionaries too. -/
def Graph.enter (G : Graph O) : Val P V O → Val P V O
  | .tensor t => .tensor t
  | .bone b => .bone b
  | .list l => .list (G.enterAll l)
  | .tuple l => .tuple (G.enterAll l)
  | .dict l => .dict (G.enterItems l)
  | .other o => .other (G.arg o)
/-- the elements -/
def Graph.enterAll (G : Graph O) : List (Val P V O) → List (Val P V O)
  | [] => []
  | v :: l => G.enter v :: G.enterAll l
/-- the values of a dictionary -/
def Graph.enterItems (G : Graph O) : List (String × Val P V O) → List (String × Val P V O)
  | [] => []
  | (k, v) :: l => (k, G.enter v) :: G.enterItems l
end

mutual
/-- Results of `tf.function`: a protocol tensor is no TensorFlow value and is a TypeError. -/
def Graph.leave (G : Graph O) : Val P V O → Except Err (Val P V O)
  | .tensor _ => .error .type
  | .bone b => .ok (.bone b)
  | .list l => do return .list (← G.leaveAll l)
  | .tuple l => do return .tuple (← G.leaveAll l)
  | .dict l => do return .dict (← G.leaveItems l)
  | .other o => do return .other (← G.conv o)
/-- the elements -/
def Graph.leaveAll (G : Graph O) : List (Val P V O) → Except Err (List (Val P V O))
  | [] => .ok []
  | v :: l => do return (← G.leave v) :: (← G.leaveAll l)
/-- the values of a dictionary -/
def Graph.leaveItems (G : Graph O) : List (String × Val P V O) → Except Err (List (String × Val P V O))
  | [] => .ok []
  | (k, v) :: l => do
    let v' ← G.leave v
    return (k, v') :: (← G.leaveItems l)
end

/-- A function of positional and keyword arguments. -/
abbrev Fn (P V O : Type) := List (Val P V O) → List (String × Val P V O) → Except Err (Val P V O)

/-- `graph_function` (protocol.py:173-178): the traced function, between entering and leaving the graph. -/
def graphFunction (G : Graph O) (dbl : V → V) (cur : Current P) (f : Fn P V O)
    (args : List (Val P V O)) (kwargs : List (String × Val P V O)) : Except Err (Val P V O) := do
  let args' ← wrapAll cur (G.enterAll args)
  let kwargs' ← onItems (wrap cur) (G.enterItems kwargs)
  let result ← f args' kwargs'
  let result' ← unwrap dbl result
  G.leave result'

/-- `function` (protocol.py:163-192); `debug` is `get_config().debug`. -/
def function (G : Graph O) (dbl : V → V) (cur : Current P) (debug : Bool) (f : Fn P V O) : Fn P V O :=
  fun args kwargs =>
    if debug then f args kwargs
    else do
      let args' ← unwrapAll dbl args
      let kwargs' ← onItems (unwrap dbl) kwargs
      let result ← graphFunction G dbl cur f args' kwargs'
      wrap cur result

end Verif.Runtime.Function
