import Verif.Runtime.Function

/-!
# What it means that a compiled function returns what the plain function returns
-/

namespace Verif.Runtime.Function

variable {P V O : Type}

/-- What TensorFlow does to values that are not tensors changes nothing that matters: `R o o'` says that
`o'` is `o` or its conversion to a tensor. -/
structure Graph.Faithful (G : Graph O) (R : O → O → Prop) : Prop where
  refl : ∀ o, R o o
  trans : ∀ a b c, R a b → R b c → R a c
  arg : ∀ o, R o (G.arg o)
  res : ∀ o o', G.res o = some o' → R o o'
  keeps : ∀ o o', R o o' → (G.res o).isSome → (G.res o').isSome

mutual
/-- Two values are the same but for lists and tuples, variables and tensors, and conversions: the tensors
in them have the same components with the same factories, the same flags and the same kind of sharing. -/
def Same (R : O → O → Prop) : Val P V O → Val P V O → Prop
  | .tensor t, .tensor t' => t.body = t'.body
  | .bone b, .bone b' => b = b'
  | .list l, .list l' => SameAll R l l'
  | .list l, .tuple l' => SameAll R l l'
  | .tuple l, .list l' => SameAll R l l'
  | .tuple l, .tuple l' => SameAll R l l'
  | .dict l, .dict l' => SameItems R l l'
  | .other o, .other o' => R o o'
  | _, _ => False
/-- element by element -/
def SameAll (R : O → O → Prop) : List (Val P V O) → List (Val P V O) → Prop
  | [], [] => True
  | v :: l, v' :: l' => Same R v v' ∧ SameAll R l l'
  | _, _ => False
/-- key by key -/
def SameItems (R : O → O → Prop) : List (String × Val P V O) → List (String × Val P V O) → Prop
  | [], [] => True
  | (k, v) :: l, (k', v') :: l' => k = k' ∧ Same R v v' ∧ SameItems R l l'
  | _, _ => False
end

/-- Both raise the same, or both return the same. -/
def SameResult (R : O → O → Prop) : Except Err (Val P V O) → Except Err (Val P V O) → Prop
  | .ok v, .ok v' => Same R v v'
  | .error e, .error e' => e = e'
  | _, _ => False

/-- The function does not tell apart what is the same (in particular it does not read or assign variables
it gets as arguments). -/
def Respects (R : O → O → Prop) (f : Fn P V O) : Prop :=
  ∀ args args' kwargs kwargs', SameAll R args args' → SameItems R kwargs kwargs' →
    SameResult R (f args kwargs) (f args' kwargs')

/-- All components have this factory. -/
def Body.Uniform (f : Fac) : Body V → Prop
  | .aby3Public v0 v1 v2 _ => v0.fac = f ∧ v1.fac = f ∧ v2.fac = f
  | .aby3Private s00 s01 s10 s11 s20 s21 _ _ =>
    s00.fac = f ∧ s01.fac = f ∧ s10.fac = f ∧ s11.fac = f ∧ s20.fac = f ∧ s21.fac = f
  | .pondPublic v0 v1 _ => v0.fac = f ∧ v1.fac = f
  | .pondPrivate s0 s1 _ => s0.fac = f ∧ s1.fac = f
  | .pondMasked s0 s1 _ a a0 a1 al0 al1 _ =>
    s0.fac = f ∧ s1.fac = f ∧ a.fac = f ∧ a0.fac = f ∧ a1.fac = f ∧ al0.fac = f ∧ al1.fac = f

/-- The protocols the tensor belongs to. -/
def Body.family : Body V → Family
  | .aby3Public .. => .aby3
  | .aby3Private .. => .aby3
  | .pondPublic .. => .pond
  | .pondPrivate .. => .pond
  | .pondMasked .. => .pond

/-- The same tensor with all components changed. -/
def Body.map (g : Back V → Back V) : Body V → Body V
  | .aby3Public v0 v1 v2 s => .aby3Public (g v0) (g v1) (g v2) s
  | .aby3Private s00 s01 s10 s11 s20 s21 s k =>
    .aby3Private (g s00) (g s01) (g s10) (g s11) (g s20) (g s21) s k
  | .pondPublic v0 v1 s => .pondPublic (g v0) (g v1) s
  | .pondPrivate s0 s1 s => .pondPrivate (g s0) (g s1) s
  | .pondMasked s0 s1 s a a0 a1 al0 al1 ms =>
    .pondMasked (g s0) (g s1) s (g a) (g a0) (g a1) (g al0) (g al1) ms

/-- Factories that survive: booleans and native tensors without modulus, and int128 in ABY3. -/
def Fac.Kept : Family → Fac → Prop
  | _, .bool => True
  | _, .native _ none => True
  | .aby3, .int128 => True
  | _, _ => False

/-- A tensor of the current protocol with such a factory. -/
def Body.Portable (cur : Family) (b : Body V) : Prop :=
  b.family = cur ∧ ∃ f, b.Uniform f ∧ f.Kept cur

mutual
/-- Arguments: lists and tuples, at any depth, of portable tensors and other values. Dictionaries are
passed on as they are. -/
def Portable (cur : Family) : Val P V O → Prop
  | .tensor t => t.body.Portable cur
  | .bone _ => False
  | .list l => PortableAll cur l
  | .tuple l => PortableAll cur l
  | .dict _ => True
  | .other _ => True
/-- all elements -/
def PortableAll (cur : Family) : List (Val P V O) → Prop
  | [] => True
  | v :: l => Portable cur v ∧ PortableAll cur l
end

/-- Keyword arguments. -/
def PortableItems (cur : Family) : List (String × Val P V O) → Prop
  | [] => True
  | (_, v) :: l => Portable cur v ∧ PortableItems cur l

mutual
/-- Values with nothing of the protocols in them, which TensorFlow can return. -/
def Plain (G : Graph O) : Val P V O → Prop
  | .tensor _ => False
  | .bone _ => False
  | .list l => PlainAll G l
  | .tuple l => PlainAll G l
  | .dict l => PlainItems G l
  | .other o => (G.res o).isSome
/-- all elements -/
def PlainAll (G : Graph O) : List (Val P V O) → Prop
  | [] => True
  | v :: l => Plain G v ∧ PlainAll G l
/-- all items -/
def PlainItems (G : Graph O) : List (String × Val P V O) → Prop
  | [] => True
  | (_, v) :: l => Plain G v ∧ PlainItems G l
end

mutual
/-- Results: lists and tuples, at any depth, of portable tensors and of values TensorFlow can return;
dictionaries without tensors of the protocol. -/
def Returnable (G : Graph O) (cur : Family) : Val P V O → Prop
  | .tensor t => t.body.Portable cur
  | .bone _ => False
  | .list l => ReturnableAll G cur l
  | .tuple l => ReturnableAll G cur l
  | .dict l => PlainItems G l
  | .other o => (G.res o).isSome
/-- all elements -/
def ReturnableAll (G : Graph O) (cur : Family) : List (Val P V O) → Prop
  | [] => True
  | v :: l => Returnable G cur v ∧ ReturnableAll G cur l
end

end Verif.Runtime.Function
