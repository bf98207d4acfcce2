import Verif.Pond.Model
import Mathlib.Algebra.Ring.Pi
import Mathlib.Data.BitVec
import Mathlib.Algebra.Field.ZMod
import Mathlib.Algebra.Module.BigOperators
import Mathlib.Algebra.BigOperators.Pi

/-!
# SecureNN

Models `tf_encrypted/protocol/securenn/odd_tensor.py` and `securenn.py`, element by element (every
operation there is element-wise; the bits of an element form a vector `Fin w → ZMod p`).

Words have an arbitrary width `w` (32 or 64 in the code), the prime field is `ZMod p` (107 in the
code; arithmetic of `native_factory(..., prime)` reduces after each operation, native.py:342-368).

Simplifications: device placement, name scopes, shapes and the memoiser are dropped; a public tensor
is one value instead of two equal copies. Values in SecureNN's comparison part are unscaled, so nothing
is truncated. Randomness that must lie in a proper subset (`r0`, `r1` of the odd ring, the non-zero
masks, the blinding bit) is passed as arguments; shares and triples are drawn in `RandM`.
-/

namespace Verif.SecureNN

open Pond (Priv)

variable {w p : ℕ}

/-! ## Odd rings (odd_tensor.py) -/

/-- `_lessthan_as_unsigned` (odd_tensor.py:312-324). -/
def ltu (x y : BitVec w) : BitVec w :=
  let notX := ~~~x
  let lhs := notX &&& y
  let rhs := (notX ||| y) &&& (x - y)
  let z := (lhs ||| rhs).sshiftRight (w - 1)
  z &&& 1#w

/-- `OddTensor.add` (odd_tensor.py:152-180). -/
def oddAdd (x y : BitVec w) : BitVec w :=
  let z := x + y
  z + ltu (-2#w - y) x

/-- `OddTensor.sub` (odd_tensor.py:182-204). -/
def oddSub (x y : BitVec w) : BitVec w :=
  let z := x - y
  z - ltu x y

/-- `Factory.tensor` (odd_tensor.py:35-50) with `_map_minusone_to_zero` (326-329). -/
def oddLift (x : BitVec w) : BitVec w := if x = -1#w then 0#w else x

/-! ## Private arithmetic (pond.py), as used by SecureNN -/

/-- What is shared: words, and vectors of field elements. -/
inductive Srt
  /-- an element of the main ring -/
  | word
  /-- the bits of an element, in the prime field -/
  | bits

/-- Values of a sort. -/
abbrev T (w p : ℕ) : Srt → Type
  | .word => BitVec w
  | .bits => Fin w → ZMod p

instance : ∀ s, AddCommGroup (T w p s)
  | .word => inferInstanceAs (AddCommGroup (BitVec w))
  | .bits => inferInstanceAs (AddCommGroup (Fin w → ZMod p))

section
variable {R : Type} [CommRing R]

/-- `_add_private_private` (pond.py:2588-2610). -/
def add (x y : Priv R) : Priv R := ⟨x.x0 + y.x0, x.x1 + y.x1⟩
/-- `_sub_private_private` (pond.py:2824-2844). -/
def sub (x y : Priv R) : Priv R := ⟨x.x0 - y.x0, x.x1 - y.x1⟩
/-- `_add_private_public` (pond.py:2564-2585). -/
def addPub (x : Priv R) (y : R) : Priv R := ⟨x.x0 + y, x.x1⟩
/-- `_sub_private_public` (pond.py:2800-2821). -/
def subPub (x : Priv R) (y : R) : Priv R := ⟨x.x0 - y, x.x1⟩
/-- `_sub_public_private` (pond.py:2775-2797). -/
def pubSub (x : R) (y : Priv R) : Priv R := ⟨x - y.x0, -y.x1⟩
/-- `_mul_public_private`, `_mul_private_public` (pond.py:2892-2945). -/
def mulPub (x : Priv R) (y : R) : Priv R := ⟨x.x0 * y, x.x1 * y⟩

/-- `bitwise_not` (securenn.py:90-101) of a private tensor. -/
def bitwiseNot (x : Priv R) : Priv R := pubSub 1 x

/-- `bitwise_and` with a public bit (securenn.py:103-116). -/
def bitwiseAndPub (x : Priv R) (y : R) : Priv R := mulPub x y

/-- `bitwise_or` with a public bit (securenn.py:118-131): `x + y - xy`. -/
def bitwiseOrPub (x : Priv R) (y : R) : Priv R := sub (addPub x y) (bitwiseAndPub x y)

/-- `bitwise_xor` with a public bit (securenn.py:133-146): `x + y - (xy) * 2`. -/
def bitwiseXorPub (x : Priv R) (y : R) : Priv R :=
  sub (addPub x y) (mulPub (bitwiseAndPub x y) 2)

/-- `select` with a public choice bit (securenn.py:294-331). -/
def selectPub (choice : R) (x y : Priv R) : Priv R := add (mulPub (sub y x) choice) x

/-- Public values: `bitwise_and`, `select` (securenn.py:103-116, 294-331). -/
def selectPubPub (choice x y : R) : R := (y - x) * choice + x
end

/-- `_mul_private_private`, `_mul_masked_masked` (pond.py:2948-2987) on words, with fresh masks. -/
def mul (x y : Priv (BitVec w)) : RandM (T w p) (Priv (BitVec w)) :=
  (Pond.maskPrivate (T := T w p) (s := .word) x).bind fun mx =>
  (Pond.maskPrivate (T := T w p) (s := .word) y).bind fun my =>
  (Pond.dealerShare (T := T w p) (s := .word) ((mx.1.a * my.1.a : BitVec w))).bind fun ab =>
    let a : BitVec w := ab.x0
    let b : BitVec w := ab.x1
    .pure ⟨a + mx.1.a0 * my.1.alpha0 + mx.1.alpha0 * my.1.a0 + mx.1.alpha0 * my.1.alpha0,
      b + mx.1.a1 * my.1.alpha1 + mx.1.alpha1 * my.1.a1⟩

/-- `_share_and_wrap` (pond.py:843-850) of a word. -/
def shareWord (x : BitVec w) : RandM (T w p) (Priv (BitVec w)) :=
  Pond.share (T := T w p) (s := .word) x

/-- `_share_and_wrap` of a vector of field elements. -/
def shareBits (x : Fin w → ZMod p) : RandM (T w p) (Priv (Fin w → ZMod p)) :=
  Pond.share (T := T w p) (s := .bits) x

/-- `bitwise_and` of two private tensors (securenn.py:103-116). -/
def bitwiseAnd (x y : Priv (BitVec w)) : RandM (T w p) (Priv (BitVec w)) := mul x y

/-- `bitwise_or` of two private tensors (securenn.py:118-131). -/
def bitwiseOr (x y : Priv (BitVec w)) : RandM (T w p) (Priv (BitVec w)) :=
  (bitwiseAnd x y).bind fun z => .pure (sub (add x y) z)

/-- `bitwise_xor` of two private tensors (securenn.py:133-146). -/
def bitwiseXor (x y : Priv (BitVec w)) : RandM (T w p) (Priv (BitVec w)) :=
  (bitwiseAnd x y).bind fun z => .pure (sub (add x y) (mulPub z 2))

/-- `select` with a private choice bit (securenn.py:294-331): `(y - x) * choice_bit + x`. -/
def select (choice x y : Priv (BitVec w)) : RandM (T w p) (Priv (BitVec w)) :=
  (mul (sub y x) choice).bind fun z => .pure (add z x)

/-! ## Comparison -/

/-- `bits(x, factory=prime)` (securenn.py:562-577, native.py:290-296): bit `i` of the word. -/
def bitsOf (x : BitVec w) : Fin w → ZMod p := fun i => if x.getLsbD i then 1 else 0

/-- `cumsum(axis=-1, reverse=True, exclusive=True)` (pond.py:2686-2745, securenn.py:706). -/
def cumsum (x : Fin w → ZMod p) : Fin w → ZMod p := fun i => ∑ j ∈ Finset.univ.filter (i < ·), x j

/-- A linear map applied to both shares. -/
def both {A B : Type} (f : A → B) (x : Priv A) : Priv B := ⟨f x.x0, f x.x1⟩

/-- What server 2 reconstructs in `_private_compare` (securenn.py:671-751): the masked vector `d`.
`r` is public, `β` is the blinding bit, `mask` the multiplicative mask. -/
def compareMasked (xBits : Priv (Fin w → ZMod p)) (r : BitVec w) (β : Bool)
    (mask : Fin w → ZMod p) : RandM (T w p) (Fin w → ZMod p) :=
  let βw : BitVec w := if β then 1 else 0
  let βp : Fin w → ZMod p := fun _ => if β then 1 else 0
  -- use either r or t = r + 1 according to beta
  let s := selectPubPub βw r (r + 1#w)
  let sBits : Fin w → ZMod p := bitsOf s
  let wBits := bitwiseXorPub xBits sBits
  let wSum := both cumsum wBits
  let sign := selectPubPub βp 1 (-1)
  let cExcept := add (addPub (mulPub (pubSub sBits xBits) sign) 1) wSum
  -- edge cases: beta is 1 and s is zero
  let edge : Fin w → ZMod p := βp * fun _ => if s = 0#w then 1 else 0
  (shareBits fun i => if i.val = 0 then 0 else 1).bind fun cEdge =>
    let c := selectPub edge cExcept cEdge
    let cMasked := mulPub c mask
    .pure (cMasked.x0 + cMasked.x1)

/-- `_private_compare` (securenn.py:671-767): server 2 counts the zeros and shares the count in the
main ring. -/
def privateCompare (xBits : Priv (Fin w → ZMod p)) (r : BitVec w) (β : Bool)
    (mask : Fin w → ZMod p) : RandM (T w p) (Priv (BitVec w)) :=
  (compareMasked xBits r β mask).bind fun d =>
    shareWord (∑ i, if d i = 0 then (1 : BitVec w) else 0)

/-- `_lsb_private` (securenn.py:594-664): the least significant bit of a tensor shared in the odd ring.
`r0`, `r1` are server 2's samples; the result is shared in the main ring. -/
def lsb (x : Priv (BitVec w)) (r0 r1 : BitVec w) (β : Bool) (mask : Fin w → ZMod p) :
    RandM (T w p) (Priv (BitVec w)) :=
  let rRaw := oddAdd r0 r1
  (shareBits (bitsOf rRaw)).bind fun rBits =>
  (shareWord (p := p) (if rRaw.getLsbD 0 then 1 else 0)).bind fun rLsb =>
    -- blind and reveal
    let c := oddAdd (oddAdd x.x0 r0) (oddAdd x.x1 r1)
    (privateCompare rBits c β mask).bind fun greaterXorBeta =>
      let cLsb : BitVec w := if c.getLsbD 0 then 1 else 0
      let γ := bitwiseXorPub greaterXorBeta (if β then 1 else 0)
      let δ := bitwiseXorPub rLsb cLsb
      bitwiseXor γ δ

/-- The randomness of one `lsb` that is not a sharing. -/
structure Coins (w p : ℕ) where
  /-- server 2's samples from the odd ring -/
  r0 : BitVec w
  /-- server 2's samples from the odd ring -/
  r1 : BitVec w
  /-- the blinding bit -/
  β : Bool
  /-- the multiplicative mask -/
  mask : Fin w → ZMod p

/-- `msb` (securenn.py:148-160) of a private tensor: the shares are cast locally to the odd ring
(`_cast_backing_private`, 887-907), doubled there, and the least significant bit is taken. -/
def msb (x : Priv (BitVec w)) (k : Coins w p) : RandM (T w p) (Priv (BitVec w)) :=
  let y : Priv (BitVec w) := both oddLift x
  lsb ⟨oddAdd y.x0 y.x0, oddAdd y.x1 y.x1⟩ k.r0 k.r1 k.β k.mask

/-- `is_negative` (securenn.py:189-204). -/
def isNegative (x : Priv (BitVec w)) (k : Coins w p) : RandM (T w p) (Priv (BitVec w)) := msb x k

/-- `non_negative` (securenn.py:206-223). -/
def nonNegative (x : Priv (BitVec w)) (k : Coins w p) : RandM (T w p) (Priv (BitVec w)) :=
  (msb x k).bind fun b => .pure (bitwiseNot b)

/-- `less` (securenn.py:225-241). -/
def less (x y : Priv (BitVec w)) (k : Coins w p) : RandM (T w p) (Priv (BitVec w)) :=
  isNegative (sub x y) k

/-- `greater` (securenn.py:260-275). -/
def greater (x y : Priv (BitVec w)) (k : Coins w p) : RandM (T w p) (Priv (BitVec w)) :=
  isNegative (sub y x) k

/-- `less_equal` (securenn.py:243-258). -/
def lessEqual (x y : Priv (BitVec w)) (k : Coins w p) : RandM (T w p) (Priv (BitVec w)) :=
  (greater x y k).bind fun b => .pure (bitwiseNot b)

/-- `greater_equal` (securenn.py:277-292). -/
def greaterEqual (x y : Priv (BitVec w)) (k : Coins w p) : RandM (T w p) (Priv (BitVec w)) :=
  (less x y k).bind fun b => .pure (bitwiseNot b)

/-- `relu_with_cmp` (securenn.py:352-357), not split: `(drelu * x, drelu)`. -/
def reluWithCmp (x : Priv (BitVec w)) (k : Coins w p) :
    RandM (T w p) (Priv (BitVec w) × Priv (BitVec w)) :=
  (nonNegative x k).bind fun drelu =>
    (mul drelu x).bind fun y => .pure (y, drelu)

/-- `relu_with_cmp` (securenn.py:352-390) on a whole tensor: `split` tells whether its size exceeds
`max_size`. In that case each part is computed on its own, and the two results are swapped
(`d, r = actual_relu_with_cmp(...)`, 386). The parts are modelled as single elements. -/
def reluWithCmpTensor (split : Bool) (x : Priv (BitVec w)) (k : Coins w p) :
    RandM (T w p) (Priv (BitVec w) × Priv (BitVec w)) :=
  if split then (reluWithCmp x k).bind fun dr => .pure (dr.2, dr.1)
  else reluWithCmp x k

/-- `relu` (securenn.py:392-405): the first of the two results. -/
def relu (split : Bool) (x : Priv (BitVec w)) (k : Coins w p) : RandM (T w p) (Priv (BitVec w)) :=
  (reluWithCmpTensor split x k).bind fun r => .pure r.1

/-- `maximum` (securenn.py:442-461). -/
def maximum (x y : Priv (BitVec w)) (k : Coins w p) : RandM (T w p) (Priv (BitVec w)) :=
  (greater x y k).bind fun i => select i y x

/-! ## Reductions -/

/-- An operand that is public (a constant index) or private. -/
inductive Body (R : Type)
  /-- public -/
  | pub (v : R)
  /-- private -/
  | priv (x : Priv R)

/-- `sub` by kinds (pond.py:2748-2844). -/
def Body.sub {R : Type} [CommRing R] : Body R → Body R → Body R
  | .pub x, .pub y => .pub (x - y)
  | .pub x, .priv y => .priv (pubSub x y)
  | .priv x, .pub y => .priv (subPub x y)
  | .priv x, .priv y => .priv (SecureNN.sub x y)

/-- `mul` by a private bit, by the kind of the other operand (pond.py:2892-2987). -/
def mulBody (choice : Priv (BitVec w)) : Body (BitVec w) → RandM (T w p) (Priv (BitVec w))
  | .pub d => .pure (mulPub choice d)
  | .priv d => mul d choice

/-- `add` to a private value, by kinds (pond.py:2564-2610). -/
def addBody (z : Priv (BitVec w)) : Body (BitVec w) → Priv (BitVec w)
  | .pub x => addPub z x
  | .priv x => add z x

/-- `select` with a private choice bit (securenn.py:294-331), by kinds of the other operands. -/
def selectBody (choice : Priv (BitVec w)) (x y : Body (BitVec w)) :
    RandM (T w p) (Body (BitVec w)) :=
  (mulBody choice (Body.sub y x)).bind fun z => .pure (.priv (addBody z x))

theorem take_half_ne {α : Type} {l : List α} (h : ¬ l.length ≤ 1) : l.take (l.length / 2) ≠ [] := by
  intro e
  have := congrArg List.length e
  simp only [List.length_take, List.length_nil] at this
  omega

theorem drop_half_ne {α : Type} {l : List α} (h : ¬ l.length ≤ 1) : l.drop (l.length / 2) ≠ [] := by
  intro e
  have := congrArg List.length e
  simp only [List.length_drop, List.length_nil] at this
  omega

/-- `build_comparison_tree` (securenn.py:484-492, 523-547): cut at `len // 2`, reduce both parts, left
part first, combine. `coins` gives the randomness of each node: `lo` is the index of the first
element below the node and `l.length` the number of elements. An empty list recurses for ever in the
code, hence `h`. -/
def tree {α : Type} (f : Coins w p → α → α → RandM (T w p) α) (coins : ℕ → ℕ → Coins w p) (lo : ℕ)
    (l : List α) (h : l ≠ []) : RandM (T w p) α :=
  if h1 : l.length ≤ 1 then .pure (l.head h)
  else
    (tree f coins lo (l.take (l.length / 2)) (take_half_ne h1)).bind fun a =>
    (tree f coins (lo + l.length / 2) (l.drop (l.length / 2)) (drop_half_ne h1)).bind fun b =>
      f (coins lo l.length) a b
termination_by l.length
decreasing_by
  · simp only [List.length_take]; omega
  · simp only [List.length_drop]; omega

/-- `reduce_max` (securenn.py:463-499). -/
def reduceMax (coins : ℕ → ℕ → Coins w p) (l : List (Priv (BitVec w))) (h : l ≠ []) :
    RandM (T w p) (Priv (BitVec w)) :=
  tree (fun k x y => maximum x y k) coins 0 l h

/-- One node of `reduce_max_with_argmax` (securenn.py:537-545). -/
def argNode (k : Coins w p) (l r : Priv (BitVec w) × Body (BitVec w)) :
    RandM (T w p) (Priv (BitVec w) × Body (BitVec w)) :=
  (greater l.1 r.1 k).bind fun g =>
  (select g r.1 l.1).bind fun m =>
  (selectBody g r.2 l.2).bind fun i => .pure (m, i)

/-- `reduce_max_with_argmax` (securenn.py:520-559). The indices are constants, scaled by `2^frac`. -/
def reduceMaxWithArgmax (frac : ℕ) (coins : ℕ → ℕ → Coins w p) (l : List (Priv (BitVec w)))
    (h : l ≠ []) : RandM (T w p) (Priv (BitVec w) × Body (BitVec w)) :=
  tree argNode coins 0 (l.mapIdx fun i x => (x, .pub (BitVec.ofNat w (i * 2 ^ frac))))
    (by simpa using h)

end Verif.SecureNN
