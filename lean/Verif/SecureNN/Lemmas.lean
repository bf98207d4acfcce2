import Verif.SecureNN.OddProps
import Verif.Pond.Props
import Mathlib.Tactic.LinearCombination
import Mathlib.Algebra.BigOperators.Ring.Finset
import Mathlib.Data.Nat.Bitwise
import Mathlib.Data.ZMod.Basic

/-! # Lemmas on SecureNN -/

namespace Verif.SecureNN

open Pond (Priv)
open RandM

variable {w p : ℕ}

/-- A shared value. -/
def Holds {R : Type} [Add R] (x : Priv R) (v : R) : Prop := x.x0 + x.x1 = v

section
variable {R : Type} [CommRing R] {x y : Priv R} {u v : R}

theorem Holds.add (hx : Holds x u) (hy : Holds y v) : Holds (SecureNN.add x y) (u + v) := by
  unfold Holds SecureNN.add at *; linear_combination hx + hy
theorem Holds.sub (hx : Holds x u) (hy : Holds y v) : Holds (SecureNN.sub x y) (u - v) := by
  unfold Holds SecureNN.sub at *; linear_combination hx - hy
theorem Holds.addPub (hx : Holds x u) (a : R) : Holds (SecureNN.addPub x a) (u + a) := by
  unfold Holds SecureNN.addPub at *; linear_combination hx
theorem Holds.pubSub (hx : Holds x u) (a : R) : Holds (SecureNN.pubSub a x) (a - u) := by
  unfold Holds SecureNN.pubSub at *; linear_combination -hx
theorem Holds.mulPub (hx : Holds x u) (a : R) : Holds (SecureNN.mulPub x a) (u * a) := by
  unfold Holds SecureNN.mulPub at *; linear_combination a * hx
theorem Holds.bitwiseNot (hx : Holds x u) : Holds (SecureNN.bitwiseNot x) (1 - u) := hx.pubSub 1
theorem Holds.bitwiseXorPub (hx : Holds x u) (a : R) :
    Holds (SecureNN.bitwiseXorPub x a) (u + a - u * a * 2) :=
  (hx.addPub a).sub ((hx.mulPub a).mulPub 2)
theorem Holds.bitwiseOrPub (hx : Holds x u) (a : R) :
    Holds (SecureNN.bitwiseOrPub x a) (u + a - u * a) :=
  (hx.addPub a).sub (hx.mulPub a)
theorem Holds.selectPub (hx : Holds x u) (hy : Holds y v) (a : R) :
    Holds (SecureNN.selectPub a x y) ((v - u) * a + u) :=
  ((hy.sub hx).mulPub a).add hx
end

theorem beaver {R : Type} [CommRing R] (x0 x1 y0 y1 a0 a1 b0 b1 c0 c1 u v : R)
    (hx : x0 + x1 = u) (hy : y0 + y1 = v) (hc : c0 + c1 = (a0 + a1) * (b0 + b1)) :
    c0 + a0 * (y0 - b0 + (y1 - b1)) + (x0 - a0 + (x1 - a1)) * b0 +
      (x0 - a0 + (x1 - a1)) * (y0 - b0 + (y1 - b1)) +
    (c1 + a1 * (y0 - b0 + (y1 - b1)) + (x0 - a0 + (x1 - a1)) * b1) = u * v := by
  subst hx hy
  linear_combination hc

theorem mul_all {x y : Priv (BitVec w)} {u v : BitVec w} (hx : Holds x u) (hy : Holds y v) :
    (mul (p := p) x y).All fun z => Holds z (u * v) := by
  simp only [mul, Pond.maskPrivate, Pond.dealerMask, Pond.dealerShare, RandM.bind_sample,
    RandM.bind_coin, RandM.bind_pure, RandM.all_sample, RandM.all_coin]
  intro a0 a1 b0 b1 c s
  cases c
  · exact beaver (R := BitVec w) _ _ _ _ a0 a1 b0 b1 s _ u v hx hy (add_sub_cancel _ _)
  · exact beaver (R := BitVec w) _ _ _ _ a0 a1 b0 b1 _ s u v hx hy (sub_add_cancel _ _)

theorem shareWord_all (x : BitVec w) : (shareWord (p := p) x).All fun z => Holds z x := by
  intro c s
  cases c
  · show (_ : BitVec w) + _ = _
    exact sub_add_cancel _ _
  · show (_ : BitVec w) + _ = _
    exact add_sub_cancel _ _

theorem shareBits_all (x : Fin w → ZMod p) : (shareBits x).All fun z => Holds z x := by
  intro c s
  cases c
  · show (_ : Fin w → ZMod p) + _ = _
    exact sub_add_cancel _ _
  · show (_ : Fin w → ZMod p) + _ = _
    exact add_sub_cancel _ _

end Verif.SecureNN
