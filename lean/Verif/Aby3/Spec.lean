import Verif.Aby3.Model

/-!
# What an ABY3 sharing means

Independent of the protocols: when six components are a replicated sharing of a value, when three
copies are a public value, and when two sharings look the same to a server.
-/

namespace Verif.Aby3

open Verif

variable {s : Srt}

/-- `x` is a replicated sharing of `v`: each component held twice agrees, and the three
different components add up (xor, for boolean sharings) to `v`. -/
def Holds (v : T s) (x : Shares (T s)) : Prop :=
  (∀ i, (x i).2 = (x (i + 1)).1) ∧ (x 0).1 + (x 1).1 + (x 2).1 = v

/-- All three servers hold `v`. -/
def IsPub (v : T s) (x : Pub (T s)) : Prop := ∀ i, x i = v

/-- `x` shares `v`, `x'` shares `v'`, and server `σ` holds the same two components in both. -/
def Alike (σ : Fin 3) (v v' : T s) (x x' : Shares (T s)) : Prop :=
  Holds v x ∧ Holds v' x' ∧ x σ = x' σ

/-- Per-element choice: `v` where the bit is set, `0` elsewhere. -/
def gate {w n : ℕ} (b : T (.bool 1 n)) (v : T (.arith w n)) : T (.arith w n) :=
  fun i => if (b i).bits = 1#1 then v i else 0

end Verif.Aby3
