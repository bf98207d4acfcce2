import Verif.Pond.FixedMul

/-!
# Pond's polynomial activations

Models `Pond.sigmoid`, `Pond.relu`, `Pond.tanh` and `Pond.log` (pond.py 1247-1378) as Pond programs, so that
everything proved about programs (sharing, triples, cached masks, truncation, secrecy) applies to them.

The functions are straight-line code over one private scaled tensor. A number in the Python text is lifted to a
public constant that both servers encode (`lift`, pond.py 904-959); here it is a constant of the shape of the tensor,
the code broadcasts a scalar.
-/

namespace Verif.Pond

open Verif.Fixed

/-- Register `i` of `m`, counted from the oldest. -/
def reg (n : ℕ) : (m : ℕ) → Fin m → Var (List.replicate m n) n
  | m + 1, i => if h : i.1 < m then .there (reg n m ⟨i.1, h⟩) else .here

/-- One line of straight-line code over `m` registers. -/
inductive Ins (m : ℕ)
  /-- a number in the Python text -/
  | num (q : ℚ)
  | square (i : Fin m)
  | mul (i j : Fin m)
  | add (i j : Fin m)

/-- Straight-line code: each line fills the next register, the last register is returned. -/
inductive Code : ℕ → Type
  | ret {m : ℕ} : Code (m + 1)
  | line {m : ℕ} (o : Ins m) (k : Code (m + 1)) : Code m

variable (F : Factory) (c : Config) (n : ℕ)

/-- The operation of a line: `Pond.square`, `Pond.mul`, `Pond.add`, `define_constant`. -/
def Ins.op {m : ℕ} : Ins m → Op (Vec F) (fun _ : Unit => n) (List.replicate m n) n
  | .num q => .const (fun _ => (encode c true q : ZMod F.modulus)) true
  | .square i => .square (s := n) (t := n) AddMonoidHom.mul (fun a b => mul_comm a b) (reg n m i)
  | .mul i j => .bilin (s := n) (u := n) (t := n) .mul AddMonoidHom.mul (reg n m i) (reg n m j)
  | .add i j => .add (reg n m i) (reg n m j)

/-- The Pond program of straight-line code. -/
def Code.prog : {m : ℕ} → Code m → Prog (Vec F) (fun _ : Unit => n) (List.replicate m n) n
  | m + 1, .ret => .ret (reg n (m + 1) (Fin.last m))
  | _, .line o k => .step (o.op F c n) k.prog

/-- Share the private scaled tensor and run the code on it. -/
def Code.start (k : Code 1) : Prog (Vec F) (fun _ : Unit => n) [] n := .step (.input () true) (k.prog F c n)

/-- `Pond.sigmoid` (pond.py 1247-1278). -/
def sigmoidCode : Code 1 :=
  .line (.square 0) <|      -- 1: x2
  .line (.mul 1 0) <|       -- 2: x3
  .line (.mul 1 2) <|       -- 3: x5
  .line (.mul 1 3) <|       -- 4: x7
  .line (.mul 1 4) <|       -- 5: x9
  .line (.num (2159198015 / 10 ^ 10)) <| .line (.mul 0 6) <|     -- 7: y1
  .line (.num (-82176259 / 10 ^ 10)) <| .line (.mul 2 8) <|      -- 9: y3
  .line (.num (1825597 / 10 ^ 10)) <| .line (.mul 3 10) <|       -- 11: y5
  .line (.num (-18848 / 10 ^ 10)) <| .line (.mul 4 12) <|        -- 13: y7
  .line (.num (72 / 10 ^ 10)) <| .line (.mul 5 14) <|            -- 15: y9
  .line (.add 15 13) <| .line (.add 16 11) <| .line (.add 17 9) <| .line (.add 18 7) <|
  .line (.num (1 / 2)) <| .line (.add 19 20) .ret

/-- `Pond.relu` (pond.py 1280-1308). -/
def reluCode : Code 1 :=
  .line (.square 0) <|      -- 1: x2
  .line (.mul 1 1) <|       -- 2: x4
  .line (.mul 1 2) <|       -- 3: x6
  .line (.mul 1 3) <|       -- 4: x8
  .line (.num (1 / 2)) <| .line (.mul 0 5) <|                              -- 6: y1
  .line (.num (11217537671414643 / 10 ^ 17)) <| .line (.mul 1 7) <|        -- 8: y2
  .line (.num (-13660836712429923 / 10 ^ 19)) <| .line (.mul 2 9) <|       -- 10: y4
  .line (.num (9009136367360004 / 10 ^ 21)) <| .line (.mul 3 11) <|        -- 12: y6
  .line (.num (-21097433984 / 10 ^ 18)) <| .line (.mul 4 13) <|            -- 14: y8
  .line (.add 14 12) <| .line (.add 15 10) <| .line (.add 16 8) <| .line (.add 17 6) <|
  .line (.num (44015372000819103 / 10 ^ 17)) <| .line (.add 18 19) .ret

/-- `Pond.tanh` (pond.py 1310-1338). -/
def tanhCode : Code 1 :=
  .line (.square 0) <|      -- 1: x2
  .line (.mul 1 0) <|       -- 2: x3
  .line (.mul 1 2) <|       -- 3: x5
  .line (.mul 1 3) <|       -- 4: x7
  .line (.num (852721056 / 10 ^ 9)) <| .line (.mul 0 5) <|       -- 6: y1
  .line (.num (-12494112 / 10 ^ 8)) <| .line (.mul 2 7) <|       -- 8: y3
  .line (.num (10654528 / 10 ^ 9)) <| .line (.mul 3 9) <|        -- 10: y5
  .line (.num (-423424 / 10 ^ 9)) <| .line (.mul 4 11) <|        -- 12: y7
  .line (.add 12 10) <| .line (.add 13 8) <| .line (.add 14 6) <|
  .line (.num 0) <| .line (.add 15 16) .ret

/-- `Pond.log` (pond.py 1340-1371). -/
def logCode : Code 1 :=
  .line (.square 0) <|      -- 1: x2
  .line (.mul 1 0) <|       -- 2: x3
  .line (.mul 2 0) <|       -- 3: x4
  .line (.mul 1 2) <|       -- 4: x5
  .line (.num (1279333646 / 10 ^ 8)) <| .line (.mul 0 5) <|      -- 6: y1
  .line (.num (-2618955259 / 10 ^ 8)) <| .line (.mul 1 7) <|     -- 8: y2
  .line (.num (3024596692 / 10 ^ 8)) <| .line (.mul 2 9) <|      -- 10: y3
  .line (.num (-1730367641 / 10 ^ 8)) <| .line (.mul 3 11) <|    -- 12: y4
  .line (.num (382474222 / 10 ^ 8)) <| .line (.mul 4 13) <|      -- 14: y5
  .line (.add 14 12) <| .line (.add 15 10) <| .line (.add 16 8) <| .line (.add 17 6) <|
  .line (.num (-335674972 / 10 ^ 8)) <| .line (.add 18 19) .ret

end Verif.Pond
