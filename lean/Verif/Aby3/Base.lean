import Verif.Core.Rand
import Verif.Core.Env
import Mathlib.Data.BitVec
import Mathlib.Data.Fintype.Pi
import Mathlib.Algebra.Group.Pi.Basic
import Mathlib.Tactic.FinCases

/-!
# The rings of ABY3 and its three-server computations

ABY3 (`tf_encrypted/protocol/aby3/aby3.py`) works with two share types over the same machine
words: ARITHMETIC sharings add up in `Z_{2^w}`, BOOLEAN sharings xor together. Both are additive
groups, so one sharing model serves both: `T (.arith w n)` are tensors of `n` words of `w` bits
with addition, `T (.bool w n)` are the same tensors with xor as the group operation.
Word sizes and element counts are arbitrary (the code uses 1, 8, 16, 32, 64 and 128 bits);
a tensor is flattened to its `n` elements, and shape-changing operations are additive maps.
-/

namespace Verif.Aby3

open Verif RandM

/-- Words of `w` bits whose "addition" is xor: boolean shares
(aby3.py:866, 923, `secret ^ share0 ^ share1`). -/
structure XBits (w : ℕ) where
  /-- the machine word -/
  bits : BitVec w
deriving DecidableEq

namespace XBits
variable {w : ℕ}

@[ext] theorem ext {x y : XBits w} (h : x.bits = y.bits) : x = y := by
  cases x; cases y; simp_all

instance : Add (XBits w) := ⟨fun x y => ⟨x.bits ^^^ y.bits⟩⟩
instance : Zero (XBits w) := ⟨⟨0#w⟩⟩
instance : Neg (XBits w) := ⟨fun x => x⟩

@[simp] theorem bits_add (x y : XBits w) : (x + y).bits = x.bits ^^^ y.bits := rfl
@[simp] theorem bits_zero : (0 : XBits w).bits = 0#w := rfl
@[simp] theorem bits_neg (x : XBits w) : (-x).bits = x.bits := rfl

instance : AddCommGroup (XBits w) where
  add_assoc x y z := by ext1; simp [BitVec.xor_assoc]
  zero_add x := by ext1; simp
  add_zero x := by ext1; simp
  add_comm x y := by ext1; simp [BitVec.xor_comm]
  neg_add_cancel x := by ext1; simp
  nsmul := nsmulRec
  zsmul := zsmulRec

@[simp] theorem bits_sub (x y : XBits w) : (x - y).bits = x.bits ^^^ y.bits := rfl

/-- `XBits w` and `BitVec w` have the same elements. -/
def equiv : XBits w ≃ BitVec w := ⟨bits, mk, fun _ => rfl, fun _ => rfl⟩

end XBits

instance (w : ℕ) : Fintype (BitVec w) := Fintype.ofEquiv (Fin (2 ^ w)) BitVec.equivFin.symm.toEquiv
instance (w : ℕ) : Fintype (XBits w) := Fintype.ofEquiv (BitVec w) XBits.equiv.symm

/-- Share type, word size and number of elements of a tensor. -/
inductive Srt
  /-- arithmetic sharing of `n` words of `w` bits -/
  | arith (w n : ℕ)
  /-- boolean sharing of `n` words of `w` bits -/
  | bool (w n : ℕ)
deriving DecidableEq

/-- Tensors of a sort. -/
@[reducible] def T : Srt → Type
  | .arith w n => Fin n → BitVec w
  | .bool w n => Fin n → XBits w

instance instGroupT : (s : Srt) → AddCommGroup (T s)
  | .arith _ _ => inferInstanceAs (AddCommGroup (Fin _ → BitVec _))
  | .bool _ _ => inferInstanceAs (AddCommGroup (Fin _ → XBits _))

instance instFintypeT : (s : Srt) → Fintype (T s)
  | .arith _ _ => inferInstanceAs (Fintype (Fin _ → BitVec _))
  | .bool _ _ => inferInstanceAs (Fintype (Fin _ → XBits _))

instance instDecEqT : (s : Srt) → DecidableEq (T s)
  | .arith _ _ => inferInstanceAs (DecidableEq (Fin _ → BitVec _))
  | .bool _ _ => inferInstanceAs (DecidableEq (Fin _ → XBits _))

instance (s : Srt) : Nonempty (T s) := ⟨0⟩

/-- Something a server gets to know: a tensor sent to it, or a draw from a generator whose
seed it holds. -/
structure Msg where
  /-- which server -/
  dst : Fin 3
  /-- sort of the tensor -/
  sort : Srt
  /-- the tensor -/
  val : T sort

/-- Everything server `σ` has come to know, in order. -/
def seen (σ : Fin 3) (l : List Msg) : List Msg := l.filter fun m => m.dst = σ

/-- A three-server computation: random draws, a result and what the servers came to know. -/
def M (α : Type) : Type := RandM T (α × List Msg)

namespace M
variable {α β γ : Type}

/-- No draws, no messages. -/
def pure (a : α) : M α := RandM.pure (a, [])

/-- Sequencing; messages are appended. -/
def bind (m : M α) (f : α → M β) : M β :=
  RandM.bind m fun r => RandM.bind (f r.1) fun q => RandM.pure (q.1, r.2 ++ q.2)

instance : Monad M where
  pure := pure
  bind := bind

/-- The outcome and transcript of a run, whatever is drawn. -/
def All (P : α → Prop) (m : M α) : Prop := RandM.All (fun r => P r.1) m

/-- Draw a tensor uniformly. -/
def draw (s : Srt) : M (T s) := RandM.sample s fun t => RandM.pure (t, [])

/-- Server `dst` comes to know `v`. -/
def tell {s : Srt} (dst : Fin 3) (v : T s) : M Unit := RandM.pure ((), [⟨dst, s, v⟩])

/-- Server `dst` comes to know `v` unless `c`. -/
def tellUnless {s : Srt} (c : Prop) [Decidable c] (dst : Fin 3) (v : T s) : M Unit :=
  if c then Pure.pure () else tell dst v

theorem all_pure {P : α → Prop} {a : α} : All P (Pure.pure a : M α) ↔ P a := Iff.rfl

theorem all_bind {P : β → Prop} {m : M α} {f : α → M β} :
    All P (m >>= f) ↔ All (fun a => All P (f a)) m := by
  refine (RandM.all_bind (T := T) (P := fun r : β × List Msg => P r.1) m _).trans ?_
  constructor <;> intro h <;> refine RandM.All.mono ?_ h <;> intro r hr
  · exact RandM.All.mono (fun q hq => hq) ((RandM.all_bind (T := T) _ _).1 hr)
  · exact (RandM.all_bind (T := T) _ _).2 (RandM.All.mono (fun q hq => hq) hr)

theorem All.mono {P Q : α → Prop} {m : M α} (hm : All P m) (h : ∀ a, P a → Q a) : All Q m :=
  RandM.All.mono (fun _ => h _) hm

theorem All.bind {P : β → Prop} {Q : α → Prop} {m : M α} {f : α → M β} (hm : All Q m)
    (h : ∀ a, Q a → All P (f a)) : All P (m >>= f) := all_bind.2 (hm.mono h)

theorem All.draw_bind {P : β → Prop} {s : Srt} {f : T s → M β} (h : ∀ t, All P (f t)) :
    All P (M.draw s >>= f) := all_bind.2 h

theorem All.tell_bind {P : β → Prop} {s : Srt} {dst : Fin 3} {v : T s} {f : Unit → M β}
    (h : All P (f ())) : All P (M.tell dst v >>= f) := all_bind.2 h

/-- `P` holds of the outcome and of everything that was told, whatever is drawn. -/
def AllT (P : α → List Msg → Prop) (m : M α) : Prop := RandM.All (fun r => P r.1 r.2) m

theorem allT_pure {P : α → List Msg → Prop} {a : α} : AllT P (Pure.pure a : M α) ↔ P a [] := Iff.rfl

theorem allT_draw {s : Srt} {P : T s → List Msg → Prop} :
    AllT P (M.draw s) ↔ ∀ t, P t [] := Iff.rfl

theorem allT_tell {s : Srt} {P : Unit → List Msg → Prop} {dst : Fin 3} {v : T s} :
    AllT P (M.tell dst v) ↔ P () [⟨dst, s, v⟩] := Iff.rfl

theorem allT_bind {P : β → List Msg → Prop} {m : M α} {f : α → M β} :
    AllT P (m >>= f) ↔ AllT (fun a l => AllT (fun b l' => P b (l ++ l')) (f a)) m := by
  refine (RandM.all_bind (T := T) (P := fun r : β × List Msg => P r.1 r.2) m _).trans ?_
  constructor <;> intro h <;> refine RandM.All.mono ?_ h <;> intro r hr
  · exact RandM.All.mono (fun q hq => hq) ((RandM.all_bind (T := T) _ _).1 hr)
  · exact (RandM.all_bind (T := T) _ _).2 (RandM.All.mono (fun q hq => hq) hr)

theorem AllT.mono {P Q : α → List Msg → Prop} {m : M α} (hm : AllT P m)
    (h : ∀ a l, P a l → Q a l) : AllT Q m :=
  RandM.All.mono (fun _ => h _ _) hm

theorem AllT.bind {P : β → List Msg → Prop} {Q : α → List Msg → Prop} {m : M α} {f : α → M β}
    (hm : AllT Q m) (h : ∀ a l, Q a l → AllT (fun b l' => P b (l ++ l')) (f a)) :
    AllT P (m >>= f) := allT_bind.2 (hm.mono h)

theorem AllT.draw_bind {P : β → List Msg → Prop} {s : Srt} {f : T s → M β}
    (h : ∀ t, AllT P (f t)) : AllT P (M.draw s >>= f) := allT_bind.2 h

theorem AllT.tell_bind {P : β → List Msg → Prop} {s : Srt} {dst : Fin 3} {v : T s}
    {f : Unit → M β} (h : AllT (fun b l => P b (⟨dst, s, v⟩ :: l)) (f ())) :
    AllT P (M.tell dst v >>= f) := allT_bind.2 h

/-- Two runs that server `σ` cannot tell apart: there is a bijection between the draws of the
two under which `σ` comes to know exactly the same things, and the results are related by `Q`. -/
def Sim (σ : Fin 3) (Q : α → β → Prop) (m : M α) (n : M β) : Prop :=
  RandM.Coupled (fun r q => Q r.1 q.1 ∧ seen σ r.2 = seen σ q.2) m n

namespace Sim
variable {σ : Fin 3}

theorem pure {Q : α → β → Prop} {a : α} {b : β} (h : Q a b) :
    Sim σ Q (Pure.pure a : M α) (Pure.pure b : M β) := RandM.Coupled.pure ⟨h, rfl⟩

theorem bind {α' β' : Type} {Q : α → β → Prop} {R : α' → β' → Prop} {m : M α} {n : M β}
    {f : α → M α'} {g : β → M β'} (h : Sim σ Q m n)
    (hf : ∀ a b, Q a b → Sim σ R (f a) (g b)) : Sim σ R (m >>= f) (n >>= g) := by
  refine RandM.Coupled.bind h ?_
  rintro ⟨a, l⟩ ⟨b, l'⟩ ⟨hq, hl⟩
  refine RandM.Coupled.bind (hf a b hq) ?_
  rintro ⟨a', k⟩ ⟨b', k'⟩ ⟨hr, hk⟩
  refine RandM.Coupled.pure ⟨hr, ?_⟩
  simp only [seen] at hl hk ⊢
  simp only [List.filter_append, hl, hk]

theorem mono {Q R : α → β → Prop} {m : M α} {n : M β} (h : Sim σ Q m n)
    (hq : ∀ a b, Q a b → R a b) : Sim σ R m n :=
  RandM.Coupled.mono h fun _ _ ⟨h1, h2⟩ => ⟨hq _ _ h1, h2⟩

/-- A draw may be permuted between the two runs. -/
theorem draw {s : Srt} (e : T s ≃ T s) :
    Sim σ (fun t t' => t' = e t) (M.draw s) (M.draw s) :=
  RandM.Coupled.sample e fun _ => RandM.Coupled.pure ⟨rfl, rfl⟩

/-- `σ` must be told the same thing in both runs; what others are told does not matter. -/
theorem tell {s : Srt} {dst : Fin 3} {v v' : T s} (h : dst = σ → v = v') :
    Sim σ (fun _ _ => True) (M.tell dst v) (M.tell dst v') := by
  refine RandM.Coupled.pure ⟨trivial, ?_⟩
  by_cases hd : dst = σ
  · rw [h hd]
  · simp [seen, hd]

theorem tell_bind {α' β' : Type} {R : α' → β' → Prop} {s : Srt} {dst : Fin 3} {v v' : T s}
    {f : Unit → M α'} {g : Unit → M β'} (h : dst = σ → v = v') (hf : Sim σ R (f ()) (g ())) :
    Sim σ R (M.tell dst v >>= f) (M.tell dst v' >>= g) :=
  .bind (.tell h) fun _ _ _ => hf

theorem tell_skip {α' β' : Type} {R : α' → β' → Prop} {s : Srt} {dst : Fin 3} {v v' : T s}
    {f : Unit → M α'} {g : Unit → M β'} (h : dst ≠ σ) (hf : Sim σ R (f ()) (g ())) :
    Sim σ R (M.tell dst v >>= f) (M.tell dst v' >>= g) :=
  .tell_bind (fun h' => absurd h' h) hf

theorem tell_same {α' β' : Type} {R : α' → β' → Prop} {s : Srt} {dst : Fin 3} {v : T s}
    {f : Unit → M α'} {g : Unit → M β'} (hf : Sim σ R (f ()) (g ())) :
    Sim σ R (M.tell dst v >>= f) (M.tell dst v >>= g) :=
  .tell_bind (fun _ => rfl) hf

theorem draw_bind {α' β' : Type} {R : α' → β' → Prop} {s : Srt} (e : T s ≃ T s)
    {f : T s → M α'} {g : T s → M β'} (hf : ∀ t t', t' = e t → Sim σ R (f t) (g t')) :
    Sim σ R (M.draw s >>= f) (M.draw s >>= g) :=
  .bind (.draw e) hf

theorem draw_same {α' β' : Type} {R : α' → β' → Prop} {s : Srt}
    {f : T s → M α'} {g : T s → M β'} (hf : ∀ t, Sim σ R (f t) (g t)) :
    Sim σ R (M.draw s >>= f) (M.draw s >>= g) :=
  .bind (.draw (Equiv.refl _)) fun t t' h => by rw [h]; exact hf t

theorem draw_shift {α' β' : Type} {R : α' → β' → Prop} {s : Srt} (d : T s)
    {f : T s → M α'} {g : T s → M β'} (hf : ∀ t t', t' = t + d → Sim σ R (f t) (g t')) :
    Sim σ R (M.draw s >>= f) (M.draw s >>= g) :=
  .bind (.draw (Equiv.addRight d)) hf

theorem tellUnless_bind {α' β' : Type} {R : α' → β' → Prop} {s : Srt} {c : Prop} [Decidable c]
    {dst : Fin 3} {v v' : T s} {f : Unit → M α'} {g : Unit → M β'}
    (h : ¬ c → dst = σ → v = v') (hf : Sim σ R (f ()) (g ())) :
    Sim σ R (M.tellUnless c dst v >>= f) (M.tellUnless c dst v' >>= g) := by
  by_cases hc : c
  · rw [tellUnless, tellUnless, if_pos hc, if_pos hc]
    exact .bind (.pure (Q := fun _ _ => True) trivial) fun _ _ _ => hf
  · rw [tellUnless, tellUnless, if_neg hc, if_neg hc]
    exact .tell_bind (h hc) hf

/-- The left run satisfies whatever the relation says about it. -/
theorem left {Q : α → β → Prop} {P : α → Prop} {m : M α} {n : M β} (h : Sim σ Q m n)
    (hq : ∀ a b, Q a b → P a) : M.All P m := by
  unfold Sim at h
  unfold M.All
  induction h with
  | pure h => exact hq _ _ h.1
  | sample _ _ ih => exact ih
  | coin _ ih => exact ih
  | swapL _ ih => exact fun x y => ih y x
  | swapR _ ih => exact ih

theorem and_all {Q : α → β → Prop} {P : α → Prop} {P' : β → Prop} {m : M α} {n : M β}
    (h : Sim σ Q m n) (hm : M.All P m) (hn : M.All P' n) :
    Sim σ (fun a b => Q a b ∧ P a ∧ P' b) m n := by
  unfold Sim at h ⊢
  unfold M.All at hm hn
  induction h with
  | pure h => exact .pure ⟨⟨h.1, hm, hn⟩, h.2⟩
  | sample e _ ih => exact .sample e fun t => ih t (hm t) (hn (e t))
  | coin _ ih => exact .coin fun t => ih t (hm t) (hn t)
  | swapL _ ih => exact .swapL (ih (fun y x => hm x y) hn)
  | swapR _ ih => exact .swapR (ih hm fun y x => hn x y)

/-- What `σ` comes to know has the same distribution in both runs. -/
theorem dist_eq {Q : α → β → Prop} {m : M α} {n : M β} (h : Sim σ Q m n) :
    (RandM.dist m).map (fun r => seen σ r.2) = (RandM.dist n).map (fun r => seen σ r.2) :=
  RandM.Coupled.dist_map_eq h _ _ fun _ _ hr => hr.2

end Sim
end M
end Verif.Aby3
