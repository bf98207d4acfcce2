import Mathlib.Data.List.Basic

/-!
# Private queues

Models `AdditiveFIFOQueue` (pond.py:1541-1623): two TensorFlow FIFO queues of the same capacity, one on
each server. `enqueue` is two enqueue operations in no particular order (`tf.group`), `dequeue` is two
dequeue operations. A TensorFlow queue operation is atomic; it blocks (is not enabled) if the queue is
full or empty. Any number of `enqueue`s and `dequeue`s may be in progress at the same time, and a process
that is in the middle of one may crash.
-/

namespace Verif.Runtime.Queue

variable {A B : Type}

/-- An `enqueue` in progress: the two shares, and which of them have been put. -/
structure Put (A B : Type) where
  item : A × B
  sent0 : Bool
  sent1 : Bool

/-- A `dequeue` in progress: the shares taken so far. -/
structure Get (A B : Type) where
  got0 : Option A
  got1 : Option B

/-- The state of a private queue and of the processes using it. -/
structure State (A B : Type) where
  queue0 : List A
  queue1 : List B
  puts : List (Put A B)
  gets : List (Get A B)
  /-- what has been given to `enqueue`, in the order the calls started -/
  given : List (A × B)
  /-- what `dequeue` has returned, in the order the calls finished -/
  out : List (A × B)

/-- Before anything happens. -/
def State.init : State A B := ⟨[], [], [], [], [], []⟩

/-- What can happen next; `i` is the position among the calls in progress. -/
inductive Event (A B : Type)
  /-- a call of `enqueue` starts (pond.py:1589-1597; the assertions on type, shape and scaling hold) -/
  | beginPut (x : A × B)
  /-- `queue0.enqueue` (pond.py:1599-1600) -/
  | put0 (i : ℕ)
  /-- `queue1.enqueue` (pond.py:1602-1603) -/
  | put1 (i : ℕ)
  /-- the calling process dies -/
  | crashPut (i : ℕ)
  /-- a call of `dequeue` starts -/
  | beginGet
  /-- `queue0.dequeue` (pond.py:1610-1611) -/
  | get0 (i : ℕ)
  /-- `queue1.dequeue` (pond.py:1614-1615) -/
  | get1 (i : ℕ)
  /-- the calling process dies -/
  | crashGet (i : ℕ)

/-- A call of `enqueue` is over when both operations are (pond.py:1605). -/
def Put.done (p : Put A B) : Bool := p.sent0 && p.sent1

/-- Store the progress of call `i`, or remove it when it is over. -/
def updatePut (l : List (Put A B)) (i : ℕ) (p : Put A B) : List (Put A B) :=
  if p.done then l.eraseIdx i else l.set i p

/-- Store the progress of a `dequeue`; when both shares are there it returns (pond.py:1618-1623). -/
def State.updateGet (s : State A B) (i : ℕ) (g : Get A B) : State A B :=
  match g.got0, g.got1 with
  | some a, some b => { s with gets := s.gets.eraseIdx i, out := s.out ++ [(a, b)] }
  | _, _ => { s with gets := s.gets.set i g }

/-- One event; `none` if it is not enabled (the operation blocks, or there is no such call). -/
def State.step (cap : ℕ) (s : State A B) : Event A B → Option (State A B)
  | .beginPut x => some { s with puts := s.puts ++ [⟨x, false, false⟩], given := s.given ++ [x] }
  | .put0 i =>
    match s.puts[i]? with
    | some p =>
      if p.sent0 = false ∧ s.queue0.length < cap then
        some { s with
          queue0 := s.queue0 ++ [p.item.1], puts := updatePut s.puts i { p with sent0 := true } }
      else none
    | none => none
  | .put1 i =>
    match s.puts[i]? with
    | some p =>
      if p.sent1 = false ∧ s.queue1.length < cap then
        some { s with
          queue1 := s.queue1 ++ [p.item.2], puts := updatePut s.puts i { p with sent1 := true } }
      else none
    | none => none
  | .crashPut i => if i < s.puts.length then some { s with puts := s.puts.eraseIdx i } else none
  | .beginGet => some { s with gets := s.gets ++ [⟨none, none⟩] }
  | .get0 i =>
    match s.gets[i]?, s.queue0 with
    | some g, a :: q =>
      match g.got0 with
      | none => some ({ s with queue0 := q }.updateGet i { g with got0 := some a })
      | some _ => none
    | _, _ => none
  | .get1 i =>
    match s.gets[i]?, s.queue1 with
    | some g, b :: q =>
      match g.got1 with
      | none => some ({ s with queue1 := q }.updateGet i { g with got1 := some b })
      | some _ => none
    | _, _ => none
  | .crashGet i => if i < s.gets.length then some { s with gets := s.gets.eraseIdx i } else none

/-- A schedule. -/
def State.run (cap : ℕ) (s : State A B) : List (Event A B) → Option (State A B)
  | [] => some s
  | e :: l => (s.step cap e).bind fun s' => s'.run cap l

/-- The number `size()` returns (pond.py:1586-1587). -/
def State.size (s : State A B) : ℕ := s.queue0.length

end Verif.Runtime.Queue
