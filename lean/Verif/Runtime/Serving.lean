import Mathlib.Data.List.Basic

/-!
# Serving

Models `QueueServer` and `QueueClient` (serving/queues.py). The queues are the private queues of
`Verif.Runtime.Queue`, here with atomic operations (see `queue_fifo_partial` for when they are). Any number
of clients call `run`; a client that has sent its query waits for an answer. The server repeats: take a
query, compute, put the answer. The server may crash and be restarted.
-/

namespace Verif.Runtime.Serving

variable {X Y : Type}

/-- Server, queues, clients. -/
structure State (X Y : Type) where
  /-- `input_queue` -/
  input : List X
  /-- the query the server is working on -/
  held : Option X
  /-- `output_queue` -/
  output : List Y
  /-- clients between `send_input` and `receive_output` -/
  waiting : List ℕ
  /-- queries in the order they were sent, and by whom -/
  sent : List (ℕ × X)
  /-- answers in the order they were received, and by whom -/
  received : List (ℕ × Y)

/-- Nothing sent yet. -/
def State.init : State X Y := ⟨[], none, [], [], [], []⟩

/-- What can happen next. -/
inductive Event (X : Type)
  /-- `send_input` (queues.py:107-114) at the start of `run` -/
  | send (client : ℕ) (x : X)
  /-- `input_queue.dequeue()` in `computation_step` (queues.py:43) -/
  | take
  /-- `output_queue.enqueue(y)` in `computation_step` (queues.py:44-45) -/
  | put
  /-- `receive_output` (queues.py:116-120) at the end of `run` -/
  | receive (client : ℕ)
  /-- the server dies and is restarted; the queues survive -/
  | crash

/-- One event, with the capacities of the two queues; `none` if it is not enabled. -/
def State.step (capIn capOut : ℕ) (f : X → Y) (s : State X Y) : Event X → Option (State X Y)
  | .send c x =>
    if c ∉ s.waiting ∧ s.input.length < capIn then
      some { s with input := s.input ++ [x], waiting := s.waiting ++ [c], sent := s.sent ++ [(c, x)] }
    else none
  | .take =>
    match s.held, s.input with
    | none, x :: l => some { s with held := some x, input := l }
    | _, _ => none
  | .put =>
    match s.held with
    | some x =>
      if s.output.length < capOut then some { s with held := none, output := s.output ++ [f x] }
      else none
    | none => none
  | .receive c =>
    if c ∈ s.waiting then
      match s.output with
      | y :: l =>
        some { s with
          output := l, waiting := s.waiting.erase c, received := s.received ++ [(c, y)] }
      | [] => none
    else none
  | .crash => some { s with held := none }

/-- A schedule. -/
def State.run (capIn capOut : ℕ) (f : X → Y) (s : State X Y) : List (Event X) → Option (State X Y)
  | [] => some s
  | e :: l => (s.step capIn capOut f e).bind fun s' => s'.run capIn capOut f l

end Verif.Runtime.Serving
