import Verif.Runtime.Trace
import Mathlib.Tactic.FinCases

/-!
# C87: results of operations can be used where they were asked for

For every history of calls in eager code and in traces, in any order.
-/

namespace Verif.Runtime.Trace

/-- TensorFlow accepts eager tensors everywhere, and tensors of a trace in that trace only. -/
def Usable (w : World) (t : T) : Prop := t.made = .eager ∨ t.made = w

/-- In a trace, the call uses at least one tensor of the trace (an argument of the compiled function, or
something computed from it). -/
def Uses (w : World) (k : Key) : Prop := w = .eager ∨ ∃ t ∈ k.args, t.made = w

theorem get_mem {nodes : List (Key × T)} {k : Key} {t : T} (h : get nodes k = some t) : (k, t) ∈ nodes := by
  unfold get at h
  obtain ⟨e, he, rfl⟩ := Option.map_eq_some_iff.1 h
  have h1 := List.mem_of_find?_eq_some he
  have h2 : e.1 = k := by simpa using List.find?_some he
  rw [← h2]
  exact h1

/-- Every cached result was made in eager code, or where one of the arguments was made. -/
def Inv (s : State) : Prop := ∀ k t, (k, t) ∈ s.nodes → Uses t.made k

theorem call_inv {s : State} (h : Inv s) {w : World} {k : Key} (hu : Uses w k) : Inv (call s w k).1 := by
  unfold call
  cases hg : get s.nodes k with
  | some t => exact h
  | none =>
    intro k' t' hm
    rcases List.mem_cons.1 hm with he | hm
    · cases he
      exact hu
    · exact h k' t' hm

theorem call_usable {s : State} (h : Inv s) {w : World} {k : Key} (ha : ∀ t ∈ k.args, Usable w t) :
    Usable w (call s w k).2 := by
  unfold call
  cases hg : get s.nodes k with
  | none => exact .inr rfl
  | some t =>
    rcases h k t (get_mem hg) with he | ⟨a, ha', hm⟩
    · exact .inl he
    · rcases ha a ha' with h1 | h1
      · exact .inl (hm ▸ h1)
      · exact .inr (hm ▸ h1)

/-- **C87 (partial)**: in every history of calls, in eager code and in any number of traces interleaved in
any way, where every call gets arguments that can be used where it is made, and every call in a trace uses
something of that trace, every result can be used where it was asked for. Missing: calls in a trace on
tensors from outside only (`later_call_false`, `other_trace_false`). -/
theorem results_usable_partial (s : State) (hs : Inv s) (h : List (World × Key))
    (ha : ∀ c ∈ h, (∀ t ∈ c.2.args, Usable c.1 t) ∧ Uses c.1 c.2) :
    List.Forall₂ (fun c t => Usable c.1 t) h (run s h).2 := by
  induction h generalizing s with
  | nil => exact .nil
  | cons c h ih =>
    obtain ⟨w, k⟩ := c
    have hc := ha (w, k) List.mem_cons_self
    unfold run
    exact .cons (call_usable hs hc.1) (ih _ (call_inv hs hc.2) fun c hm => ha c (List.mem_cons_of_mem _ hm))

theorem start_inv (n : ℕ) : Inv (start n) := fun _ _ h => by cases h

theorem get_cons {k k' : Key} {t : T} {nodes : List (Key × T)} :
    get ((k', t) :: nodes) k = if k' = k then some t else get nodes k := by
  unfold get
  rw [List.find?_cons]
  by_cases h : k' = k
  · simp [h]
  · simp [h]

/-- Entries are never replaced. -/
theorem get_run (s : State) (h : List (World × Key)) {k : Key} {t : T} (hg : get s.nodes k = some t) :
    get (run s h).1.nodes k = some t := by
  induction h generalizing s with
  | nil => exact hg
  | cons c h ih =>
    obtain ⟨w, k'⟩ := c
    unfold run
    apply ih
    unfold call
    cases hk : get s.nodes k' with
    | some t' => exact hg
    | none =>
      show get ((k', _) :: s.nodes) k = _
      rw [get_cons, if_neg]
      · exact hg
      · rintro rfl
        rw [hg] at hk
        cases hk

/-- **C87 does not hold in general**: let an operation be called in a trace for the first time, on any
arguments; whatever happens afterwards, the same call in eager code returns the tensor of the trace, which
cannot be used there. (For the arguments to be the same tensors, they were made outside, say a model's
weights.) -/
theorem later_call_false (s : State) (k : Key) (i : ℕ) (h : List (World × Key))
    (hn : get s.nodes k = none) :
    ¬ Usable .eager (call (run (call s (.trace i) k).1 h).1 .eager k).2 := by
  have h1 : get (call s (.trace i) k).1.nodes k = some ⟨s.next, .trace i⟩ := by
    unfold call
    rw [hn]
    show get ((k, _) :: s.nodes) k = _
    rw [get_cons, if_pos rfl]
  have h2 := get_run _ h h1
  unfold call at h2 ⊢
  rw [h2]
  unfold Usable
  simp

/-- **C87 does not hold for two compiled functions** that call the same operation on the same tensors from
outside: the second gets the tensor of the first. The same happens when one function is traced twice (for
arguments of another shape). -/
theorem other_trace_false (s : State) (k : Key) (i j : ℕ) (hij : i ≠ j) (h : List (World × Key))
    (hn : get s.nodes k = none) :
    ¬ Usable (.trace j) (call (run (call s (.trace i) k).1 h).1 (.trace j) k).2 := by
  have h1 : get (call s (.trace i) k).1.nodes k = some ⟨s.next, .trace i⟩ := by
    unfold call
    rw [hn]
    show get ((k, _) :: s.nodes) k = _
    rw [get_cons, if_pos rfl]
  have h2 := get_run _ h h1
  unfold call at h2 ⊢
  rw [h2]
  unfold Usable
  simp [hij]

/-! ### The hypotheses can be met -/

/-- A weight from outside, and arguments of two traces. -/
def weight : T := ⟨0, .eager⟩
def arg1 : T := ⟨1, .trace 1⟩
def arg2 : T := ⟨2, .trace 2⟩

example : (run (start 3) [(.trace 1, ⟨"matmul", [arg1, weight]⟩), (.eager, ⟨"square", [weight]⟩),
    (.trace 2, ⟨"matmul", [arg2, weight]⟩), (.eager, ⟨"square", [weight]⟩)]).2 =
    [⟨3, .trace 1⟩, ⟨4, .eager⟩, ⟨5, .trace 2⟩, ⟨4, .eager⟩] := by decide

example : List.Forall₂ (fun c t => Usable c.1 t)
    [(.trace 1, (⟨"matmul", [arg1, weight]⟩ : Key)), (.eager, ⟨"square", [weight]⟩),
      (.trace 2, ⟨"matmul", [arg2, weight]⟩), (.eager, ⟨"square", [weight]⟩)]
    (run (start 3) [(.trace 1, ⟨"matmul", [arg1, weight]⟩), (.eager, ⟨"square", [weight]⟩),
      (.trace 2, ⟨"matmul", [arg2, weight]⟩), (.eager, ⟨"square", [weight]⟩)]).2 := by
  apply results_usable_partial _ (start_inv 3)
  intro c hc
  fin_cases hc <;> simp [Usable, Uses, arg1, arg2, weight]

/-- The transpose of a weight, first in a compiled function and then outside. -/
example : (run (start 3) [(.trace 1, ⟨"transpose", [weight]⟩), (.eager, ⟨"transpose", [weight]⟩)]).2 =
    [⟨3, .trace 1⟩, ⟨3, .trace 1⟩] := by decide

example : get (start 3).nodes ⟨"transpose", [weight]⟩ = none := rfl

end Verif.Runtime.Trace
