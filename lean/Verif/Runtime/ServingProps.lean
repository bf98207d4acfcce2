import Verif.Runtime.Serving
import Mathlib.Data.List.Infix

/-!
# C41: a serving client gets the answer to its own query
-/

namespace Verif.Runtime.Serving

variable {X Y : Type}

/-- The server does not crash. -/
def NoCrash : List (Event X) → Prop := fun l => ∀ e ∈ l, e ≠ Event.crash

/-- Everything sent is answered, in the output queue, being worked on, or in the input queue. -/
structure Inv (f : X → Y) (s : State X Y) : Prop where
  order : s.sent.map (fun q => f q.2) =
    s.received.map Prod.snd ++ s.output ++ (s.held.toList ++ s.input).map f
  count : s.waiting.length = s.output.length + s.held.toList.length + s.input.length

theorem inv_step (a b : ℕ) (f : X → Y) (s s' : State X Y) (e : Event X) (he : e ≠ .crash)
    (h : Inv f s) (hs : s.step a b f e = some s') : Inv f s' := by
  obtain ⟨h1, h2⟩ := h
  cases e with
  | send c x =>
    simp only [State.step] at hs
    split at hs
    · simp only [Option.some.injEq] at hs
      subst hs
      refine ⟨?_, ?_⟩
      · simp [h1]
      · simp only [List.length_append, List.length_singleton]; omega
    · simp at hs
  | take =>
    simp only [State.step] at hs
    split at hs
    · rename_i x l hh hi
      simp only [Option.some.injEq] at hs
      subst hs
      refine ⟨?_, ?_⟩
      · simp [h1, hh, hi]
      · simp [h2, hh, hi]; omega
    · simp at hs
  | put =>
    simp only [State.step] at hs
    split at hs
    · rename_i x hh
      split at hs
      · simp only [Option.some.injEq] at hs
        subst hs
        refine ⟨?_, ?_⟩
        · simp [h1, hh]
        · simp [h2, hh]
      · simp at hs
    · simp at hs
  | receive c =>
    simp only [State.step] at hs
    split at hs
    · rename_i hc
      split at hs
      · rename_i y l ho
        simp only [Option.some.injEq] at hs
        subst hs
        refine ⟨?_, ?_⟩
        · simp [h1, ho]
        · simp only [List.length_erase_of_mem hc, h2, ho, List.length_cons]; omega
      · simp at hs
    · simp at hs
  | crash => exact absurd rfl he

theorem inv_run (a b : ℕ) (f : X → Y) (sched : List (Event X)) (hn : NoCrash sched) (s s' : State X Y)
    (h : Inv f s) (hs : s.run a b f sched = some s') : Inv f s' := by
  induction sched generalizing s with
  | nil =>
    simp only [State.run, Option.some.injEq] at hs
    subst hs; exact h
  | cons e l ih =>
    simp only [State.run] at hs
    cases hst : s.step a b f e with
    | none => simp [hst] at hs
    | some s1 =>
      simp only [hst, Option.bind_some] at hs
      exact ih (fun x hx => hn x (by simp [hx])) s1 (inv_step a b f s s1 e (hn e (by simp)) h hst) hs

theorem inv_init (f : X → Y) : Inv f State.init := ⟨rfl, rfl⟩

/-- **C41 (partial)**: for any number of clients and any schedule of clients and server without crashes,
the answers received are, in order, the computation applied to the queries in the order they were sent.
Missing: that a client receives the answer to its own query if several clients wait at the same time
(`two_clients_false`), and crashes (`crash_loses_false`). -/
theorem served_in_order_partial (a b : ℕ) (f : X → Y) (sched : List (Event X)) (hn : NoCrash sched)
    (s : State X Y) (hs : State.init.run a b f sched = some s) (j : ℕ) (c : ℕ) (y : Y)
    (hj : s.received[j]? = some (c, y)) : ∃ d x, s.sent[j]? = some (d, x) ∧ y = f x := by
  have h := (inv_run a b f sched hn _ s (inv_init f) hs).order
  have hlt : j < s.received.length := (List.getElem?_eq_some_iff.1 hj).1
  have e := congrArg (fun l => l[j]?) h
  simp only [List.append_assoc, List.getElem?_map] at e
  rw [List.getElem?_append_left (by simpa using hlt), List.getElem?_map, hj] at e
  cases hq : s.sent[j]? with
  | none => simp [hq] at e
  | some q =>
    obtain ⟨d, x⟩ := q
    simp only [hq, Option.map_some, Option.some.injEq] at e
    exact ⟨d, x, rfl, e.symm⟩

/-- At most one client waits at any time. -/
def OneAtATime (a b : ℕ) (f : X → Y) : State X Y → List (Event X) → Prop
  | _, [] => True
  | s, e :: l =>
    (match e with
      | .send _ _ => s.waiting = []
      | _ => True) ∧ ∀ s', s.step a b f e = some s' → OneAtATime a b f s' l

theorem own_run (a b : ℕ) (f : X → Y) (sched : List (Event X)) (hn : NoCrash sched) (s s' : State X Y)
    (h : Inv f s) (ho : OneAtATime a b f s sched)
    (hw : s.sent.map Prod.fst = s.received.map Prod.fst ++ s.waiting ∧ s.waiting.length ≤ 1)
    (hs : s.run a b f sched = some s') :
    s'.sent.map Prod.fst = s'.received.map Prod.fst ++ s'.waiting := by
  induction sched generalizing s with
  | nil =>
    simp only [State.run, Option.some.injEq] at hs
    subst hs; exact hw.1
  | cons e l ih =>
    simp only [State.run] at hs
    cases hst : s.step a b f e with
    | none => simp [hst] at hs
    | some s1 =>
      simp only [hst, Option.bind_some] at hs
      refine ih (fun x hx => hn x (by simp [hx])) s1 (inv_step a b f s s1 e (hn e (by simp)) h hst)
        (ho.2 s1 hst) ?_ hs
      cases e with
      | send c x =>
        have hw0 : s.waiting = [] := ho.1
        simp only [State.step] at hst
        split at hst
        · simp only [Option.some.injEq] at hst
          subst hst
          simp [hw.1, hw0]
        · simp at hst
      | take =>
        simp only [State.step] at hst
        split at hst
        · simp only [Option.some.injEq] at hst; subst hst; exact hw
        · simp at hst
      | put =>
        simp only [State.step] at hst
        split at hst
        · split at hst
          · simp only [Option.some.injEq] at hst; subst hst; exact hw
          · simp at hst
        · simp at hst
      | receive c =>
        simp only [State.step] at hst
        split at hst
        · rename_i hc
          split at hst
          · simp only [Option.some.injEq] at hst
            subst hst
            have hwc : s.waiting = [c] := by
              cases hws : s.waiting with
              | nil => simp [hws] at hc
              | cons d t =>
                cases t with
                | nil => simp only [hws, List.mem_singleton] at hc; rw [hc]
                | cons => have := hw.2; simp [hws] at this
            simp [hw.1, hwc]
          · simp at hst
        · simp at hst
      | crash => exact absurd rfl (hn .crash (by simp))

/-- **C41 (partial)**: as long as the `run` calls of different clients do not overlap (in particular if
there is only one client), every client receives the computation applied to its own query: the `j`-th
answer goes to the client that sent the `j`-th query. -/
theorem own_answer_partial (a b : ℕ) (f : X → Y) (sched : List (Event X)) (hn : NoCrash sched)
    (ho : OneAtATime a b f State.init sched) (s : State X Y)
    (hs : State.init.run a b f sched = some s) (j : ℕ) (c : ℕ) (y : Y)
    (hj : s.received[j]? = some (c, y)) : ∃ x, s.sent[j]? = some (c, x) ∧ y = f x := by
  obtain ⟨d, x, hx, hy⟩ := served_in_order_partial a b f sched hn s hs j c y hj
  have hown := own_run a b f sched hn _ s (inv_init f) ho ⟨rfl, by simp [State.init]⟩ hs
  have hlt : j < s.received.length := (List.getElem?_eq_some_iff.1 hj).1
  have e := congrArg (fun l => l[j]?) hown
  simp only [List.getElem?_map] at e
  rw [List.getElem?_append_left (by simpa using hlt), List.getElem?_map, hj, hx] at e
  simp only [Option.map_some, Option.some.injEq] at e
  exact ⟨x, by rw [hx, e], hy⟩

/-- **C41, no deadlock**: as long as a client waits, the server or a waiting client can go ahead, for any
number of clients and any positive capacity. -/
theorem serving_progress (a b : ℕ) (hb : 0 < b) (f : X → Y) (sched : List (Event X))
    (hn : NoCrash sched) (s : State X Y) (hs : State.init.run a b f sched = some s)
    (hw : s.waiting ≠ []) :
    (s.step a b f .take).isSome ∨ (s.step a b f .put).isSome ∨
      ∃ c ∈ s.waiting, (s.step a b f (.receive c)).isSome := by
  have h := (inv_run a b f sched hn _ s (inv_init f) hs).count
  cases ho : s.output with
  | cons y l =>
    obtain ⟨c, hc⟩ := List.exists_mem_of_ne_nil _ hw
    exact Or.inr (Or.inr ⟨c, hc, by simp [State.step, hc, ho]⟩)
  | nil =>
    cases hh : s.held with
    | some x => exact Or.inr (Or.inl (by simp [State.step, hh, ho, hb]))
    | none =>
      cases hi : s.input with
      | cons x l => exact Or.inl (by simp [State.step, hh, hi])
      | nil =>
        simp only [ho, hh, hi, Option.toList_none, List.length_nil, Nat.add_zero,
          List.length_eq_zero_iff] at h
        exact absurd h hw

/-- **C41 is false** for two clients at the same time: the second one can receive the answer to the first
one's query (which was private to the first one), and the first one gets the second one's. -/
theorem two_clients_false (f : X → Y) (x y : X) (a b : ℕ) (ha : 2 ≤ a) (hb : 0 < b) :
    ∃ s, State.init.run a b f
        [.send 0 x, .send 1 y, .take, .put, .receive 1, .take, .put, .receive 0] = some s ∧
      s.sent = [(0, x), (1, y)] ∧ s.received = [(1, f x), (0, f y)] := by
  have h1 : 0 < a := by omega
  have h2 : 1 < a := by omega
  simp [State.run, State.step, State.init, h1, h2, hb]

/-- **C41 is false** after a crash of the server: a query taken but not yet answered is lost, the client
waits for ever, and the answer to the next query of any client goes to whoever asks first. -/
theorem crash_loses_false (f : X → Y) (x y : X) (a b : ℕ) (ha : 0 < a) (hb : 0 < b) :
    ∃ s, State.init.run a b f
        [.send 0 x, .take, .crash, .send 1 y, .take, .put, .receive 0] = some s ∧
      s.received = [(0, f y)] ∧ s.waiting = [1] ∧ s.input = [] ∧ s.held = none ∧ s.output = [] := by
  simp [State.run, State.step, State.init, ha, hb]

example : ∃ s, State.init.run 10 10 (fun n : ℕ => n + 1)
      [.send 0 5, .take, .put, .receive 0, .send 1 7, .take, .put, .receive 1] = some s ∧
    OneAtATime 10 10 (fun n : ℕ => n + 1) State.init
      [.send 0 5, .take, .put, .receive 0, .send 1 7, .take, .put, .receive 1] ∧
    s.received = [(0, 6), (1, 8)] := by
  refine ⟨⟨[], none, [], [], [(0, 5), (1, 7)], [(0, 6), (1, 8)]⟩, rfl, ?_, rfl⟩
  simp [OneAtATime, State.step, State.init]

end Verif.Runtime.Serving
