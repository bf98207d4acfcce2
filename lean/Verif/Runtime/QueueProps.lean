import Verif.Runtime.Queue
import Mathlib.Data.List.Infix
import Mathlib.Algebra.Group.Int.Defs

/-!
# C40: private queues are first-in first-out
-/

namespace Verif.Runtime.Queue

variable {A B : Type}

/-- The schedule never has two `enqueue`s or two `dequeue`s in progress at the same time, and nobody
crashes. The processes themselves may be as many as one likes, and an `enqueue` and a `dequeue` may
overlap. -/
def Exclusive (cap : ℕ) : State A B → List (Event A B) → Prop
  | _, [] => True
  | s, e :: l =>
    (match e with
      | .beginPut _ => s.puts = []
      | .beginGet => s.gets = []
      | .crashPut _ => False
      | .crashGet _ => False
      | _ => True) ∧ ∀ s', s.step cap e = some s' → Exclusive cap s' l

/-- First shares that are on their way. -/
def sent0 (l : List (Put A B)) : List A := l.flatMap fun p => if p.sent0 then [p.item.1] else []
/-- Second shares that are on their way. -/
def sent1 (l : List (Put A B)) : List B := l.flatMap fun p => if p.sent1 then [p.item.2] else []
/-- First shares held by a `dequeue` in progress. -/
def held0 (l : List (Get A B)) : List A := l.flatMap fun g => g.got0.toList
/-- Second shares held by a `dequeue` in progress. -/
def held1 (l : List (Get A B)) : List B := l.flatMap fun g => g.got1.toList

/-- Everything that went in is out, held, or in the queue, on each side in order. -/
structure Inv (s : State A B) (finished : List (A × B)) : Prop where
  given : s.given = finished ++ s.puts.map Put.item
  side0 : finished.map Prod.fst ++ sent0 s.puts = s.out.map Prod.fst ++ held0 s.gets ++ s.queue0
  side1 : finished.map Prod.snd ++ sent1 s.puts = s.out.map Prod.snd ++ held1 s.gets ++ s.queue1
  puts : s.puts = [] ∨ ∃ p, s.puts = [p] ∧ p.done = false
  gets : s.gets = [] ∨ ∃ g, s.gets = [g] ∧ (g.got0 = none ∨ g.got1 = none)

theorem inv_init : Inv (State.init : State A B) [] := by
  constructor <;> simp [State.init, sent0, sent1, held0, held1]

theorem single {α : Type} {l : List α} {P : α → Prop} (h : l = [] ∨ ∃ p, l = [p] ∧ P p) {i : ℕ}
    {x : α} (hx : l[i]? = some x) : i = 0 ∧ l = [x] ∧ P x := by
  rcases h with rfl | ⟨p, rfl, hp⟩
  · simp at hx
  · cases i with
    | zero =>
      simp only [List.getElem?_cons_zero, Option.some.injEq] at hx
      subst hx
      exact ⟨rfl, rfl, hp⟩
    | succ i => simp at hx

theorem inv_updateGet (s : State A B) (f : List (A × B)) (g : Get A B)
    (h1 : s.given = f ++ s.puts.map Put.item)
    (h2 : f.map Prod.fst ++ sent0 s.puts = s.out.map Prod.fst ++ held0 [g] ++ s.queue0)
    (h3 : f.map Prod.snd ++ sent1 s.puts = s.out.map Prod.snd ++ held1 [g] ++ s.queue1)
    (h4 : s.puts = [] ∨ ∃ p, s.puts = [p] ∧ p.done = false) (g' : Get A B) (h5 : s.gets = [g']) :
    Inv (s.updateGet 0 g) f := by
  unfold State.updateGet
  split
  · rename_i a b ha hb
    refine ⟨h1, ?_, ?_, h4, Or.inl (by simp [h5])⟩
    · simpa [held0, ha, h5] using h2
    · simpa [held1, hb, h5] using h3
  · rename_i hn
    refine ⟨h1, ?_, ?_, h4, Or.inr ⟨g, by simp [h5], ?_⟩⟩
    · simpa [h5] using h2
    · simpa [h5] using h3
    · cases h0 : g.got0 with
      | none => exact Or.inl rfl
      | some a =>
        cases h1' : g.got1 with
        | none => exact Or.inr rfl
        | some b => exact absurd h1' (hn a b h0)

theorem inv_step (cap : ℕ) (s s' : State A B) (f : List (A × B)) (h : Inv s f) (e : Event A B)
    (he : match e with
      | .beginPut _ => s.puts = []
      | .beginGet => s.gets = []
      | .crashPut _ => False
      | .crashGet _ => False
      | _ => True) (hs : s.step cap e = some s') : ∃ f', Inv s' f' := by
  obtain ⟨hg, h0, h1, hp, hge⟩ := h
  cases e with
  | beginPut x =>
    simp only at he
    simp only [State.step, Option.some.injEq] at hs
    subst hs
    refine ⟨f, ?_, ?_, ?_, ?_, hge⟩
    · simp [hg, he]
    · simpa [sent0, he] using h0
    · simpa [sent1, he] using h1
    · exact Or.inr ⟨⟨x, false, false⟩, by simp [he], rfl⟩
  | put0 i =>
    simp only [State.step] at hs
    cases hi : s.puts[i]? with
    | none => simp [hi] at hs
    | some p =>
      obtain ⟨rfl, hl, hd⟩ := single hp hi
      simp only [hi] at hs
      split at hs
      · rename_i hc
        simp only [Option.some.injEq] at hs
        subst hs
        rw [hl] at hg h0 h1
        by_cases h1' : p.sent1 = true
        · refine ⟨f ++ [p.item], ?_, ?_, ?_, Or.inl ?_, hge⟩
          · simp [hg, updatePut, hl, Put.done, h1']
          · have : f.map Prod.fst = s.out.map Prod.fst ++ held0 s.gets ++ s.queue0 := by
              simpa [sent0, hc.1] using h0
            simp [updatePut, Put.done, hl, h1', sent0, this]
          · have : f.map Prod.snd ++ [p.item.2] = s.out.map Prod.snd ++ held1 s.gets ++ s.queue1 := by
              simpa [sent1, h1'] using h1
            simp [updatePut, Put.done, hl, h1', sent1, this]
          · simp [updatePut, Put.done, hl, h1']
        · have h1' : p.sent1 = false := by simpa using h1'
          refine ⟨f, ?_, ?_, ?_, Or.inr ⟨{ p with sent0 := true }, ?_, ?_⟩, hge⟩
          · simp [hg, updatePut, hl, Put.done, h1']
          · have : f.map Prod.fst = s.out.map Prod.fst ++ held0 s.gets ++ s.queue0 := by
              simpa [sent0, hc.1] using h0
            simp [updatePut, Put.done, hl, h1', sent0, this]
          · simpa [updatePut, Put.done, hl, h1', sent1] using h1
          · simp [updatePut, Put.done, hl, h1']
          · simp [Put.done, h1']
      · simp at hs
  | put1 i =>
    simp only [State.step] at hs
    cases hi : s.puts[i]? with
    | none => simp [hi] at hs
    | some p =>
      obtain ⟨rfl, hl, hd⟩ := single hp hi
      simp only [hi] at hs
      split at hs
      · rename_i hc
        simp only [Option.some.injEq] at hs
        subst hs
        rw [hl] at hg h0 h1
        by_cases h1' : p.sent0 = true
        · refine ⟨f ++ [p.item], ?_, ?_, ?_, Or.inl ?_, hge⟩
          · simp [hg, updatePut, hl, Put.done, h1']
          · have : f.map Prod.fst ++ [p.item.1] = s.out.map Prod.fst ++ held0 s.gets ++ s.queue0 := by
              simpa [sent0, h1'] using h0
            simp [updatePut, Put.done, hl, h1', sent0, this]
          · have : f.map Prod.snd = s.out.map Prod.snd ++ held1 s.gets ++ s.queue1 := by
              simpa [sent1, hc.1] using h1
            simp [updatePut, Put.done, hl, h1', sent1, this]
          · simp [updatePut, Put.done, hl, h1']
        · have h1' : p.sent0 = false := by simpa using h1'
          refine ⟨f, ?_, ?_, ?_, Or.inr ⟨{ p with sent1 := true }, ?_, ?_⟩, hge⟩
          · simp [hg, updatePut, hl, Put.done, h1']
          · simpa [updatePut, Put.done, hl, h1', sent0] using h0
          · have : f.map Prod.snd = s.out.map Prod.snd ++ held1 s.gets ++ s.queue1 := by
              simpa [sent1, hc.1] using h1
            simp [updatePut, Put.done, hl, h1', sent1, this]
          · simp [updatePut, Put.done, hl, h1']
          · simp [Put.done, h1']
      · simp at hs
  | crashPut i => exact he.elim
  | beginGet =>
    simp only at he
    simp only [State.step, Option.some.injEq] at hs
    subst hs
    refine ⟨f, hg, ?_, ?_, hp, Or.inr ⟨⟨none, none⟩, by simp [he], Or.inl rfl⟩⟩
    · simpa [held0, he] using h0
    · simpa [held1, he] using h1
  | get0 i =>
    simp only [State.step] at hs
    cases hi : s.gets[i]? with
    | none => simp [hi] at hs
    | some g =>
      obtain ⟨rfl, hl, hd⟩ := single hge hi
      cases hq : s.queue0 with
      | nil => simp [hi, hq] at hs
      | cons a q =>
        cases hn : g.got0 with
        | some _ => simp [hi, hq, hn] at hs
        | none =>
          simp only [hi, hq, hn, Option.some.injEq] at hs
          subst hs
          refine ⟨f, inv_updateGet _ f _ hg ?_ ?_ hp g hl⟩
          · simpa [hl, hq, hn, held0] using h0
          · simpa [hl, held1] using h1
  | get1 i =>
    simp only [State.step] at hs
    cases hi : s.gets[i]? with
    | none => simp [hi] at hs
    | some g =>
      obtain ⟨rfl, hl, hd⟩ := single hge hi
      cases hq : s.queue1 with
      | nil => simp [hi, hq] at hs
      | cons a q =>
        cases hn : g.got1 with
        | some _ => simp [hi, hq, hn] at hs
        | none =>
          simp only [hi, hq, hn, Option.some.injEq] at hs
          subst hs
          refine ⟨f, inv_updateGet _ f _ hg ?_ ?_ hp g hl⟩
          · simpa [hl, held0] using h0
          · simpa [hl, hq, hn, held1] using h1
  | crashGet i => exact he.elim

theorem inv_run (cap : ℕ) (sched : List (Event A B)) (s s' : State A B) (f : List (A × B))
    (h : Inv s f) (he : Exclusive cap s sched) (hs : s.run cap sched = some s') : ∃ f', Inv s' f' := by
  induction sched generalizing s f with
  | nil =>
    simp only [State.run, Option.some.injEq] at hs
    subst hs
    exact ⟨f, h⟩
  | cons e l ih =>
    simp only [State.run] at hs
    cases hst : s.step cap e with
    | none => simp [hst] at hs
    | some s1 =>
      simp only [hst, Option.bind_some] at hs
      obtain ⟨f1, h1⟩ := inv_step cap s s1 f h e he.1 hst
      exact ih s1 f1 h1 (he.2 s1 hst) hs

theorem prefix_zip (l m : List (A × B)) (h0 : l.map Prod.fst <+: m.map Prod.fst)
    (h1 : l.map Prod.snd <+: m.map Prod.snd) : l <+: m := by
  have e0 := List.prefix_iff_eq_take.1 h0
  have e1 := List.prefix_iff_eq_take.1 h1
  rw [List.length_map, ← List.map_take] at e0 e1
  rw [List.prefix_iff_eq_take]
  have hlen : l.length = (m.take l.length).length := by
    simpa using congrArg List.length e0
  apply List.ext_getElem hlen
  intro i hi hi'
  have a0 := List.getElem_of_eq e0 (i := i) (by simpa using hi)
  have a1 := List.getElem_of_eq e1 (i := i) (by simpa using hi)
  rw [List.getElem_map, List.getElem_map] at a0 a1
  exact Prod.ext a0 a1

theorem zip_proj (l : List (A × B)) : (l.map Prod.fst).zip (l.map Prod.snd) = l := by
  induction l with
  | nil => rfl
  | cons a l ih => simp [ih]

/-- **C40 (partial)**: under every schedule without crashes and without overlapping `enqueue`s or
overlapping `dequeue`s (an `enqueue` may overlap a `dequeue`, and the two servers' queues may progress in
any order), what `dequeue` has returned is an initial segment of what was given to `enqueue`: in order,
each value once, with the two shares that belong together. When no call is in progress the queue holds
exactly the values that have not been returned. Missing: concurrent producers or consumers, and crashes
(`two_producers_false`, `two_consumers_false`, `crash_mixes_false`). -/
theorem queue_fifo_partial (cap : ℕ) (sched : List (Event A B)) (s : State A B)
    (he : Exclusive cap State.init sched) (hs : State.init.run cap sched = some s) :
    s.out <+: s.given ∧
      (s.puts = [] → s.gets = [] → s.given = s.out ++ s.queue0.zip s.queue1 ∧
        s.queue0.length = s.queue1.length ∧ s.size = s.given.length - s.out.length) := by
  obtain ⟨f, h⟩ := inv_run cap sched _ s [] inv_init he hs
  have h0 : f.map Prod.fst ++ sent0 s.puts <+: s.given.map Prod.fst := by
    rw [h.given, List.map_append, List.map_map]
    rcases h.puts with hp | ⟨p, hp, _⟩
    · simp [hp, sent0]
    · simp only [hp, sent0, List.flatMap_cons, List.flatMap_nil, List.append_nil, List.map_cons,
        List.map_nil, Function.comp]
      split <;> simp
  have h1 : f.map Prod.snd ++ sent1 s.puts <+: s.given.map Prod.snd := by
    rw [h.given, List.map_append, List.map_map]
    rcases h.puts with hp | ⟨p, hp, _⟩
    · simp [hp, sent1]
    · simp only [hp, sent1, List.flatMap_cons, List.flatMap_nil, List.append_nil, List.map_cons,
        List.map_nil, Function.comp]
      split <;> simp
  refine ⟨prefix_zip _ _ ?_ ?_, ?_⟩
  · rw [h.side0, List.append_assoc] at h0
    exact (List.prefix_append _ _).trans h0
  · rw [h.side1, List.append_assoc] at h1
    exact (List.prefix_append _ _).trans h1
  · intro hp hg
    have e0 := h.side0
    have e1 := h.side1
    have eg := h.given
    simp only [hp, hg, sent0, sent1, held0, held1, List.flatMap_nil, List.append_nil,
      List.map_nil] at e0 e1 eg
    have l0 := congrArg List.length e0
    have l1 := congrArg List.length e1
    simp only [List.length_map, List.length_append] at l0 l1
    refine ⟨?_, by omega, ?_⟩
    · rw [eg]
      rw [← zip_proj f, e0, e1, List.zip_append (by simp), zip_proj]
    · rw [eg, State.size]; omega

/-- **C40, blocking**: neither queue ever holds more than `capacity` values, under every schedule
whatsoever. -/
theorem queue_capacity (cap : ℕ) (sched : List (Event A B)) (s : State A B)
    (hs : State.init.run cap sched = some s) : s.queue0.length ≤ cap ∧ s.queue1.length ≤ cap := by
  have step : ∀ (s s' : State A B) (e : Event A B), s.queue0.length ≤ cap ∧ s.queue1.length ≤ cap →
      s.step cap e = some s' → s'.queue0.length ≤ cap ∧ s'.queue1.length ≤ cap := by
    intro s s' e h hst
    cases e <;> simp only [State.step] at hst
    · simp only [Option.some.injEq] at hst; subst hst; exact h
    · split at hst
      · split at hst
        · simp only [Option.some.injEq] at hst; subst hst
          simp only [List.length_append, List.length_singleton]; omega
        · simp at hst
      · simp at hst
    · split at hst
      · split at hst
        · simp only [Option.some.injEq] at hst; subst hst
          simp only [List.length_append, List.length_singleton]; omega
        · simp at hst
      · simp at hst
    · split at hst
      · simp only [Option.some.injEq] at hst; subst hst; exact h
      · simp at hst
    · simp only [Option.some.injEq] at hst; subst hst; exact h
    · split at hst
      · rename_i hq
        split at hst
        · simp only [Option.some.injEq] at hst; subst hst
          rw [hq] at h
          simp only [List.length_cons] at h
          unfold State.updateGet
          split <;> simp only <;> omega
        · simp at hst
      · simp at hst
    · split at hst
      · rename_i hq
        split at hst
        · simp only [Option.some.injEq] at hst; subst hst
          rw [hq] at h
          simp only [List.length_cons] at h
          unfold State.updateGet
          split <;> simp only <;> omega
        · simp at hst
      · simp at hst
    · split at hst
      · simp only [Option.some.injEq] at hst; subst hst; exact h
      · simp at hst
  have key : ∀ (l : List (Event A B)) (s s' : State A B),
      s.queue0.length ≤ cap ∧ s.queue1.length ≤ cap → s.run cap l = some s' →
      s'.queue0.length ≤ cap ∧ s'.queue1.length ≤ cap := by
    intro l
    induction l with
    | nil =>
      intro s s' h hr
      simp only [State.run, Option.some.injEq] at hr
      subst hr; exact h
    | cons e l ih =>
      intro s s' h hr
      simp only [State.run] at hr
      cases hst : s.step cap e with
      | none => simp [hst] at hr
      | some s1 =>
        simp only [hst, Option.bind_some] at hr
        exact ih s1 s' (step s s1 e h hst) hr
  exact key sched _ s ⟨by simp [State.init], by simp [State.init]⟩ hs

/-- Some operation of an `enqueue` in progress can go ahead. -/
def State.CanPut (cap : ℕ) (s : State A B) : Prop :=
  (s.step cap (.put0 0)).isSome ∨ (s.step cap (.put1 0)).isSome
/-- Some operation of a `dequeue` in progress can go ahead. -/
def State.CanGet (cap : ℕ) (s : State A B) : Prop :=
  (s.step cap (.get0 0)).isSome ∨ (s.step cap (.get1 0)).isSome

/-- **C40, no deadlock**: a `dequeue` can go ahead if a value is available (and only then can it finish),
an `enqueue` can go ahead if there is room, and if one of each is in progress then one of them can go
ahead. -/
theorem queue_progress (cap : ℕ) (hc : 0 < cap) (sched : List (Event A B)) (s : State A B)
    (he : Exclusive cap State.init sched) (hs : State.init.run cap sched = some s) :
    (s.gets ≠ [] → s.puts = [] → s.out.length < s.given.length → s.CanGet cap) ∧
      (s.puts ≠ [] → s.gets = [] → s.given.length - s.out.length ≤ cap → s.CanPut cap) ∧
      (s.puts ≠ [] → s.gets ≠ [] → s.CanPut cap ∨ s.CanGet cap) := by
  obtain ⟨f, h⟩ := inv_run cap sched _ s [] inv_init he hs
  have l0 := congrArg List.length h.side0
  have l1 := congrArg List.length h.side1
  have lg := congrArg List.length h.given
  simp only [List.length_map, List.length_append] at l0 l1 lg
  have get0 : ∀ g, s.gets = [g] → g.got0 = none → s.queue0 ≠ [] → (s.step cap (.get0 0)).isSome := by
    intro g hg hn hq
    cases hq' : s.queue0 with
    | nil => exact absurd hq' hq
    | cons a q => simp [State.step, hg, hn, hq']
  have get1 : ∀ g, s.gets = [g] → g.got1 = none → s.queue1 ≠ [] → (s.step cap (.get1 0)).isSome := by
    intro g hg hn hq
    cases hq' : s.queue1 with
    | nil => exact absurd hq' hq
    | cons a q => simp [State.step, hg, hn, hq']
  have put0 : ∀ p, s.puts = [p] → p.sent0 = false → s.queue0.length < cap →
      (s.step cap (.put0 0)).isSome := by
    intro p hp hn hq
    simp [State.step, hp, hn, hq]
  have put1 : ∀ p, s.puts = [p] → p.sent1 = false → s.queue1.length < cap →
      (s.step cap (.put1 0)).isSome := by
    intro p hp hn hq
    simp [State.step, hp, hn, hq]
  refine ⟨?_, ?_, ?_⟩
  · intro hg hp hlt
    rcases h.gets with h' | ⟨g, hg', hn⟩
    · exact absurd h' hg
    · simp only [hp, hg', sent0, sent1, held0, held1, List.flatMap_cons, List.flatMap_nil,
        List.append_nil, List.length_nil, List.map_nil, Nat.add_zero] at l0 l1 lg
      rcases hn with hn | hn
      · refine Or.inl (get0 g hg' hn ?_)
        intro hq
        simp only [hn, hq, Option.toList_none, List.length_nil] at l0
        omega
      · refine Or.inr (get1 g hg' hn ?_)
        intro hq
        simp only [hn, hq, Option.toList_none, List.length_nil] at l1
        omega
  · intro hp hg hle
    rcases h.puts with h' | ⟨p, hp', hd⟩
    · exact absurd h' hp
    · simp only [hg, hp', sent0, sent1, held0, held1, List.flatMap_cons, List.flatMap_nil,
        List.append_nil, List.length_nil, List.map_cons, List.map_nil, List.length_cons,
        Nat.add_zero] at l0 l1 lg
      by_cases h0 : p.sent0 = true
      · have h1 : p.sent1 = false := by simpa [Put.done, h0] using hd
        refine Or.inr (put1 p hp' h1 ?_)
        simp only [h1, Bool.false_eq_true, if_false, List.length_nil] at l1
        omega
      · have h0 : p.sent0 = false := by simpa using h0
        refine Or.inl (put0 p hp' h0 ?_)
        simp only [h0, Bool.false_eq_true, if_false, List.length_nil] at l0
        omega
  · intro hp hg
    rcases h.puts with h' | ⟨p, hp', hd⟩
    · exact absurd h' hp
    · rcases h.gets with h' | ⟨g, hg', hn⟩
      · exact absurd h' hg
      · simp only [hg', hp', sent0, sent1, held0, held1, List.flatMap_cons, List.flatMap_nil,
          List.append_nil, List.length_nil] at l0 l1
        rcases hn with hn | hn
        · by_cases hq : s.queue0 = []
          · by_cases h0 : p.sent0 = true
            · exfalso
              have h1 : p.sent1 = false := by simpa [Put.done, h0] using hd
              simp [h0, hn, hq] at l0
              simp [h1] at l1
              omega
            · exact Or.inl (Or.inl (put0 p hp' (by simpa using h0) (by rw [hq]; exact hc)))
          · exact Or.inr (Or.inl (get0 g hg' hn hq))
        · by_cases hq : s.queue1 = []
          · by_cases h1 : p.sent1 = true
            · exfalso
              have h0 : p.sent0 = false := by
                cases hp0 : p.sent0 with
                | false => rfl
                | true => simp [Put.done, h1, hp0] at hd
              simp [h1, hn, hq] at l1
              simp [h0] at l0
              omega
            · exact Or.inl (Or.inr (put1 p hp' (by simpa using h1) (by rw [hq]; exact hc)))
          · exact Or.inr (Or.inr (get1 g hg' hn hq))

/-! ## Where it fails -/

/-- The value of a pair of additive shares. -/
def value (x : ℤ × ℤ) : ℤ := x.1 + x.2

/-- **C40 is false** for two concurrent producers: the queues of the two servers can receive the shares in
different orders, and then every consumer gets values that nobody enqueued. -/
theorem two_producers_false (x y : ℤ × ℤ) (cap : ℕ) (hc : 2 ≤ cap) :
    ∃ s, (State.init : State ℤ ℤ).run cap
      [.beginPut x, .beginPut y, .put0 0, .put1 1, .put1 0, .put0 0,
        .beginGet, .get0 0, .get1 0, .beginGet, .get0 0, .get1 0] = some s ∧
      s.given = [x, y] ∧ s.out = [(x.1, y.2), (y.1, x.2)] := by
  have h1 : 0 < cap := by omega
  have h2 : 1 < cap := by omega
  simp [State.run, State.step, State.init, updatePut, Put.done, State.updateGet, h1, h2]

/-- Concretely: the values 1 and 2 go in, 9 and -6 come out. -/
example : value (10, -9) = 1 ∧ value (3, -1) = 2 ∧ value (10, -1) = 9 ∧ value (3, -9) = -6 := by decide

/-- **C40 is false** for two concurrent consumers: each can get one share of each value. -/
theorem two_consumers_false (x y : ℤ × ℤ) (cap : ℕ) (hc : 2 ≤ cap) :
    ∃ s, (State.init : State ℤ ℤ).run cap
      [.beginPut x, .put0 0, .put1 0, .beginPut y, .put0 0, .put1 0,
        .beginGet, .beginGet, .get0 0, .get1 1, .get1 0, .get0 0] = some s ∧
      s.given = [x, y] ∧ s.out = [(x.1, y.2), (y.1, x.2)] := by
  have h1 : 0 < cap := by omega
  have h2 : 1 < cap := by omega
  simp [State.run, State.step, State.init, updatePut, Put.done, State.updateGet, h1, h2]

/-- **C40 is false** after a crash: a producer that dies between its two operations shifts the two queues
against each other, and every later value comes out with a share of another one. -/
theorem crash_mixes_false (x y z : ℤ × ℤ) (cap : ℕ) (hc : 3 ≤ cap) :
    ∃ s, (State.init : State ℤ ℤ).run cap
      [.beginPut x, .put0 0, .crashPut 0, .beginPut y, .put0 0, .put1 0, .beginPut z, .put0 0, .put1 0,
        .beginGet, .get0 0, .get1 0, .beginGet, .get0 0, .get1 0] = some s ∧
      s.out = [(x.1, y.2), (y.1, z.2)] := by
  have h1 : 0 < cap := by omega
  have h2 : 1 < cap := by omega
  have h3 : 2 < cap := by omega
  simp [State.run, State.step, State.init, updatePut, Put.done, State.updateGet, h1, h2, h3]

example : ∃ s, Exclusive 1 (State.init : State ℤ ℤ)
      [.beginPut (1, 2), .put1 0, .beginGet, .put0 0, .get0 0, .get1 0] ∧
    (State.init : State ℤ ℤ).run 1
      [.beginPut (1, 2), .put1 0, .beginGet, .put0 0, .get0 0, .get1 0] = some s ∧ s.out = [(1, 2)] := by
  refine ⟨⟨[], [], [], [], [(1, 2)], [(1, 2)]⟩, ?_, ?_, rfl⟩
  · simp [Exclusive, State.step, State.init, updatePut, Put.done, State.updateGet]
  · simp [State.run, State.step, State.init, updatePut, Put.done, State.updateGet]

end Verif.Runtime.Queue
