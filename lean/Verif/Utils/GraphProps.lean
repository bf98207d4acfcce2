import Verif.Utils.Graph
import Mathlib.Data.Fintype.Basic
import Mathlib.Tactic.FinCases

/-!
# C85: the nodes found are exactly those that can be reached

For every finite graph, with or without cycles, every list of starting nodes, nested or repeated.
-/

namespace Verif.Utils

variable {N : Type}

/-- There is an edge from a tensor to its operation, and from an operation to its inputs and control
inputs. -/
inductive Edge (g : N → Kind N) : N → N → Prop
  | tensor {n op : N} : g n = .tensor op → Edge g n op
  | input {n m : N} {ins ctrl : List N} : g n = .operation ins ctrl → m ∈ ins → Edge g n m
  | control {n m : N} {ins ctrl : List N} : g n = .operation ins ctrl → m ∈ ctrl → Edge g n m

/-- A node occurs in an argument. -/
inductive Occurs (x : N) : Nest N → Prop
  | leaf : Occurs x (.leaf x)
  | list {y : Nest N} {ys : List (Nest N)} : y ∈ ys → Occurs x y → Occurs x (.list ys)

/-- A node can be reached: there is a path to it from a node that occurs in the arguments. -/
def Reachable (g : N → Kind N) (nodes : List (Nest N)) (n : N) : Prop :=
  ∃ s, Occurs s (.list nodes) ∧ Relation.ReflTransGen (Edge g) s n

theorem mem_flatten : ∀ (t : Nest N) (x : N), x ∈ flatten t ↔ Occurs x t
  | .leaf y, x => by
    unfold flatten
    rw [List.mem_singleton]
    constructor
    · rintro rfl; exact .leaf
    · intro h; cases h; rfl
  | .list ys, x => by
    unfold flatten
    rw [List.mem_flatten]
    constructor
    · rintro ⟨l, hl, hx⟩
      obtain ⟨⟨y, hy⟩, -, rfl⟩ := List.mem_map.1 hl
      exact .list hy ((mem_flatten y x).1 hx)
    · intro h
      cases h with
      | list hy ho => exact ⟨_, List.mem_map.2 ⟨⟨_, hy⟩, List.mem_attach _ _, rfl⟩, (mem_flatten _ x).2 ho⟩
termination_by t => sizeOf t
decreasing_by
  all_goals
    have := List.sizeOf_lt_of_mem hy
    simp only [Nest.list.sizeOf_spec]
    omega

theorem subnodes_edge {g : N → Kind N} {n : N} {ns : List N} (h : subnodes g n = .ok ns) (m : N) :
    m ∈ ns ↔ Edge g n m := by
  unfold subnodes at h
  cases hk : g n with
  | tensor op =>
    rw [hk] at h
    cases h
    rw [List.mem_singleton]
    constructor
    · rintro rfl; exact .tensor hk
    · intro e
      cases e with
      | tensor h' => rw [hk] at h'; cases h'; rfl
      | input h' _ => rw [hk] at h'; cases h'
      | control h' _ => rw [hk] at h'; cases h'
  | operation ins ctrl =>
    rw [hk] at h
    cases h
    rw [List.mem_append]
    constructor
    · rintro (hm | hm)
      · exact .input hk hm
      · exact .control hk hm
    · intro e
      cases e with
      | tensor h' => rw [hk] at h'; cases h'
      | input h' hm => rw [hk] at h'; cases h'; exact .inl hm
      | control h' hm => rw [hk] at h'; cases h'; exact .inr hm
  | other => rw [hk] at h; cases h

variable [DecidableEq N]

theorem addNew_spec (ns : List N) (s : Finset N × List N) :
    (∀ m, m ∈ (addNew ns s).1 ↔ m ∈ s.1 ∨ m ∈ ns) ∧
    (∀ m, m ∈ (addNew ns s).2 ↔ m ∈ s.2 ∨ (m ∈ ns ∧ m ∉ s.1)) := by
  induction ns generalizing s with
  | nil => simp [addNew]
  | cons n ns ih =>
    unfold addNew
    split
    · rename_i h
      refine ⟨fun m => ?_, fun m => ?_⟩
      · rw [(ih s).1, List.mem_cons]
        constructor
        · rintro (h1 | h1)
          · exact .inl h1
          · exact .inr (.inr h1)
        · rintro (h1 | rfl | h1)
          · exact .inl h1
          · exact .inl h
          · exact .inr h1
      · rw [(ih s).2, List.mem_cons]
        constructor
        · rintro (h1 | h1)
          · exact .inl h1
          · exact .inr ⟨.inr h1.1, h1.2⟩
        · rintro (h1 | ⟨rfl | h1, h2⟩)
          · exact .inl h1
          · exact absurd h h2
          · exact .inr ⟨h1, h2⟩
    · rename_i h
      refine ⟨fun m => ?_, fun m => ?_⟩
      · rw [(ih _).1, List.mem_cons, Finset.mem_insert]
        tauto
      · rw [(ih _).2, List.mem_cons, List.mem_append, List.mem_singleton, Finset.mem_insert]
        by_cases hm : m = n
        · subst hm
          tauto
        · tauto

/-- What holds whenever the loop is entered. -/
structure Inv (g : N → Kind N) (R : N → Prop) (s : Finset N × List N) : Prop where
  /-- only reachable nodes have been found -/
  sound : ∀ n ∈ s.1, R n
  /-- what waits has been found -/
  queued : ∀ n ∈ s.2, n ∈ s.1
  /-- what does not wait has been looked at -/
  closed : ∀ n ∈ s.1, n ∉ s.2 → g n ≠ .other ∧ ∀ m, Edge g n m → m ∈ s.1

theorem search_spec [Fintype N] {g : N → Kind N} {R : N → Prop} (hR : ∀ n m, R n → Edge g n m → R m)
    (s : Finset N × List N) (h : Inv g R s) :
    (∃ r, search g s = .ok r ∧ s.1 ⊆ r ∧ (∀ n ∈ r, R n) ∧
      ∀ n ∈ r, g n ≠ .other ∧ ∀ m, Edge g n m → m ∈ r) ∨
    (search g s = .error .typeError ∧ ∃ n, R n ∧ g n = .other) := by
  induction hk : s.1ᶜ.card + s.2.length using Nat.strong_induction_on generalizing s with
  | _ k ih =>
    obtain ⟨r, q⟩ := s
    cases q with
    | nil =>
      left
      refine ⟨r, by rw [search], Finset.Subset.refl _, h.sound, fun n hn => h.closed n hn ?_⟩
      simp
    | cons n q =>
      cases hs : subnodes g n with
      | error e =>
        right
        refine ⟨by rw [search]; simp only [hs], n, h.sound n (h.queued n List.mem_cons_self), ?_⟩
        unfold subnodes at hs
        cases hg : g n with
        | tensor op => rw [hg] at hs; cases hs
        | operation a b => rw [hg] at hs; cases hs
        | other => rfl
      | ok ns =>
        obtain ⟨a1, a2⟩ := addNew_spec ns (r, q)
        have hn : n ∈ r := h.queued n List.mem_cons_self
        have hinv : Inv g R (addNew ns (r, q)) := by
          refine ⟨fun m hm => ?_, fun m hm => ?_, fun m hm hq => ?_⟩
          · rcases (a1 m).1 hm with h1 | h1
            · exact h.sound m h1
            · exact hR n m (h.sound n hn) ((subnodes_edge hs m).1 h1)
          · rcases (a2 m).1 hm with h1 | h1
            · exact (a1 m).2 (.inl (h.queued m (List.mem_cons_of_mem _ h1)))
            · exact (a1 m).2 (.inr h1.1)
          · have hq' : m ∉ q ∧ ¬(m ∈ ns ∧ m ∉ r) := by
              rw [a2] at hq
              exact ⟨fun h1 => hq (.inl h1), fun h1 => hq (.inr h1)⟩
            have hr : m ∈ r := by
              rcases (a1 m).1 hm with h1 | h1
              · exact h1
              · by_contra h2
                exact hq'.2 ⟨h1, h2⟩
            by_cases hmn : m = n
            · subst hmn
              refine ⟨fun h1 => ?_, fun k hk => (a1 k).2 (.inr ((subnodes_edge hs k).2 hk))⟩
              unfold subnodes at hs
              rw [h1] at hs
              cases hs
            · obtain ⟨c1, c2⟩ := h.closed m hr (by
                rw [List.mem_cons]
                rintro (h1 | h1)
                · exact hmn h1
                · exact hq'.1 h1)
              exact ⟨c1, fun k hk => (a1 k).2 (.inl (c2 k hk))⟩
        have hm : (addNew ns (r, q)).1ᶜ.card + (addNew ns (r, q)).2.length < k := by
          rw [addNew_measure, ← hk]
          simp
        have hstep : search g (r, n :: q) = search g (addNew ns (r, q)) := by
          rw [search]
          simp only [hs]
        rw [hstep]
        rcases ih _ hm _ hinv rfl with ⟨r', e, hsub, h1, h2⟩ | h1
        · exact .inl ⟨r', e, fun m hm => hsub ((a1 m).2 (.inl hm)), h1, h2⟩
        · exact .inr h1

/-- **C85**. The search ends on every graph, with cycles or not. It returns the set of exactly the nodes
that can be reached from the arguments, the arguments among them, unless one of these nodes is neither a
tensor nor an operation; then it raises a `TypeError`. -/
theorem reachable_nodes_correct [Fintype N] (g : N → Kind N) (nodes : List (Nest N)) :
    ((∀ n, Reachable g nodes n → g n ≠ .other) →
      ∃ r, reachableNodes g nodes = .ok r ∧ ∀ n, n ∈ r ↔ Reachable g nodes n) ∧
    ((∃ n, Reachable g nodes n ∧ g n = .other) → reachableNodes g nodes = .error .typeError) := by
  have hinv : Inv g (Reachable g nodes) ((flatten (.list nodes)).toFinset, flatten (.list nodes)) := by
    refine ⟨fun n hn => ⟨n, (mem_flatten _ n).1 (List.mem_toFinset.1 hn), .refl⟩,
      fun n hn => List.mem_toFinset.2 hn, fun n hn hq => absurd (List.mem_toFinset.1 hn) hq⟩
  have key := search_spec (R := Reachable g nodes)
    (fun n m ⟨s, hs, hp⟩ he => ⟨s, hs, hp.tail he⟩) _ hinv
  have full : ∀ r : Finset N, (flatten (.list nodes)).toFinset ⊆ r →
      (∀ n ∈ r, g n ≠ .other ∧ ∀ m, Edge g n m → m ∈ r) → ∀ n, Reachable g nodes n → n ∈ r := by
    rintro r hsub hcl n ⟨s, hs, hp⟩
    induction hp with
    | refl => exact hsub (List.mem_toFinset.2 ((mem_flatten _ s).2 hs))
    | tail _ he ih => exact (hcl _ ih).2 _ he
  rcases key with ⟨r, e, hsub, h1, h2⟩ | ⟨e, n, hn, ho⟩
  · refine ⟨fun _ => ⟨r, e, fun n => ⟨h1 n, full r hsub h2 n⟩⟩, ?_⟩
    rintro ⟨n, hn, ho⟩
    exact absurd ho (h2 n (full r hsub h2 n hn)).1
  · exact ⟨fun h => absurd ho (h n hn), fun _ => e⟩

/-! ## A graph with a cycle -/

/-- Tensor `0` is computed by operation `1`, which reads tensor `2` and waits for operation `1` itself;
tensor `2` is computed by operation `3`, which reads tensor `0`. Tensor `4` and operation `5` are not
reached from there. -/
def loop : Fin 6 → Kind (Fin 6)
  | 0 => .tensor 1
  | 1 => .operation [2] [1]
  | 2 => .tensor 3
  | 3 => .operation [0] []
  | 4 => .tensor 5
  | 5 => .operation [] [3]

example : ∃ r, reachableNodes loop [.leaf 0, .list [.list [], .leaf 0]] = .ok r ∧
    ∀ n, n ∈ r ↔ Reachable loop [.leaf 0, .list [.list [], .leaf 0]] n :=
  (reachable_nodes_correct loop _).1 fun n _ => by fin_cases n <;> simp [loop]

/-- The nodes `4` and `5` are not among them, the node `3` is. -/
example : Reachable loop [.leaf 0] 3 ∧ ¬ Reachable loop [.leaf 0] 4 := by
  constructor
  · refine ⟨0, .list List.mem_cons_self .leaf, ?_⟩
    refine (((Relation.ReflTransGen.refl.tail (b := 0) (c := 1) (.tensor rfl)).tail (c := 2) ?_).tail ?_)
    · exact .input (ins := [2]) (ctrl := [1]) rfl List.mem_cons_self
    · exact .tensor rfl
  · rintro ⟨s, hs, hp⟩
    have h0 : s = 0 := by
      cases hs with
      | list hy ho =>
        rw [List.mem_singleton] at hy
        subst hy
        cases ho
        rfl
    subst h0
    have : ∀ n, Relation.ReflTransGen (Edge loop) 0 n → n.1 < 4 := by
      intro n hn
      induction hn with
      | refl => decide
      | @tail b c _ he ih =>
        have hb : b = 0 ∨ b = 1 ∨ b = 2 ∨ b = 3 := by omega
        rcases hb with rfl | rfl | rfl | rfl
        · cases he with
          | tensor h => cases h; decide
          | input h _ => cases h
          | control h _ => cases h
        · cases he with
          | tensor h => cases h
          | input h hm => cases h; simp at hm; subst hm; decide
          | control h hm => cases h; simp at hm; subst hm; decide
        · cases he with
          | tensor h => cases h; decide
          | input h _ => cases h
          | control h _ => cases h
        · cases he with
          | tensor h => cases h
          | input h hm => cases h; simp at hm; subst hm; decide
          | control h hm => cases h; simp at hm
    exact absurd (this 4 hp) (by decide)

end Verif.Utils
