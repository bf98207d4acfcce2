import Verif.Runtime.Vars
import Mathlib.Algebra.Group.Int.Defs
import Mathlib.Algebra.BigOperators.Group.List.Basic

/-!
# C39: variables hold the last assigned value

Specification: a store that maps each variable to a tensor; an assignment of matching type and scaling
replaces the tensor, any other changes nothing; a variable used anywhere means its tensor in the store.
-/

namespace Verif.Runtime.Vars

variable {G : Type}

/-- The specification: what is assigned. -/
def specValue (store : List (Tensor G)) : Src G → Option (Tensor G)
  | .tensor t => some t
  | .read u => store[u]?
  | .var u => store[u]?

/-- The specification: one assignment to a store. -/
def specStep (store : List (Tensor G)) (a : ℕ × Src G) : List (Tensor G) :=
  match store[a.1]?, specValue store a.2 with
  | some old, some t => if old.info = t.info then store.set a.1 { old with comps := t.comps } else store
  | _, _ => store

/-- The specification: a history. -/
def specRun (store : List (Tensor G)) (h : List (ℕ × Src G)) : List (Tensor G) := h.foldl specStep store

/-- A tensor has the number of components its type prescribes. -/
def Sized (n : Meta → ℕ) (t : Tensor G) : Prop := t.comps.length = n t.info

theorem assignComps_ok (cells vals : List G) (h : cells.length = vals.length) :
    assignComps false cells vals = (vals, false) := by
  induction cells generalizing vals with
  | nil =>
    cases vals with
    | nil => rfl
    | cons => simp at h
  | cons c cells ih =>
    cases vals with
    | nil => simp at h
    | cons v vals =>
      simp only [List.length_cons, Nat.add_right_cancel_iff] at h
      simp [assignComps, ih vals h]

/-- The same factory behaviour everywhere, the right sizes, and the live cells are the store. -/
def Agree (n : Meta → ℕ) (vars : List (Var G)) (store : List (Tensor G)) : Prop :=
  vars.map Var.read = store ∧ (∀ v ∈ vars, v.raising = false) ∧ ∀ t ∈ store, Sized n t

/-- A source that does not use a variable as a tensor, of the right size. -/
def Src.Fine (n : Meta → ℕ) : Src G → Prop
  | .tensor t => Sized n t
  | .read _ => True
  | .var _ => False

theorem step_agree (n : Meta → ℕ) (vars : List (Var G)) (store : List (Tensor G))
    (h : Agree n vars store) (a : ℕ × Src G) (ha : a.2.Fine n) :
    Agree n (step vars a) (specStep store a) := by
  obtain ⟨i, src⟩ := a
  obtain ⟨h1, h2, h3⟩ := h
  have hread : ∀ u : ℕ, store[u]? = vars[u]?.map Var.read := by intro u; rw [← h1, List.getElem?_map]
  have hval : specValue store src = src.eval vars := by
    cases src with
    | tensor t => rfl
    | read u => simp only [Src.eval, specValue, hread]
    | var u => exact ha.elim
  have hsz : ∀ t, src.eval vars = some t → Sized n t := by
    intro t ht
    cases src with
    | tensor t' =>
      simp only [Src.eval, Option.some.injEq] at ht
      rw [← ht]; exact ha
    | read u =>
      simp only [Src.eval, ← hread] at ht
      exact h3 t (List.mem_of_getElem? ht)
    | var u => exact ha.elim
  unfold step specStep
  simp only
  rw [hval, hread i]
  cases hv : vars[i]? with
  | none => exact ⟨h1, h2, h3⟩
  | some v =>
    cases ht : src.eval vars with
    | none => exact ⟨h1, h2, h3⟩
    | some t =>
      have hvm := List.mem_of_getElem? hv
      have hvs : Sized n v.read := h3 _ (by rw [← h1]; exact List.mem_map_of_mem hvm)
      have hts := hsz t ht
      simp only [Option.map_some]
      by_cases hi : v.info = t.info
      · have hi' : v.read.info = t.info := hi
        have hlen : v.live.length = t.comps.length := by
          have e1 : v.live.length = n v.info := hvs
          have e2 : t.comps.length = n t.info := hts
          rw [e1, e2, hi]
        have has : v.assign t = ({ v with live := t.comps }, .ok) := by
          simp [Var.assign, hi, h2 v hvm, assignComps_ok _ _ hlen]
        rw [if_pos hi', has]
        refine ⟨?_, ?_, ?_⟩
        · rw [← h1, List.map_set]; rfl
        · intro w hw
          rcases List.mem_or_eq_of_mem_set hw with hw | rfl
          · exact h2 w hw
          · exact h2 v hvm
        · intro w hw
          rcases List.mem_or_eq_of_mem_set hw with hw | rfl
          · exact h3 w hw
          · show t.comps.length = n v.info
            rw [hts, hi]
      · have hi' : ¬ v.read.info = t.info := hi
        have has : (v.assign t).1 = v := by
          unfold Var.assign
          split
          · rfl
          · split
            · rfl
            · rename_i e1 e2
              exfalso
              apply hi
              cases hvi : v.info
              cases hti : t.info
              simp only [hvi, hti, ne_eq, not_not] at e1 e2
              rw [e1, e2]
        have hset : vars.set i v = vars := by
          obtain ⟨hlt, he⟩ := List.getElem?_eq_some_iff.1 hv
          rw [← he, List.set_getElem_self]
        rw [if_neg hi', has, hset]
        exact ⟨h1, h2, h3⟩

/-- **C39 (partial)**: for native and int128 variables, after every history of assignments (of tensors
and of values read from variables; assignments of the wrong type or scaling fail and change nothing),
reading a variable returns exactly the components that were assigned last, in any number of variables of
either protocol. Missing: variables used as tensors (`use_is_stale`, `use_after_assign_false`,
`assign_variable_false`), int100 and boolean variables (`assign_raises_false`, `half_assigned_false`). -/
theorem variables_partial (n : Meta → ℕ) (init : List (Tensor G)) (hs : ∀ t ∈ init, Sized n t)
    (h : List (ℕ × Src G)) (hf : ∀ a ∈ h, a.2.Fine n) (i : ℕ) :
    (run (init.map (Var.new false)) h)[i]?.map Var.read = (specRun init h)[i]? := by
  have key : ∀ (l : List (ℕ × Src G)) (vars : List (Var G)) (store : List (Tensor G)),
      Agree n vars store → (∀ a ∈ l, a.2.Fine n) → Agree n (run vars l) (specRun store l) := by
    intro l
    induction l with
    | nil => intro vars store h _; exact h
    | cons a l ih =>
      intro vars store h hl
      exact ih _ _ (step_agree n vars store h a (hl a (by simp))) fun b hb => hl b (by simp [hb])
  have := (key h (init.map (Var.new false)) init ⟨by simp [Function.comp_def, Var.new, Var.read],
    by simp [Var.new], hs⟩ hf).1
  rw [← this, List.getElem?_map]

/-- **C39, the last assignment**: the store's meaning, spelled out. After assigning a tensor of matching
type, reading returns it, until the same variable is assigned again; other variables are not affected. -/
theorem spec_last (store : List (Tensor G)) (i : ℕ) (old t : Tensor G) (hi : store[i]? = some old)
    (hm : old.info = t.info) (h : List (ℕ × Src G)) (hne : ∀ a ∈ h, a.1 ≠ i) :
    ((specRun (specStep store (i, .tensor t)) h)[i]?).map Tensor.comps = some t.comps := by
  have hstep : ∀ (s : List (Tensor G)) (a : ℕ × Src G), a.1 ≠ i → (specStep s a)[i]? = s[i]? := by
    intro s a ha
    unfold specStep
    split
    · split
      · rw [List.getElem?_set_ne ha]
      · rfl
    · rfl
  have hrun : ∀ (l : List (ℕ × Src G)) (s : List (Tensor G)), (∀ a ∈ l, a.1 ≠ i) →
      (specRun s l)[i]? = s[i]? := by
    intro l
    induction l with
    | nil => intro s _; rfl
    | cons a l ih =>
      intro s hl
      exact (ih _ fun b hb => hl b (by simp [hb])).trans (hstep s a (hl a (by simp)))
  rw [hrun h _ hne]
  obtain ⟨hlt, _⟩ := List.getElem?_eq_some_iff.1 hi
  have : specStep store (i, .tensor t) = store.set i { old with comps := t.comps } := by
    unfold specStep
    simp only [hi, specValue]
    rw [if_pos hm]
  rw [this, List.getElem?_set_self hlt]
  rfl

/-! ## Where it fails -/

/-- A variable used as a tensor keeps the value it was created with, through every history. -/
theorem use_is_stale (vars : List (Var G)) (h : List (ℕ × Src G)) (i : ℕ) :
    (run vars h)[i]?.map Var.use = vars[i]?.map Var.use := by
  induction h generalizing vars with
  | nil => rfl
  | cons a l ih =>
    refine (ih (step vars a)).trans ?_
    unfold step
    split
    · rename_i v t hv ht
      by_cases hi : a.1 = i
      · subst hi
        obtain ⟨hlt, _⟩ := List.getElem?_eq_some_iff.1 hv
        rw [List.getElem?_set_self hlt, hv]
        simp only [Option.map_some, Option.some.injEq]
        unfold Var.assign
        split
        · rfl
        · split <;> rfl
      · rw [List.getElem?_set_ne hi]
    · rfl

/-- **C39 is false** for a variable used directly in an operation: after any assignment of another value
it still has its initial value. -/
theorem use_after_assign_false (t u : Tensor G) (hu : t.comps ≠ u.comps) (h : List (ℕ × Src G)) :
    (run [Var.new false t] ((0, .tensor u) :: h))[0]?.map (fun v => v.use.comps) ≠ some u.comps := by
  have := use_is_stale [Var.new false t] ((0, .tensor u) :: h) 0
  have h2 := congrArg (Option.map Tensor.comps) this
  rw [Option.map_map] at h2
  have e : (Tensor.comps ∘ Var.use : Var G → List G) = fun v => v.use.comps := rfl
  rw [e] at h2
  rw [h2]
  simpa [Var.use, Var.new] using hu

/-- **C39 is false** for `assign(v, u)` with a variable `u`: it assigns `u`'s initial value, not its
current one. -/
theorem assign_variable_false :
    let t : ℤ → Tensor ℤ := fun x => ⟨⟨false, true⟩, false, [x, x]⟩
    let vars := [Var.new false (t 1), Var.new false (t 2)]
    (run vars [(1, .tensor (t 7)), (0, .var 1)])[0]?.map (fun v => v.read.comps) = some [2, 2] ∧
      (specRun [t 1, t 2] [(1, .tensor (t 7)), (0, .var 1)])[0]?.map Tensor.comps = some [7, 7] := by
  decide

/-- **C39 is false** for int100 and boolean variables: every assignment of matching type raises a
`TypeError`, after having assigned the first component and only that. -/
theorem assign_raises_false (t u : Tensor G) (c v : G) (cs vs : List G) (hi : t.info = u.info)
    (ht : t.comps = c :: cs) (hu : u.comps = v :: vs) :
    ((Var.new true t).assign u).2 = .typeError ∧ ((Var.new true t).assign u).1.read.comps = v :: cs := by
  simp [Var.assign, Var.new, hi, ht, hu, assignComps, Var.read]

/-- **C39 is false** for private int100 variables of Pond: after the failed assignment the variable
reconstructs to neither the old nor the new value. The shares of `x` are `r` and `x - r`. -/
theorem half_assigned_false (x y r r' : ℤ) (h1 : r ≠ r') (h2 : y - r' ≠ x - r) :
    let t : Tensor ℤ := ⟨⟨true, true⟩, false, [r, x - r]⟩
    let u : Tensor ℤ := ⟨⟨true, true⟩, false, [r', y - r']⟩
    t.comps.sum = x ∧ u.comps.sum = y ∧ ((Var.new true t).assign u).1.read.comps.sum ≠ x ∧
      ((Var.new true t).assign u).1.read.comps.sum ≠ y := by
  have := (assign_raises_false (⟨⟨true, true⟩, false, [r, x - r]⟩ : Tensor ℤ)
    ⟨⟨true, true⟩, false, [r', y - r']⟩ r r' [x - r] [y - r'] rfl rfl rfl).2
  simp only [this, List.sum_cons, List.sum_nil]
  omega

/-- **C39 is false** in ABY3 for a value of another share type: `assign` accepts a boolean-shared tensor
for an arithmetic variable, whose reading then has the boolean shares but the arithmetic type. -/
theorem assign_share_type_false (t u : Tensor G) (hi : t.info = u.info)
    (hl : t.comps.length = u.comps.length) (ht : t.shareType = true) (hu : u.shareType = false) :
    ((Var.new false t).assign u).2 = .ok ∧ ((Var.new false t).assign u).1.read.comps = u.comps ∧
      ((Var.new false t).assign u).1.read.shareType ≠ u.shareType := by
  simp [Var.assign, Var.new, hi, assignComps_ok _ _ hl, Var.read, ht, hu]

/-- Assignments of the wrong kind or scaling fail and change nothing, whatever the factory. -/
theorem assign_mismatch (v : Var G) (t : Tensor G) (h : v.info ≠ t.info) :
    v.assign t = (v, .assertion) := by
  unfold Var.assign
  split
  · rfl
  · split
    · rfl
    · rename_i e1 e2
      exfalso
      apply h
      cases hvi : v.info
      cases hti : t.info
      simp only [hvi, hti, ne_eq, not_not] at e1 e2
      rw [e1, e2]

example :
    let t : ℤ → Tensor ℤ := fun x => ⟨⟨true, true⟩, false, [x + 5, -5]⟩
    let vars := [Var.new false (t 1), Var.new false (t 2)]
    let h : List (ℕ × Src ℤ) := [(0, .tensor (t 7)), (1, .read 0), (0, .tensor (t 9)),
      (0, .tensor ⟨⟨false, true⟩, false, [0, 0]⟩)]
    (∀ a ∈ h, a.2.Fine fun _ => 2) ∧
      (run vars h).map (fun v => v.read.comps.sum) = [9, 7] := by
  refine ⟨?_, by decide⟩
  simp [Src.Fine, Sized]

end Verif.Runtime.Vars
