import Verif.Keras.InputArgs

/-!
# C97: `Input` makes a tensor of the shape that was asked for, or refuses

`Asked` and `Supported` are the specification.
-/

namespace Verif.Keras.InputArgs

open Verif.Tensor

/-! ## Specification -/

/-- The sizes in a shape argument. -/
inductive Sizes : ShapeArg → List Dim → Prop
  | tuple (ds) : Sizes (.tuple ds) ds
  | int (n) : Sizes (.int n) [some n]
  | tensor (ds) : Sizes (.tensor (some ds)) ds

/-- The full shape that a call asks for: `batch_shape`, or `batch_size` before `shape`. -/
inductive Asked (a : Args) : List Dim → Prop
  | batchShape (ds : List Dim) (h : a.batchShape = some (some ds)) : Asked a ds
  | shape (ds : List Dim) (h : a.batchShape = none) (hs : Sizes a.shape ds) :
      Asked a (a.batchSize :: ds)

/-- The calls without unsupported arguments: no data type, no sparse or wrapped tensor, no unknown
keywords, and not both a shape and a batch shape. (An empty shape beside a batch shape goes unnoticed.) -/
structure Supported (a : Args) : Prop where
  dtype : a.dtype = false
  sparse : a.sparse = false
  tensor : a.tensor = false
  other : a.other = false
  both : a.batchShape ≠ none →
    a.shape = .none ∨ a.shape = .tuple [] ∨ a.shape = .int 0 ∨ a.shape = .tensor none

/-- The shape as Python sizes. -/
def dims (s : List ℕ) : List Dim := s.map fun n : ℕ => some (n : ℤ)

/-! ## Lemmas -/

theorem zeros_ok {ds : List Dim} {t : Ten ℚ} :
    zeros ds = .ok t ↔ ∃ s : List ℕ, ds = dims s ∧ t = ⟨s, fun _ => 0⟩ := by
  constructor
  · intro h
    unfold zeros at h
    by_cases h1 : ds.any (·.isNone) = true
    · rw [if_pos h1] at h; cases h
    · rw [if_neg h1] at h
      by_cases h2 : ds.any (fun d => d.getD 0 < 0) = true
      · rw [if_pos h2] at h; cases h
      · rw [if_neg h2] at h
        refine ⟨_, ?_, (Except.ok.inj h).symm⟩
        unfold dims
        rw [List.map_map]
        refine (List.map_id ds).symm.trans (List.map_congr_left fun d hd => ?_)
        have a1 : d.isNone = false := by
          by_contra hc
          exact h1 (List.any_eq_true.2 ⟨d, hd, by simpa using hc⟩)
        have a2 : ¬ d.getD 0 < 0 := fun hc => h2 (List.any_eq_true.2 ⟨d, hd, by simpa using hc⟩)
        cases d with
        | none => simp at a1
        | some n =>
          simp only [Option.getD_some] at a2
          simp only [id, Function.comp_apply, Option.getD_some, Option.some.injEq]
          omega
  · rintro ⟨s, rfl, rfl⟩
    have h1 : ¬ (dims s).any (·.isNone) = true := by simp [dims]
    have h2 : ¬ (dims s).any (fun d => d.getD 0 < 0) = true := by simp [dims]
    unfold zeros
    rw [if_neg h1, if_neg h2]
    simp [dims, Function.comp_def]

theorem sizes_ok {s : ShapeArg} {ds : List Dim} : sizes s = .ok ds ↔ Sizes s ds := by
  constructor
  · intro h
    rcases s with _ | d | n | (_ | d) <;> simp only [sizes] at h <;> cases h
    · exact .tuple _
    · exact .int _
    · exact .tensor _
  · rintro (_ | _ | _) <;> rfl

theorem truthy_false {s : ShapeArg} : s.truthy = false ↔
    s = .none ∨ s = .tuple [] ∨ s = .int 0 ∨ s = .tensor none := by
  rcases s with _ | d | n | (_ | d)
  · simp [ShapeArg.truthy]
  · cases d <;> simp [ShapeArg.truthy]
  · simp [ShapeArg.truthy]
  · simp [ShapeArg.truthy]
  · simp [ShapeArg.truthy]

/-- `InputLayer` with a shape and a batch size. -/
theorem layer_shape_ok {s : ShapeArg} {b : Dim} {t : Ten ℚ} :
    inputLayer s b false false false none false = .ok t ↔
      ∃ ds, Sizes s ds ∧ zeros (b :: ds) = .ok t := by
  have e : inputLayer s b false false false none false =
      if b = none then Except.error Err.notImplemented else sizes s >>= fun ds => zeros (b :: ds) := by
    simp [inputLayer, batchAndShape, bind, Except.bind]
  rw [e]
  by_cases hb : b = none
  · subst hb
    simp only [if_true]
    constructor
    · intro h; cases h
    · rintro ⟨ds, -, h⟩
      obtain ⟨s, hs, -⟩ := zeros_ok.1 h
      cases s <;> simp [dims] at hs
  · rw [if_neg hb]
    cases hs : sizes s with
    | error e =>
      constructor
      · intro h; cases h
      · rintro ⟨ds, h, -⟩
        rw [sizes_ok.2 h] at hs; cases hs
    | ok ds =>
      constructor
      · intro h; exact ⟨ds, sizes_ok.1 hs, h⟩
      · rintro ⟨ds', h, h'⟩
        rw [sizes_ok.2 h] at hs; cases hs
        exact h'

/-- `InputLayer` with a batch shape. -/
theorem layer_batch_ok {n : Dim} {ds : List Dim} {t : Ten ℚ} :
    inputLayer .none none false false false (some (some (n :: ds))) false = .ok t ↔
      zeros (n :: ds) = .ok t := by
  have e : inputLayer .none none false false false (some (some (n :: ds))) false =
      inputLayer (.tuple ds) n false false false none false := by
    simp [inputLayer, batchAndShape, ShapeArg.truthy, bind, Except.bind]
  rw [e, layer_shape_ok]
  constructor
  · rintro ⟨ds', h, h'⟩; cases h; exact h'
  · intro h; exact ⟨ds, .tuple ds, h⟩

/-! ## Theorems -/

/-- **C97.** A call of `Input` succeeds exactly if its arguments are supported and ask for a shape of
natural numbers (with at least one axis, the batch), and then the result is the tensor of zeros of that
shape. Every other call raises. -/
theorem input_iff (a : Args) (t : Ten ℚ) :
    input a = .ok t ↔ Supported a ∧ ∃ s : List ℕ, s ≠ [] ∧ Asked a (dims s) ∧
      t = ⟨s, fun _ => 0⟩ := by
  obtain ⟨shape, bs, dtype, sparse, tensor, bsh, other⟩ := a
  cases bsh with
  | none =>
    have e : input ⟨shape, bs, dtype, sparse, tensor, none, other⟩ =
        if other then .error .value
        else if shape = .none ∧ tensor = false then .error .value
        else if sparse || dtype || tensor then .error .notImplemented
        else inputLayer shape bs dtype tensor sparse none false := by
      cases other <;> simp [input, batchAndShape, bind, Except.bind, truthy]
    rw [e]
    constructor
    · intro h
      cases other with
      | true => cases h
      | false =>
        simp only [Bool.false_eq_true, if_false] at h
        by_cases h1 : shape = .none ∧ tensor = false
        · rw [if_pos h1] at h; cases h
        · rw [if_neg h1] at h
          by_cases h2 : (sparse || dtype || tensor) = true
          · rw [if_pos h2] at h; cases h
          · rw [if_neg h2] at h
            simp only [Bool.or_eq_true, not_or, Bool.not_eq_true] at h2
            obtain ⟨⟨rfl, rfl⟩, rfl⟩ := h2
            obtain ⟨ds, hs, hz⟩ := layer_shape_ok.1 h
            obtain ⟨s, e1, rfl⟩ := zeros_ok.1 hz
            refine ⟨⟨rfl, rfl, rfl, rfl, fun h => absurd rfl h⟩, s, ?_, ?_, rfl⟩
            · rintro rfl; simp [dims] at e1
            · rw [← e1]; exact .shape ds rfl hs
    · rintro ⟨⟨h1, h2, h3, h4, -⟩, s, -, hA, rfl⟩
      simp only at h1 h2 h3 h4
      subst h1 h2 h3 h4
      generalize hd : dims s = d at hA
      cases hA with
      | batchShape ds h => cases h
      | shape ds h hs =>
        have hn : shape ≠ .none := by rintro rfl; cases hs
        simp only [Bool.false_eq_true, if_false, Bool.or_self, and_true, if_neg hn]
        exact layer_shape_ok.2 ⟨ds, hs, zeros_ok.2 ⟨s, hd.symm, rfl⟩⟩
  | some b =>
    constructor
    · intro h
      by_cases hb : (shape.truthy && truthy b) = true
      · simp [input, batchAndShape, bind, Except.bind, hb] at h
      · have hb' : (shape.truthy && truthy b) = false := by simpa using hb
        cases b with
        | none => simp [input, batchAndShape, bind, Except.bind, truthy] at h
        | some l =>
          cases l with
          | nil => simp [input, batchAndShape, bind, Except.bind, truthy] at h
          | cons n ds =>
            have hs : shape.truthy = false := by simpa [truthy] using hb'
            cases other with
            | true => simp [input, batchAndShape, bind, Except.bind, hs] at h
            | false =>
              by_cases h2 : (sparse || dtype || tensor) = true
              · simp [input, batchAndShape, bind, Except.bind, hs, h2] at h
              · have h2' := h2
                simp only [Bool.or_eq_true, not_or, Bool.not_eq_true] at h2'
                obtain ⟨⟨rfl, rfl⟩, rfl⟩ := h2'
                simp only [input, batchAndShape, bind, Except.bind, hs, Bool.false_and,
                  Bool.false_eq_true, if_false, Bool.or_self, reduceCtorEq, false_and,
                  Option.getD_some, truthy, List.isEmpty_cons, Bool.not_false, if_true] at h
                obtain ⟨s, e1, rfl⟩ := zeros_ok.1 (layer_batch_ok.1 h)
                refine ⟨⟨rfl, rfl, rfl, rfl, fun _ => truthy_false.1 hs⟩, s, ?_, ?_, rfl⟩
                · rintro rfl; simp [dims] at e1
                · rw [← e1]; exact .batchShape _ rfl
    · rintro ⟨⟨h1, h2, h3, h4, h5⟩, s, hne, hA, rfl⟩
      simp only at h1 h2 h3 h4 h5
      subst h1 h2 h3 h4
      have hs : shape.truthy = false := truthy_false.2 (h5 (by simp))
      generalize hd : dims s = d at hA
      cases hA with
      | shape ds h hs => cases h
      | batchShape ds h =>
        cases h
        cases s with
        | nil => exact absurd rfl hne
        | cons k s =>
          have hd' : some (k : ℤ) :: dims s = d := hd
          subst hd'
          simp only [input, batchAndShape, bind, Except.bind, hs, Bool.false_and,
            Bool.false_eq_true, if_false, Bool.or_self, reduceCtorEq, false_and,
            Option.getD_some, truthy, List.isEmpty_cons, Bool.not_false, if_true]
          exact layer_batch_ok.2 (zeros_ok.2 ⟨k :: s, rfl, rfl⟩)

/-- `Input(shape=(2, 3), batch_size=5)` and `Input(batch_shape=(5, 2, 3))` are such calls. -/
example : input { shape := .tuple [some 2, some 3], batchSize := some 5 } =
      .ok ⟨[5, 2, 3], fun _ => 0⟩ ∧
    input { batchShape := some (some [some 5, some 2, some 3]) } = .ok ⟨[5, 2, 3], fun _ => 0⟩ := by
  constructor
  · refine (input_iff _ _).2 ⟨⟨rfl, rfl, rfl, rfl, fun h => absurd rfl h⟩, [5, 2, 3], by simp, ?_, rfl⟩
    exact .shape _ rfl (.tuple _)
  · refine (input_iff _ _).2 ⟨⟨rfl, rfl, rfl, rfl, fun _ => .inl rfl⟩, [5, 2, 3], by simp, ?_, rfl⟩
    exact .batchShape _ rfl

/-- **C97, models.** The first layer of a model gets an input exactly if it has one of the keywords
`input_shape` and `batch_input_shape`, both of which mean the full shape, batch included; the second
goes first. -/
theorem first_input_iff (inputShape batchInputShape : Option (Option (List Dim))) (t : Ten ℚ) :
    firstInput inputShape batchInputShape = .ok t ↔
      ∃ s : List ℕ, s ≠ [] ∧ t = ⟨s, fun _ => 0⟩ ∧
        (batchInputShape = some (some (dims s)) ∨
          batchInputShape = none ∧ inputShape = some (some (dims s))) := by
  have key : ∀ b, input { batchShape := some b } = .ok t ↔
      ∃ s : List ℕ, s ≠ [] ∧ t = ⟨s, fun _ => 0⟩ ∧ b = some (dims s) := by
    intro b
    rw [input_iff]
    constructor
    · rintro ⟨-, s, hs, hA, e⟩
      refine ⟨s, hs, e, ?_⟩
      generalize dims s = d at hA
      cases hA with
      | batchShape _ h => exact Option.some.inj h
      | shape _ h => cases h
    · rintro ⟨s, hs, e, rfl⟩
      exact ⟨⟨rfl, rfl, rfl, rfl, fun _ => .inl rfl⟩, s, hs, .batchShape _ rfl, e⟩
  cases batchInputShape with
  | some b =>
    simp only [firstInput, layerShape, key, Option.some.injEq, reduceCtorEq, false_and, or_false]
  | none =>
    cases inputShape with
    | some b => simp only [firstInput, layerShape, key, Option.some.injEq, reduceCtorEq, false_or,
        true_and]
    | none => simp [firstInput, layerShape]

/-- **The documented use is refused.** The docstring of `Input` makes the batch size optional and its example
is `Input(shape=(32,))`; every call that leaves out the batch size raises, whatever the shape. -/
theorem no_batch_size_false (a : Args) (h1 : a.batchSize = none) (h2 : a.batchShape = none) (t : Ten ℚ) :
    input a ≠ .ok t := by
  intro h
  obtain ⟨-, s, -, hA, -⟩ := (input_iff a t).1 h
  generalize hd : dims s = d at hA
  cases hA with
  | batchShape _ h => rw [h2] at h; cases h
  | shape ds _ _ =>
    rw [h1] at hd
    cases s <;> simp [dims] at hd

/-- The docstring's example raises `NotImplementedError`. -/
theorem docstring_false : input { shape := .tuple [some 32] } = .error .notImplemented := by
  rfl

/-- **The batch size can be ignored.** Beside `batch_shape`, `batch_size` has no effect, and contradictions
are not found. -/
theorem batch_size_ignored_false : ¬ ∀ (a : Args) (t : Ten ℚ) (n : ℕ), input a = .ok t →
    a.batchSize = some (n : ℤ) → t.shape.head? = some n := by
  intro h
  have e : input { batchSize := some 7, batchShape := some (some [some 2, some 3]) } =
      .ok ⟨[2, 3], fun _ => 0⟩ :=
    (input_iff _ _).2 ⟨⟨rfl, rfl, rfl, rfl, fun _ => .inl rfl⟩, [2, 3], by simp,
      .batchShape _ rfl, rfl⟩
  have := h _ _ 7 e rfl
  simp at this

/-- Beside `batch_shape`, no batch size ever has an effect. -/
theorem batch_size_ignored (a : Args) (b b' : Dim) (hb : a.batchShape ≠ none) :
    input { a with batchSize := b } = input { a with batchSize := b' } := by
  obtain ⟨shape, bs, dtype, sparse, tensor, bsh, other⟩ := a
  cases bsh with
  | none => exact absurd rfl hb
  | some l =>
    rcases l with _ | _ | ⟨n, ds⟩
    · simp [input, batchAndShape, bind, Except.bind, truthy]
    · simp [input, batchAndShape, bind, Except.bind, truthy]
    · simp [input, batchAndShape, bind, Except.bind, truthy]

end Verif.Keras.InputArgs
