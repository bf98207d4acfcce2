import Verif.Utils.Fetches

/-!
# C102: unwrapping fetches
-/

namespace Verif.Utils

variable {T N : Type}

/-- The elements of a list or tuple. -/
def Fetches.elems : Fetches T N → List (Fetches T N)
  | .one _ => []
  | .list xs => xs
  | .tuple xs => xs

/-- What is found by indexing: `f[p₀][p₁]…`. -/
def Fetches.at? : Fetches T N → List ℕ → Option (Fetches T N)
  | f, [] => some f
  | f, i :: p => (f.elems[i]?).bind fun g => g.at? p

/-- A fetch and what it should become: objects with `to_native` are converted, all others stay. -/
def Becomes (native : T → Except NativeErr N) : Fetch T N → Fetch T N → Prop
  | .wrapped t, y => ∃ n, native t = .ok n ∧ y = .tf n
  | x, y => y = x

/-- One level: a fetch has become what it should, a list or tuple is a list of as many elements. -/
def SameLevel (native : T → Except NativeErr N) : Fetches T N → Fetches T N → Prop
  | .one x, .one y => Becomes native x y
  | .list xs, .list ys => ys.length = xs.length
  | .tuple xs, .list ys => ys.length = xs.length
  | _, _ => False

/-- The same nesting, everywhere converted. -/
def SameNesting (native : T → Except NativeErr N) (f g : Fetches T N) : Prop :=
  ∀ p, (∃ x y, f.at? p = some x ∧ g.at? p = some y ∧ SameLevel native x y) ∨
    (f.at? p = none ∧ g.at? p = none)

/-- The conversion of this object, at some place in the fetches, ends like this. -/
def Converts (native : T → Except NativeErr N) (f : Fetches T N) (r : Except NativeErr N) : Prop :=
  ∃ p t, f.at? p = some (.one (.wrapped t)) ∧ native t = r

theorem same_of_elems {native : T → Except NativeErr N} {f g : Fetches T N} (h : SameLevel native f g)
    (he : List.Forall₂ (SameNesting native) f.elems g.elems) : SameNesting native f g := by
  intro p
  cases p with
  | nil => exact .inl ⟨f, g, by simp [Fetches.at?], by simp [Fetches.at?], h⟩
  | cons i p =>
    by_cases hi : i < f.elems.length
    · have hi' : i < g.elems.length := he.length_eq ▸ hi
      have := (List.forall₂_iff_get.1 he).2 i hi hi' p
      simpa [Fetches.at?, List.getElem?_eq_getElem hi, List.getElem?_eq_getElem hi'] using this
    · have hi' : ¬ i < g.elems.length := he.length_eq ▸ hi
      right
      simp [Fetches.at?, List.getElem?_eq_none (Nat.le_of_not_lt hi), List.getElem?_eq_none (Nat.le_of_not_lt hi')]

theorem converts_elem {native : T → Except NativeErr N} {f g : Fetches T N} {r : Except NativeErr N}
    (hg : g ∈ f.elems) (h : Converts native g r) : Converts native f r := by
  obtain ⟨i, hi, rfl⟩ := List.getElem_of_mem hg
  obtain ⟨p, t, e, ht⟩ := h
  exact ⟨i :: p, t, by simpa [Fetches.at?, List.getElem?_eq_getElem hi] using e, ht⟩

mutual
theorem unwrap_no_attribute (native : T → Except NativeErr N) : ∀ f : Fetches T N,
    unwrap native f ≠ .error .attribute
  | .one x => by
    cases x with
    | tf n => simp [unwrap, unwrapOne]
    | plain t => simp [unwrap, unwrapOne]
    | wrapped t =>
      cases hn : native t with
      | ok n => simp [unwrap, unwrapOne, hn]
      | error e => cases e <;> simp [unwrap, unwrapOne, hn]
  | .list xs => by
    have := unwrapAll_no_attribute native xs
    cases h : unwrapAll native xs with
    | ok ys => simp [unwrap, h]
    | error e => rw [h] at this; simpa [unwrap, h] using this
  | .tuple xs => by
    have := unwrapAll_no_attribute native xs
    cases h : unwrapAll native xs with
    | ok ys => simp [unwrap, h]
    | error e => rw [h] at this; simpa [unwrap, h] using this

theorem unwrapAll_no_attribute (native : T → Except NativeErr N) : ∀ xs : List (Fetches T N),
    unwrapAll native xs ≠ .error .attribute
  | [] => by simp [unwrapAll]
  | x :: xs => by
    have h1 := unwrap_no_attribute native x
    have h2 := unwrapAll_no_attribute native xs
    cases h : unwrap native x with
    | error e => rw [h] at h1; simpa [unwrapAll, h] using h1
    | ok y =>
      cases h' : unwrapAll native xs with
      | error e => rw [h'] at h2; simpa [unwrapAll, h, h'] using h2
      | ok ys => simp [unwrapAll, h, h']
end

mutual
theorem unwrap_cases (native : T → Except NativeErr N) : ∀ f : Fetches T N,
    (¬ Converts native f (.error .attribute) → ¬ Converts native f (.error .other) →
      ∃ g, unwrap native f = .ok g ∧ SameNesting native f g) ∧
    (Converts native f (.error .other) ↔ unwrap native f = .error .other)
  | .one x => by
    have hat : ∀ p t, (Fetches.one x : Fetches T N).at? p = some (.one (.wrapped t)) → x = .wrapped t := by
      intro p t h
      cases p with
      | nil => simpa [Fetches.at?] using h
      | cons i p => simp [Fetches.at?, Fetches.elems] at h
    have hocc : ∀ {t r}, x = .wrapped t → native t = r → Converts native (.one x) r := by
      rintro t r rfl h
      exact ⟨[], t, by simp [Fetches.at?], h⟩
    have one : ∀ y, Becomes native x y → SameNesting native (.one x) (.one y) := fun y h =>
      same_of_elems h .nil
    cases x with
    | tf n =>
      refine ⟨fun _ _ => ⟨.one (.tf n), rfl, one _ rfl⟩, ?_, ?_⟩
      · rintro ⟨p, t, e, -⟩; exact absurd (hat p t e) (by simp)
      · intro h; cases h
    | plain t =>
      refine ⟨fun _ _ => ⟨.one (.plain t), rfl, one _ rfl⟩, ?_, ?_⟩
      · rintro ⟨p, t, e, -⟩; exact absurd (hat p t e) (by simp)
      · intro h; cases h
    | wrapped t =>
      cases hn : native t with
      | ok n =>
        refine ⟨fun _ _ => ⟨.one (.tf n), by simp [unwrap, unwrapOne, hn], one _ ⟨n, hn, rfl⟩⟩, ?_, ?_⟩
        · rintro ⟨p, t', e, h⟩
          cases hat p t' e
          rw [hn] at h; cases h
        · intro h; simp [unwrap, unwrapOne, hn] at h
      | error e =>
        cases e with
        | «attribute» =>
          refine ⟨fun h _ => absurd (hocc rfl hn) h, ?_, ?_⟩
          · rintro ⟨p, t', e, h⟩
            cases hat p t' e
            rw [hn] at h; cases h
          · intro h; simp [unwrap, unwrapOne, hn] at h
        | other =>
          exact ⟨fun _ h => absurd (hocc rfl hn) h, fun _ => by simp [unwrap, unwrapOne, hn], fun _ => hocc rfl hn⟩
  | .list xs => by
    obtain ⟨h1, h2⟩ := unwrapAll_cases native xs
    constructor
    · intro ha ho
      obtain ⟨ys, e, hy⟩ := h1 (fun f hf h => ha (converts_elem hf h)) (fun f hf h => ho (converts_elem hf h))
      exact ⟨.list ys, by simp [unwrap, e], same_of_elems (show ys.length = xs.length from hy.length_eq.symm) hy⟩
    · rw [show unwrap native (.list xs) = .error .other ↔ unwrapAll native xs = .error .other by
        cases h : unwrapAll native xs <;> simp [unwrap, h], ← h2]
      constructor
      · rintro ⟨p, t, e, ht⟩
        cases p with
        | nil => simp [Fetches.at?] at e
        | cons i p =>
          simp only [Fetches.at?, Fetches.elems, Option.bind_eq_some_iff] at e
          obtain ⟨g, hg, e⟩ := e
          exact ⟨g, List.mem_of_getElem? hg, p, t, e, ht⟩
      · rintro ⟨f, hf, h⟩; exact converts_elem hf h
  | .tuple xs => by
    obtain ⟨h1, h2⟩ := unwrapAll_cases native xs
    constructor
    · intro ha ho
      obtain ⟨ys, e, hy⟩ := h1 (fun f hf h => ha (converts_elem hf h)) (fun f hf h => ho (converts_elem hf h))
      exact ⟨.list ys, by simp [unwrap, e], same_of_elems (show ys.length = xs.length from hy.length_eq.symm) hy⟩
    · rw [show unwrap native (.tuple xs) = .error .other ↔ unwrapAll native xs = .error .other by
        cases h : unwrapAll native xs <;> simp [unwrap, h], ← h2]
      constructor
      · rintro ⟨p, t, e, ht⟩
        cases p with
        | nil => simp [Fetches.at?] at e
        | cons i p =>
          simp only [Fetches.at?, Fetches.elems, Option.bind_eq_some_iff] at e
          obtain ⟨g, hg, e⟩ := e
          exact ⟨g, List.mem_of_getElem? hg, p, t, e, ht⟩
      · rintro ⟨f, hf, h⟩; exact converts_elem hf h

theorem unwrapAll_cases (native : T → Except NativeErr N) : ∀ xs : List (Fetches T N),
    ((∀ f ∈ xs, ¬ Converts native f (.error .attribute)) → (∀ f ∈ xs, ¬ Converts native f (.error .other)) →
      ∃ ys, unwrapAll native xs = .ok ys ∧ List.Forall₂ (SameNesting native) xs ys) ∧
    ((∃ f ∈ xs, Converts native f (.error .other)) ↔ unwrapAll native xs = .error .other)
  | [] => ⟨fun _ _ => ⟨[], rfl, .nil⟩, by simp [unwrapAll]⟩
  | x :: xs => by
    obtain ⟨a1, a2⟩ := unwrap_cases native x
    obtain ⟨b1, b2⟩ := unwrapAll_cases native xs
    constructor
    · intro ha ho
      obtain ⟨y, e, hy⟩ := a1 (ha x (by simp)) (ho x (by simp))
      obtain ⟨ys, e', hys⟩ := b1 (fun f hf => ha f (by simp [hf])) (fun f hf => ho f (by simp [hf]))
      exact ⟨y :: ys, by simp [unwrapAll, e, e'], .cons hy hys⟩
    · rw [show (∃ f ∈ x :: xs, Converts native f (.error .other)) ↔
          Converts native x (.error .other) ∨ ∃ f ∈ xs, Converts native f (.error .other) by simp, a2, b2]
      have herr : ∀ e : NativeErr, unwrap native x = .error e → e = .other := by
        intro e h
        cases e with
        | other => rfl
        | «attribute» => exact absurd h (unwrap_no_attribute native x)
      cases h : unwrap native x with
      | error e => cases herr e h; simp [unwrapAll, h]
      | ok y =>
        cases h' : unwrapAll native xs <;> simp [unwrapAll, h, h']
end

/-- **C102, in part.** If no conversion raises, the result has the nesting of the fetches, every object with
`to_native` is converted, and all others are unchanged. Tuples become lists (`tuple_false`). -/
theorem unwrap_fetches_partial (native : T → Except NativeErr N) (f : Fetches T N)
    (h : ∀ e, ¬ Converts native f (.error e)) : ∃ g, unwrap native f = .ok g ∧ SameNesting native f g :=
  (unwrap_cases native f).1 (h _) (h _)

/-- An exception other than `AttributeError` is raised exactly if some conversion raises one, and no other way
to fail exists. -/
theorem unwrap_raises_iff (native : T → Except NativeErr N) (f : Fetches T N) :
    (Converts native f (.error .other) ↔ unwrap native f = .error .other) ∧
    unwrap native f ≠ .error .attribute :=
  ⟨(unwrap_cases native f).2, unwrap_no_attribute native f⟩

/-- **C102 is false**: an `AttributeError` from inside the conversion is swallowed, and the object is returned as if
it had no `to_native`. -/
theorem attribute_error_false (native : T → Except NativeErr N) (t : T) (h : native t = .error .attribute) :
    Converts native (.one (.wrapped t)) (.error .attribute) ∧
    unwrap native (.one (.wrapped t)) = .ok (.one (.wrapped t)) :=
  ⟨⟨[], t, by simp [Fetches.at?], h⟩, by simp [unwrap, unwrapOne, h]⟩

/-- **C102 is false**: no tuple is returned as a tuple, as TensorFlow does. -/
theorem tuple_false (native : T → Except NativeErr N) (f : Fetches T N) (xs : List (Fetches T N)) :
    unwrap native f ≠ .ok (.tuple xs) := by
  cases f with
  | one x => cases h : unwrapOne native x <;> simp [unwrap, h]
  | list ys => cases h : unwrapAll native ys <;> simp [unwrap, h]
  | tuple ys => cases h : unwrapAll native ys <;> simp [unwrap, h]

/-- A concrete case: a nested list with a tensor of TensorFlow, an encrypted tensor and another object. -/
example : (∀ e, ¬ Converts (fun t : ℕ => (.ok (t + 1) : Except NativeErr ℕ))
      (.list [.one (.tf 7), .list [.one (.wrapped 3), .one (.plain 5)]]) (.error e)) ∧
    unwrap (fun t : ℕ => (.ok (t + 1) : Except NativeErr ℕ))
      (.list [.one (.tf 7), .list [.one (.wrapped 3), .one (.plain 5)]])
      = .ok (.list [.one (.tf 7), .list [.one (.tf 4), .one (.plain 5)]]) :=
  ⟨by rintro e ⟨_, _, _, h⟩; simp at h, rfl⟩

/-- A concrete case in which a conversion raises. -/
example : unwrap (fun t : ℕ => if t = 3 then (.error .other : Except NativeErr ℕ) else .ok t)
    (.list [.one (.wrapped 2), .tuple [.one (.wrapped 3)]]) = .error .other := rfl

end Verif.Utils
