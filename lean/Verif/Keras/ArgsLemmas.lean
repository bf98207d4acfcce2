import Verif.Keras.ArgsSpec

/-! # C92: lemmas about lookups and checks -/

namespace Verif.Keras.Args

theorem value_same {ps ps' : List (String × Option Arg)} {name : String} (h : ps.lookup name = ps'.lookup name)
    (kw : Kwargs) : value ps kw name = value ps' kw name := by
  unfold value
  rw [h]

theorem lookup_filter {p : String → Bool} {name : String} (h : p name = true) (kw : Kwargs) :
    (kw.filter fun a => p a.1).lookup name = kw.lookup name := by
  induction kw with
  | nil => rfl
  | cons a kw ih =>
    obtain ⟨n, a⟩ := a
    by_cases hn : name = n
    · subst hn
      rw [List.filter_cons_of_pos (by simpa using h)]
      simp [List.lookup]
    · have : (name == n) = false := by simpa using hn
      by_cases hp : p n
      · rw [List.filter_cons_of_pos (by simpa using hp)]
        simp only [List.lookup, this]
        exact ih
      · rw [List.filter_cons_of_neg (by simpa using hp)]
        simp only [List.lookup, this]
        exact ih

theorem lookup_extra {ps : List (String × Option Arg)} {name : String} (h : (ps.lookup name).isNone = true)
    (kw : Kwargs) : (extra ps kw).lookup name = kw.lookup name :=
  lookup_filter (p := fun n => (ps.lookup n).isNone) h kw

theorem lookup_append_none {l r : Kwargs} {name : String} (h : r.lookup name = none) :
    (l ++ r).lookup name = l.lookup name := by
  induction l with
  | nil => exact h
  | cons a l ih =>
    obtain ⟨n, a⟩ := a
    rw [List.cons_append, List.lookup, List.lookup]
    split
    · rfl
    · exact ih

theorem lookup_batchShape {name : String} (h : name ≠ "batch_input_shape") (rest : Kwargs) :
    (batchShape rest).lookup name = none := by
  have : (name == "batch_input_shape") = false := by simpa using h
  unfold batchShape
  split
  · simp [List.lookup, this]
  · split
    · simp [List.lookup, this]
    · rfl

/-- The attributes apart from the shape of the batch. -/
theorem acts_append {name : String} (h : name ≠ "batch_input_shape") (l rest : Kwargs) :
    acts (l ++ batchShape rest) name = acts l name := by
  unfold acts
  rw [lookup_append_none (lookup_batchShape h rest)]

theorem acts_batch {l rest : Kwargs} (hl : l.lookup "batch_input_shape" = none)
    (h : rest.lookup "input_shape" = none ∨ rest.lookup "batch_input_shape" ≠ none) :
    acts (l ++ batchShape rest) "batch_input_shape" = (rest.lookup "batch_input_shape").getD .none := by
  have e : (l ++ batchShape rest).lookup "batch_input_shape" = (batchShape rest).lookup "batch_input_shape" := by
    clear h
    induction l with
    | nil => rfl
    | cons a l ih =>
      obtain ⟨n, a⟩ := a
      rw [List.lookup] at hl
      rw [List.cons_append, List.lookup]
      split at hl
      · cases hl
      · exact ih hl
  unfold acts
  rw [e]
  unfold batchShape
  cases hb : rest.lookup "batch_input_shape" with
  | some a => rfl
  | none =>
    rcases h with h | h
    · rw [h]
      rfl
    · exact absurd hb h

theorem batchOf_plain {kw : Kwargs} (h : kw.lookup "input_shape" = none ∨ kw.lookup "batch_input_shape" ≠ none) :
    batchOf kw = (kw.lookup "batch_input_shape").getD .none := by
  unfold batchOf
  cases hb : kw.lookup "batch_input_shape" with
  | some a => rfl
  | none =>
    rcases h with h | h
    · rw [h]
      cases kw.lookup "batch_size" <;> rfl
    · exact absurd hb h

theorem check_ok {a : Arg} {name : String} {k : Kind} (h : check a name k = .ok ()) :
    ∃ d, tfDefault k name = some d ∧ a.norm = d.norm := by
  unfold check at h
  split at h
  · cases h
  · rename_i d hd
    split at h
    · rename_i he
      exact ⟨d, hd, by simpa [Arg.eq] using he⟩
    · cases h

theorem checkAll_ok {k : Kind} {v : String → Arg} {ns : List String} (h : checkAll k v ns = .ok ()) :
    ∀ n ∈ ns, ∃ d, tfDefault k n = some d ∧ (v n).norm = d.norm := by
  induction ns with
  | nil => simp
  | cons m ns ih =>
    unfold checkAll at h
    split at h
    · cases h
    · rename_i u hc
      intro n hn
      rcases List.mem_cons.1 hn with rfl | hn
      · exact check_ok hc
      · exact ih h n hn

theorem bind_ok {α β : Type} {x : Except Err α} {f : α → Except Err β} {b : β} (h : (x >>= f) = .ok b) :
    ∃ a, x = .ok a ∧ f a = .ok b := by
  cases x with
  | error e => cases h
  | ok a => exact ⟨a, rfl, h⟩

theorem activationGet_ok {a b : Arg} (h : activationGet a = .ok b) (hb : b ≠ .none) : activationOf a = .ok b := by
  cases a with
  | none => exact h
  | obj n => exact h
  | str s =>
    unfold activationGet at h
    dsimp only at h
    split at h
    · exact h
    · cases h
  | bool b => cases h; exact absurd rfl hb
  | num q => cases h; exact absurd rfl hb
  | tup l => cases h; exact absurd rfl hb
  | list l => cases h; exact absurd rfl hb

theorem convActivation_ok {a b c : Arg} (h : convActivation a = .ok b) (hc : activationOf a = .ok c) : c = b := by
  cases a with
  | none => cases hc; cases h; rfl
  | obj n => cases hc; cases h; rfl
  | str s =>
    cases hc
    unfold convActivation activationGet at h
    dsimp only at h
    split at h
    · cases h
    · rename_i h1
      split at h1 <;> cases h1
    · rename_i h1
      split at h1
      · cases h1; cases h; rfl
      · cases h1
  | bool b => cases hc
  | num q => cases hc
  | tup l => cases hc
  | list l => cases hc

theorem refuse_ok {p : Bool} {e : Err} {b : Unit} (h : refuse p e = .ok b) : p = false := by
  unfold refuse at h
  split at h
  · cases h
  · simpa using ‹¬ p = true›

@[simp] theorem heightWidth_eq (a : Arg) : heightWidth a = pair a := by
  cases a with
  | tup l =>
      match l with
      | [] | [none] | [some a] | [none, b] | [some a, none] | [some a, some b] | none :: b :: c :: l | some a :: none :: c :: l | some a :: some b :: c :: l => rfl
  | list l =>
      match l with
      | [] | [none] | [some a] | [none, b] | [some a, none] | [some a, some b] | none :: b :: c :: l | some a :: none :: c :: l | some a :: some b :: c :: l => rfl
  | _ => rfl

/-- Parameters whose values are taken as they are. -/
theorem asked_plain {k : Kind} {g : String} {kw : Kwargs} {name : String}
    (h : name ∉ ["kernel_size", "dilation_rate", "pool_size", "strides", "padding", "data_format", "activation",
      "units", "target_shape", "axis", "batch_input_shape"]) :
    asked k g kw name = .ok (value (documented k) kw name) := by
  simp only [List.mem_cons, List.not_mem_nil, or_false, not_or] at h
  obtain ⟨h1, h2, h3, h4, h5, h6, h7, h8, h9, h10, h11⟩ := h
  simp [asked, h1, h2, h3, h4, h5, h6, h7, h8, h9, h10, h11]

theorem asked_shape {k : Kind} {g : String} {kw : Kwargs} :
    asked k g kw "batch_input_shape" = .ok (batchOf kw) := by
  simp [asked]

end Verif.Keras.Args
