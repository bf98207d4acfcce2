import Verif.Keras.Names
import Mathlib.Data.Finset.Card
import Mathlib.Data.List.Nodup
import Mathlib.Tactic.Common

/-!
# Names of layers are unique
-/

namespace Verif.Keras.Names

/-! ## Names and numbers -/

theorem toList_numbered (b : String) (n : ℕ) :
    (numbered b n).toList = b.toList ++ '_' :: Nat.toDigits 10 n := by
  unfold numbered
  rw [String.toList_append, String.toList_append, Nat.toString_eq_repr, Nat.toList_repr, List.append_assoc]
  rfl

theorem digits_inj {a b : ℕ} (h : Nat.toDigits 10 a = Nat.toDigits 10 b) : a = b := by
  rw [← Nat.ofDigitChars_ten_toDigits (n := a), h, Nat.ofDigitChars_ten_toDigits]

/-- Splitting at the last underscore. -/
theorem split_last {l l' d d' : List Char} (hd : '_' ∉ d) (hd' : '_' ∉ d')
    (h : l ++ '_' :: d = l' ++ '_' :: d') : l = l' ∧ d = d' := by
  have h' := congrArg List.reverse h
  simp only [List.reverse_append, List.reverse_cons, List.append_assoc] at h'
  have key : ∀ {a a' r r' : List Char}, '_' ∉ a → '_' ∉ a' → a ++ '_' :: r = a' ++ '_' :: r' → a = a' ∧ r = r' := by
    intro a
    induction a with
    | nil =>
      intro a' r r' _ ha' e
      cases a' with
      | nil => exact ⟨rfl, (List.cons.inj e).2⟩
      | cons x a' =>
        have := (List.cons.inj e).1
        exact absurd (by rw [this]; exact List.mem_cons_self) ha'
    | cons x a ih =>
      intro a' r r' ha ha' e
      cases a' with
      | nil =>
        have := (List.cons.inj e).1
        exact absurd (by rw [← this]; exact List.mem_cons_self) ha
      | cons y a' =>
        obtain ⟨h1, h2⟩ := List.cons.inj e
        obtain ⟨h3, h4⟩ := ih (fun hm => ha (List.mem_cons_of_mem _ hm)) (fun hm => ha' (List.mem_cons_of_mem _ hm)) h2
        exact ⟨by rw [h1, h3], h4⟩
  obtain ⟨h1, h2⟩ := key (by simpa using hd) (by simpa using hd') h'
  exact ⟨List.reverse_injective h2, List.reverse_injective h1⟩

theorem numbered_inj {b b' : String} {n n' : ℕ} (h : numbered b n = numbered b' n') : b = b' ∧ n = n' := by
  have h' := congrArg String.toList h
  rw [toList_numbered, toList_numbered] at h'
  obtain ⟨h1, h2⟩ := split_last Nat.underscore_not_in_toDigits Nat.underscore_not_in_toDigits h'
  exact ⟨String.toList_inj.1 h1, digits_inj h2⟩

theorem numbered_ne (b : String) (n : ℕ) : numbered b n ≠ b := by
  intro h
  have := congrArg (fun s : String => s.toList.length) h
  simp only [toList_numbered, List.length_append, List.length_cons] at this
  omega

/-- The name with number `n`, counted from zero or one. -/
def nameOf (zero : Bool) (b : String) (n : ℕ) : String :=
  if zero then (if n ≠ 0 then numbered b n else b) else numbered b (n + 1)

theorem nameOf_inj {zero : Bool} {b : String} {n n' : ℕ} (h : nameOf zero b n = nameOf zero b n') : n = n' := by
  unfold nameOf at h
  cases zero with
  | false =>
    simp only [Bool.false_eq_true, if_false] at h
    have := (numbered_inj h).2
    omega
  | true =>
    simp only [if_true] at h
    by_cases h0 : n = 0 <;> by_cases h1 : n' = 0
    · rw [h0, h1]
    · rw [if_neg (by simpa using h0), if_pos h1] at h
      exact absurd h.symm (numbered_ne _ _)
    · rw [if_pos h0, if_neg (by simpa using h1)] at h
      exact absurd h (numbered_ne _ _)
    · rw [if_pos h0, if_pos h1] at h
      exact (numbered_inj h).2

/-- A base name that does not itself end in an underscore and a number. -/
def Plain (b : String) : Prop := ∀ c n, b ≠ numbered c n

theorem nameOf_base {zero : Bool} {b b' : String} (hb : Plain b) (hb' : Plain b') {n n' : ℕ}
    (h : nameOf zero b n = nameOf zero b' n') : b = b' := by
  unfold nameOf at h
  cases zero with
  | false =>
    simp only [Bool.false_eq_true, if_false] at h
    exact (numbered_inj h).1
  | true =>
    simp only [if_true] at h
    by_cases h0 : n = 0 <;> by_cases h1 : n' = 0
    · rwa [if_neg (by simpa using h0), if_neg (by simpa using h1)] at h
    · rw [if_neg (by simpa using h0), if_pos h1] at h
      exact absurd h (hb _ _)
    · rw [if_pos h0, if_neg (by simpa using h1)] at h
      exact absurd h.symm (hb' _ _)
    · rw [if_pos h0, if_pos h1] at h
      exact (numbered_inj h).1

/-! ## The loop -/

theorem propose_eq (zero : Bool) (k : Key) (u : Uids) :
    propose zero k u = (nameOf zero k.2 (u k), bump u k) := by
  unfold propose nameOf
  cases zero <;> simp [bump]

theorem bump_self (u : Uids) (k : Key) : bump u k k = u k + 1 := by simp [bump]

theorem bump_le (u : Uids) (k k' : Key) : u k' ≤ bump u k k' := by
  unfold bump
  split
  · rename_i h
    rw [h]
    omega
  · exact le_rfl

/-- What a call that returns has done. -/
theorem search_some {zero : Bool} {avoid : List String} {k : Key} {f : ℕ} {u u' : Uids} {s : String}
    (h : search zero avoid k f u = some (s, u')) :
    s ∉ avoid ∧ (∃ n, u k ≤ n ∧ n < u' k ∧ s = nameOf zero k.2 n) ∧ ∀ k', u k' ≤ u' k' := by
  induction f generalizing u with
  | zero => simp [search] at h
  | succ f ih =>
    simp only [search, propose_eq] at h
    split at h
    · obtain ⟨h1, ⟨n, h2, h3, h4⟩, h5⟩ := ih h
      refine ⟨h1, ⟨n, ?_, h3, h4⟩, fun k' => (bump_le u k k').trans (h5 k')⟩
      rw [bump_self] at h2
      omega
    · rename_i hn
      simp only [Option.some.injEq, Prod.mk.injEq] at h
      obtain ⟨rfl, rfl⟩ := h
      exact ⟨hn, ⟨u k, le_rfl, by rw [bump_self]; omega, rfl⟩, bump_le u k⟩

theorem search_none {zero : Bool} {avoid : List String} {k : Key} {f : ℕ} {u : Uids}
    (h : search zero avoid k f u = none) : ∀ i < f, nameOf zero k.2 (u k + i) ∈ avoid := by
  induction f generalizing u with
  | zero => intro i hi; omega
  | succ f ih =>
    simp only [search, propose_eq] at h
    split at h
    · rename_i hm
      intro i hi
      cases i with
      | zero => exact hm
      | succ i =>
        have := ih h i (by omega)
        rw [bump_self] at this
        rwa [show u k + (i + 1) = u k + 1 + i by omega]
    · exact absurd h (by simp)

theorem search_more {zero : Bool} {avoid : List String} {k : Key} {f : ℕ} {u : Uids} {r : String × Uids}
    (h : search zero avoid k f u = some r) (g : ℕ) : search zero avoid k (f + g) u = some r := by
  induction f generalizing u with
  | zero => simp [search] at h
  | succ f ih =>
    rw [show f + 1 + g = (f + g) + 1 by omega]
    simp only [search] at h ⊢
    split at h
    · rename_i hm
      rw [if_pos hm]
      exact ih h
    · rename_i hm
      rw [if_neg hm]
      exact h

/-- **C93**: the loop ends, for every set of names to avoid and every state of the counters, after at most
one pass more than there are names to avoid; further passes would change nothing. -/
theorem search_returns (zero : Bool) (avoid : List String) (k : Key) (u : Uids) :
    ∃ r, uniqueName zero avoid k u = some r ∧ ∀ g, search zero avoid k (avoid.length + 1 + g) u = some r := by
  unfold uniqueName
  cases h : search zero avoid k (avoid.length + 1) u with
  | some r => exact ⟨r, rfl, search_more h⟩
  | none =>
    exfalso
    have hm := search_none h
    have hc : (Finset.range (avoid.length + 1)).card ≤ avoid.toFinset.card :=
      Finset.card_le_card_of_injOn (fun i => nameOf zero k.2 (u k + i))
        (fun i hi => by simpa using hm i (Finset.mem_range.1 hi))
        (fun i _ j _ e => by
          have := nameOf_inj e
          omega)
    rw [Finset.card_range] at hc
    have := avoid.toFinset_card_le
    omega

/-! ## Histories -/

/-- **C93**: the names that `unique_object_name` returns in a history of calls that all count from zero,
or all from one: none is one of those to avoid in its call, and two names of the same namespace differ if
their bases are the same or neither base ends in an underscore and a number. -/
theorem names_unique (zero : Bool) (calls : List (Key × List String)) (u : Uids) :
    ∃ names, callAll zero calls u = some names ∧ names.length = calls.length ∧
      (∀ x ∈ calls.zip names, x.2 ∉ x.1.2) ∧
      (calls.zip names).Pairwise fun x y => x.1.1.1 = y.1.1.1 →
        (x.1.1.2 = y.1.1.2 ∨ (Plain x.1.1.2 ∧ Plain y.1.1.2)) → x.2 ≠ y.2 := by
  suffices H : ∃ names, callAll zero calls u = some names ∧ names.length = calls.length ∧
      (∀ x ∈ calls.zip names, x.2 ∉ x.1.2 ∧ ∃ n, u x.1.1 ≤ n ∧ x.2 = nameOf zero x.1.1.2 n) ∧
      (calls.zip names).Pairwise fun x y => x.1.1.1 = y.1.1.1 →
        (x.1.1.2 = y.1.1.2 ∨ (Plain x.1.1.2 ∧ Plain y.1.1.2)) → x.2 ≠ y.2 by
    obtain ⟨names, h1, h2, h3, h4⟩ := H
    exact ⟨names, h1, h2, fun x hx => (h3 x hx).1, h4⟩
  induction calls generalizing u with
  | nil => exact ⟨[], rfl, rfl, by simp, by simp⟩
  | cons a calls ih =>
    obtain ⟨k, avoid⟩ := a
    obtain ⟨⟨s, u'⟩, hr, -⟩ := search_returns zero avoid k u
    obtain ⟨names, h1, h2, h3, h4⟩ := ih u'
    obtain ⟨g1, ⟨n, g2, g3, g4⟩, g5⟩ := search_some hr
    refine ⟨s :: names, ?_, by simp [h2], ?_, ?_⟩
    · simp only [callAll, hr, h1]
    · intro x hx
      simp only [List.zip_cons_cons, List.mem_cons] at hx
      rcases hx with rfl | hx
      · exact ⟨g1, n, g2, g4⟩
      · obtain ⟨p1, m, p2, p3⟩ := h3 x hx
        exact ⟨p1, m, (g5 _).trans p2, p3⟩
    · rw [List.zip_cons_cons, List.pairwise_cons]
      refine ⟨fun y hy hns hb => ?_, h4⟩
      obtain ⟨-, m, p2, p3⟩ := h3 y hy
      simp only at hns hb ⊢
      rw [g4, p3]
      intro e
      have hbase : k.2 = y.1.1.2 := by
        rcases hb with hb | ⟨hb, hb'⟩
        · exact hb
        · exact nameOf_base hb hb' e
      rw [← hbase] at e
      have hkey : y.1.1 = k := Prod.ext hns.symm hbase.symm
      rw [hkey] at p2
      have := nameOf_inj e
      omega

/-- Is the layer named automatically? It is when no name is given. Input layers and sequential models
always are (`input_name_false`, `model_name_false`). -/
def Automatic (x : LayerClass × Option String) : Prop :=
  (x.1 = .inputLayer ∨ x.1 = .sequential) ∨ x.2 = none ∨ x.2 = some ""

theorem passesName_iff (c : LayerClass) : c.passesName = false ↔ c = .inputLayer ∨ c = .sequential := by
  cases c <;> simp [LayerClass.passesName]

theorem plain_of_last {b : String} (c : Char) (h : b.toList.getLast? = some c) (hc : c.isDigit = false) :
    Plain b := by
  rintro d n rfl
  rw [toList_numbered] at h
  have hne := Nat.toDigits_ne_nil (n := n) (b := 10)
  have hmem : c ∈ Nat.toDigits 10 n := by
    rw [List.getLast?_append, List.getLast?_cons] at h
    simp only [Option.some_or, Option.some.injEq] at h
    have : (Nat.toDigits 10 n).getLast? = some c := by
      rw [List.getLast?_eq_some_getLast hne]
      rw [List.getLast?_eq_some_getLast hne] at h
      simpa using h
    exact List.mem_of_getLast? this
  rw [Nat.isDigit_of_mem_toDigits (by decide) (by decide) hmem] at hc
  cases hc

/-- The classes of the library. -/
def LayerClass.Library (c : LayerClass) : Prop := ∀ s, c ≠ .user s

theorem library_plain {c : LayerClass} (h : c.Library) : Plain c.snake := by
  cases c with
  | user s => exact absurd rfl (h s)
  | activation => exact plain_of_last 'n' (by decide +kernel) (by decide)
  | conv2d => exact plain_of_last 'd' (by decide +kernel) (by decide)
  | depthwiseConv2d => exact plain_of_last 'd' (by decide +kernel) (by decide)
  | dense => exact plain_of_last 'e' (by decide +kernel) (by decide)
  | flatten => exact plain_of_last 'n' (by decide +kernel) (by decide)
  | batchNormalization => exact plain_of_last 'n' (by decide +kernel) (by decide)
  | maxPooling2d => exact plain_of_last 'd' (by decide +kernel) (by decide)
  | averagePooling2d => exact plain_of_last 'd' (by decide +kernel) (by decide)
  | globalAveragePooling2d => exact plain_of_last 'd' (by decide +kernel) (by decide)
  | globalMaxPooling2d => exact plain_of_last 'd' (by decide +kernel) (by decide)
  | relu => exact plain_of_last 'u' (by decide +kernel) (by decide)
  | reshape => exact plain_of_last 'e' (by decide +kernel) (by decide)
  | inputLayer => exact plain_of_last 'r' (by decide +kernel) (by decide)
  | sequential => exact plain_of_last 'l' (by decide +kernel) (by decide)

theorem create_automatic {c : LayerClass} {name : Option String} (h : Automatic (c, name)) (u : Uids) :
    create c name u = uniqueName true [] ("", c.snake) u := by
  unfold create initName
  rcases h with h | h | h
  · simp only at h
    rw [(passesName_iff c).2 h]
    rfl
  · simp only at h
    subst h
    split <;> rfl
  · simp only at h
    subst h
    split <;> simp

theorem create_given {c : LayerClass} {s : String} (hc : ¬ (c = .inputLayer ∨ c = .sequential)) (hs : s ≠ "")
    (u : Uids) : create c (some s) u = some (s, u) := by
  unfold create initName
  have hp : c.passesName = true := by
    rw [← passesName_iff] at hc
    simpa using hc
  rw [hp, if_pos rfl]
  exact if_neg hs

theorem create_some (c : LayerClass) (name : Option String) (u : Uids) :
    ∃ s u', create c name u = some (s, u') ∧ (∀ k, u k ≤ u' k) ∧
      (Automatic (c, name) → ∃ n, u ("", c.snake) ≤ n ∧ n < u' ("", c.snake) ∧ s = nameOf true c.snake n) ∧
      (¬ Automatic (c, name) → name = some s) := by
  by_cases h : Automatic (c, name)
  · rw [create_automatic h]
    obtain ⟨⟨s, u'⟩, hr, -⟩ := search_returns true [] ("", c.snake) u
    obtain ⟨-, g, g5⟩ := search_some hr
    exact ⟨s, u', hr, g5, fun _ => g, fun hn => absurd h hn⟩
  · have hc : ¬ (c = .inputLayer ∨ c = .sequential) := fun hc => h (.inl hc)
    cases name with
    | none => exact absurd (.inr (.inl rfl)) h
    | some s =>
      have hs : s ≠ "" := fun hs => h (.inr (.inr (by rw [hs])))
      exact ⟨s, u, create_given hc hs u, fun _ => le_rfl, fun hn => absurd hn h, fun _ => rfl⟩

/-- **C93**: in every history of layers of the library, from every state of the counters, layers that are
not given a name, input layers and models have names that differ from each other, and other layers that
are given a name have that name. -/
theorem layer_names_partial (layers : List (LayerClass × Option String)) (u : Uids)
    (hl : ∀ x ∈ layers, x.1.Library) :
    ∃ names, createAll layers u = some names ∧ names.length = layers.length ∧
      (layers.zip names).Pairwise (fun x y => Automatic x.1 → Automatic y.1 → x.2 ≠ y.2) ∧
      ∀ x ∈ layers.zip names, ¬ Automatic x.1 → x.1.2 = some x.2 := by
  suffices H : ∃ names, createAll layers u = some names ∧ names.length = layers.length ∧
      (layers.zip names).Pairwise (fun x y => Automatic x.1 → Automatic y.1 → x.2 ≠ y.2) ∧
      ∀ x ∈ layers.zip names, (¬ Automatic x.1 → x.1.2 = some x.2) ∧
        (Automatic x.1 → ∃ n, u ("", x.1.1.snake) ≤ n ∧ x.2 = nameOf true x.1.1.snake n) by
    obtain ⟨names, h1, h2, h3, h4⟩ := H
    exact ⟨names, h1, h2, h3, fun x hx => (h4 x hx).1⟩
  induction layers generalizing u with
  | nil => exact ⟨[], rfl, rfl, by simp, by simp⟩
  | cons a layers ih =>
    obtain ⟨c, name⟩ := a
    obtain ⟨s, u', hr, g5, g2, g3⟩ := create_some c name u
    obtain ⟨names, h1, h2, h3, h4⟩ := ih u' fun x hx => hl x (List.mem_cons_of_mem _ hx)
    refine ⟨s :: names, ?_, by simp [h2], ?_, ?_⟩
    · simp only [createAll, hr, h1]
    · rw [List.zip_cons_cons, List.pairwise_cons]
      refine ⟨fun y hy ha hb e => ?_, h3⟩
      obtain ⟨n, -, q2, q3⟩ := g2 ha
      obtain ⟨m, p2, p3⟩ := (h4 y hy).2 hb
      simp only at e
      rw [q3, p3] at e
      have hlib : y.1.1.Library := hl y.1 (List.mem_cons_of_mem _ (List.of_mem_zip hy).1)
      have hbase := nameOf_base (library_plain (hl _ List.mem_cons_self)) (library_plain hlib) e
      simp only at hbase
      rw [← hbase] at e p2
      have := nameOf_inj e
      omega
    · intro x hx
      simp only [List.zip_cons_cons, List.mem_cons] at hx
      rcases hx with rfl | hx
      · refine ⟨g3, fun ha => ?_⟩
        obtain ⟨n, q1, -, q3⟩ := g2 ha
        exact ⟨n, q1, q3⟩
      · obtain ⟨p1, p2⟩ := h4 x hx
        refine ⟨p1, fun ha => ?_⟩
        obtain ⟨m, p2, p3⟩ := p2 ha
        exact ⟨m, (g5 _).trans p2, p3⟩

/-! ## Names that are not unique -/

/-- A given name is not taken into account: the second layer without a name gets it again. -/
theorem given_name_false : createAll [(.dense, some "dense_1"), (.dense, none), (.dense, none)] (fun _ => 0) =
    some ["dense_1", "dense", "dense_1"] := by decide +kernel

/-- A class whose name ends in a number collides with the numbering of another one. -/
theorem class_name_false :
    createAll [(.dense, none), (.dense, none), (.user "dense_1", none)] (fun _ => 0) =
      some ["dense", "dense_1", "dense_1"] := by decide +kernel

/-- Counting from zero and from one share a counter but not the numbers. -/
theorem mixed_false : ∃ u u' : Uids, uniqueName true [] ("", "dense") (fun _ => 0) = some ("dense", u) ∧
    uniqueName false [] ("", "dense") u = some ("dense_2", u') ∧
    (uniqueName true [] ("", "dense") u').map (·.1) = some "dense_2" := by
  refine ⟨bump (fun _ => 0) ("", "dense"), bump (bump (fun _ => 0) ("", "dense")) ("", "dense"), ?_, ?_, ?_⟩
  · have h : nameOf true "dense" 0 = "dense" := by decide +kernel
    simp [uniqueName, search, propose_eq, h]
  · have h : nameOf false "dense" 1 = "dense_2" := by decide +kernel
    simp [uniqueName, search, propose_eq, bump_self, h]
  · decide +kernel

/-- The name given to an input layer is lost. -/
theorem input_name_false (s : String) : createAll [(.inputLayer, some s)] (fun _ => 0) = some ["input_layer"] := by
  unfold createAll
  rw [create_automatic (.inl (.inl rfl))]
  decide +kernel

/-- The name given to a model is lost. -/
theorem model_name_false (s : String) : createAll [(.sequential, some s)] (fun _ => 0) = some ["sequential"] := by
  unfold createAll
  rw [create_automatic (.inl (.inr rfl))]
  decide +kernel

/-- A history that meets the hypotheses. -/
example : createAll [(.conv2d, none), (.relu, none), (.conv2d, none), (.dense, some "out"), (.relu, none)] (fun _ => 0) =
    some ["conv2d", "re_lu", "conv2d_1", "out", "re_lu_1"] := by decide +kernel

end Verif.Keras.Names
