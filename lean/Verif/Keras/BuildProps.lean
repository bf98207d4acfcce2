import Verif.Keras.Build

/-!
# C105: a layer makes its weights once, and trains the weights it computes with
-/

namespace Verif.Keras.Build

/-! ## Specification -/

/-- The list of weights, which is what is trained, saved and loaded, consists of the weights that the layer
computes with, in their order, and nothing else. -/
def Consistent (n : ℕ) (l : Layer) : Prop := l.weights.map some = (List.range n).map l.attrs

/-- If the attempt fails, then before any weight is made. -/
def Early (a : Attempt) : Prop := ∀ j, a = .failsAt j → j = 0

/-! ## Lemmas -/

theorem create_fine {a : Attempt} : ∀ (todo i : ℕ) (l : Layer), (∀ j, i ≤ j → j < i + todo → a ≠ .failsAt j) →
    (create a todo i l).2 = true ∧ (create a todo i l).1.built = l.built ∧
    (create a todo i l).1.weights = l.weights ++ List.range' l.next todo ∧
    (∀ k, k < todo → (create a todo i l).1.attrs (i + k) = some (l.next + k)) ∧
    (∀ k, k < i → (create a todo i l).1.attrs k = l.attrs k)
  | 0, i, l, _ => ⟨rfl, rfl, by simp [create], fun k hk => absurd hk (by omega), fun _ _ => rfl⟩
  | todo + 1, i, l, h => by
    have h0 : a ≠ .failsAt i := h i (Nat.le_refl _) (by omega)
    obtain ⟨h1, h2, h3, h4, h5⟩ := create_fine todo (i + 1) (l.addWeight i)
      fun j hj hj' => h j (by omega) (by omega)
    have e : create a (todo + 1) i l = create a todo (i + 1) (l.addWeight i) := by
      rw [create, if_neg h0]
    rw [e]
    refine ⟨h1, h2, ?_, fun k hk => ?_, fun k hk => ?_⟩
    · rw [h3]
      simp [Layer.addWeight, List.range'_succ]
    · cases k with
      | zero =>
        simp only [Nat.add_zero]
        rw [h5 i (by omega)]
        simp [Layer.addWeight]
      | succ k =>
        have := h4 k (by omega)
        rw [show i + 1 + k = i + (k + 1) by omega] at this
        rw [this]
        simp only [Layer.addWeight]
        congr 1
        omega
    · rw [h5 k (by omega)]
      simp only [Layer.addWeight]
      rw [Function.update_of_ne (by omega)]

theorem create_zero {a : Attempt} (h : a = .failsAt 0) {n : ℕ} (hn : 0 < n) (l : Layer) :
    create a n 0 l = (l, false) := by
  cases n with
  | zero => omega
  | succ n => rw [create, if_pos h]

/-- What a call does to a layer that is not built yet and has no weights. -/
theorem call_first (n : ℕ) {l : Layer} (hb : l.built = false) (hw : l.weights = []) {a : Attempt}
    (ha : Early a) :
    ((l.call n a).2 = true ∧ (l.call n a).1.built = true ∧ Consistent n (l.call n a).1 ∧
      (l.call n a).1.weights.Nodup) ∨
    ((l.call n a).2 = false ∧ (l.call n a).1 = l) := by
  by_cases hs : a = .badShape
  · exact .inr (by simp [Layer.call, Layer.build, hb, hs])
  by_cases h0 : a = .failsAt 0 ∧ 0 < n
  · exact .inr (by simp [Layer.call, Layer.build, hb, hs, create_zero h0.1 h0.2])
  left
  obtain ⟨h1, -, h3, h4, -⟩ := create_fine (a := a) n 0 l fun j _ hj e => h0 (by
    obtain rfl := ha j e
    exact ⟨e, by omega⟩)
  rcases hc : create a n 0 l with ⟨l', b⟩
  rw [hc] at h1 h3 h4
  simp only at h1 h3 h4
  subst h1
  have e : l.call n a = ({ l' with built := true }, true) := by
    simp [Layer.call, Layer.build, hb, hs, hc]
  rw [e]
  rw [hw, List.nil_append] at h3
  refine ⟨rfl, rfl, ?_, ?_⟩
  · show l'.weights.map some = (List.range n).map l'.attrs
    rw [h3, List.range'_eq_map_range, List.map_map]
    refine List.map_congr_left fun k hk => ?_
    have := h4 k (List.mem_range.1 hk)
    rw [Nat.zero_add] at this
    rw [this]
    rfl
  · show l'.weights.Nodup
    rw [h3]
    exact List.nodup_range'

/-! ## Theorems -/

/-- **C105, built layers.** Once a layer is built, no call changes its weights or makes a variable, whatever
the shapes of its inputs. -/
theorem built_stays (n : ℕ) (l : Layer) (hb : l.built = true) (h : List Attempt) : l.calls n h = l := by
  induction h with
  | nil => rfl
  | cons a h ih =>
    have : (l.call n a).1 = l := by simp [Layer.call, hb]
    rw [Layer.calls, List.foldl_cons, this]
    exact ih

/-- **C105, in part.** Missing: calls that fail after a weight was made (`failed_build_false`).

Any calls of a new layer, of which any may fail before a weight is made: afterwards the layer is built
exactly if one of them succeeded; then its weights are those it computes with, each of them once; otherwise
it has none. -/
theorem weights_once_partial (n : ℕ) (h : List Attempt) (hh : ∀ a ∈ h, Early a) :
    ((({} : Layer).calls n h).built = true ∧ Consistent n (({} : Layer).calls n h) ∧
      (({} : Layer).calls n h).weights.Nodup) ∨
    ((({} : Layer).calls n h).built = false ∧ (({} : Layer).calls n h).weights = [] ∧
      ∀ a ∈ h, a ≠ .fine) := by
  have key : ∀ (h : List Attempt) (l : Layer), (∀ a ∈ h, Early a) → l.built = false → l.weights = [] →
      ((l.calls n h).built = true ∧ Consistent n (l.calls n h) ∧ (l.calls n h).weights.Nodup) ∨
      ((l.calls n h).built = false ∧ (l.calls n h).weights = [] ∧ ∀ a ∈ h, a ≠ .fine) := by
    intro h
    induction h with
    | nil => exact fun l _ hb hw => .inr ⟨hb, hw, by simp⟩
    | cons a h ih =>
      intro l hh hb hw
      have ec : l.calls n (a :: h) = (l.call n a).1.calls n h := rfl
      rw [ec]
      rcases call_first n hb hw (hh a List.mem_cons_self) with ⟨-, h2, h3, h4⟩ | ⟨h1, h2⟩
      · rw [built_stays n _ h2 h]
        exact .inl ⟨h2, h3, h4⟩
      · rw [h2]
        refine (ih l (fun x hx => hh x (List.mem_cons_of_mem _ hx)) hb hw).imp id ?_
        rintro ⟨k1, k2, k3⟩
        refine ⟨k1, k2, fun x hx => ?_⟩
        rcases List.mem_cons.1 hx with rfl | hx
        · rintro rfl
          obtain ⟨e, -, -, -, -⟩ := create_fine (a := .fine) n 0 l (by simp)
          rcases hc : create .fine n 0 l with ⟨l', b⟩
          rw [hc] at e
          simp only at e
          subst e
          simp [Layer.call, Layer.build, hb, hc] at h1
        · exact k3 x hx
  exact key h {} hh rfl rfl

/-! ## Concrete cases, and the negations -/

/-- A call with a wrong shape, one whose first initializer raises, and two that succeed. -/
example : (∀ a ∈ [Attempt.badShape, .failsAt 0, .fine, .fine], Early a) ∧
    (({} : Layer).calls 2 [.badShape, .failsAt 0, .fine, .fine]).weights = [0, 1] := by
  refine ⟨?_, by decide⟩
  simp [Early]

/-- **C105 is false for calls that fail between two weights.** If the initializer of the bias raises and the
layer is called again, successfully, then the first weight, which is the one that is trained, is not the
kernel that the layer computes with. -/
theorem failed_build_false : ¬ ∀ (n : ℕ) (h : List Attempt), (({} : Layer).calls n h).built = true →
    Consistent n (({} : Layer).calls n h) := by
  intro h
  have := h 2 [.failsAt 1, .fine] (by decide)
  revert this
  unfold Consistent
  decide

/-- **Calling `build` again makes the weights again.** A layer that is built by hand twice has every weight
twice, and computes with the second ones. -/
theorem build_twice_false : ¬ ∀ (n : ℕ) (l : Layer), l.built = true → Consistent n l →
    Consistent n (l.build n .fine).1 := by
  intro h
  have := h 2 (({} : Layer).calls 2 [.fine]) (by decide) (by unfold Consistent; decide)
  revert this
  unfold Consistent
  decide

end Verif.Keras.Build
