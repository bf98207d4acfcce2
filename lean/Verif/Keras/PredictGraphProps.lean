import Verif.Keras.PredictGraph

/-!
# C104: predictions go through all layers of the model
-/

namespace Verif.Keras.PredictGraph

variable {σ : Type}

/-! ## Specification -/

/-- The layers a history has added, in their order. -/
def added : List (Call σ) → List ℕ
  | [] => []
  | .add l :: h => l :: added h
  | .predict _ :: h => added h

/-- All predictions of a history on batches of this kind come after the last layer: `h` is a part without
such predictions, followed by one without new layers. -/
def Settled (h : List (Call σ)) (s : σ) : Prop :=
  ∃ h₁ h₂, h = h₁ ++ h₂ ∧ Call.predict s ∉ h₁ ∧ added h₂ = []

/-! ## Lemmas -/

theorem through_eq : ∀ ls : List ℕ, through ls = ls
  | [] => rfl
  | l :: ls => by rw [through, through_eq ls]

theorem added_append : ∀ h h' : List (Call σ), added (h ++ h') = added h ++ added h'
  | [], _ => rfl
  | .add l :: h, h' => by simp [added, added_append h h']
  | .predict s :: h, h' => by simp [added, added_append h h']

theorem predict_layers (debug : Bool) (dec : DecidableEq σ) (m : Model σ) (s : σ) :
    (m.predict debug dec s).1.layers = m.layers := by
  simp only [Model.predict]
  split
  · rfl
  · split <;> rfl

theorem call_layers (debug : Bool) (dec : DecidableEq σ) (m : Model σ) (c : Call σ) :
    (m.call debug dec c).layers = m.layers ++ added [c] := by
  cases c with
  | add l => rfl
  | predict s => simp [Model.call, predict_layers, added]

theorem calls_layers (debug : Bool) (dec : DecidableEq σ) : ∀ (h : List (Call σ)) (m : Model σ),
    (m.calls debug dec h).layers = m.layers ++ added h
  | [], m => by simp [Model.calls, added]
  | c :: h, m => by
    have := calls_layers debug dec h (m.call debug dec c)
    rw [Model.calls, List.foldl_cons]
    rw [Model.calls] at this
    rw [this, call_layers, List.append_assoc, ← added_append [c] h]
    rfl

/-- The graph for a kind of batch. -/
def Model.graph (m : Model σ) (s : σ) : Option (List ℕ) := (m.fn.getD fun _ => none) s

theorem graph_call (dec : DecidableEq σ) (m : Model σ) (c : Call σ) (s : σ) :
    (m.call false dec c).graph s =
      match m.graph s with
      | some t => some t
      | none => if c = .predict s then some m.layers else none := by
  cases c with
  | add l =>
    show m.graph s = _
    cases m.graph s <;> simp
  | predict s' =>
    cases hs : m.graph s' with
    | some t =>
      have e : (m.call false dec (.predict s')).graph s = m.graph s := by
        unfold Model.graph at hs
        simp only [Model.call, Model.predict, hs, Model.graph]
        rfl
      rw [e]
      cases hs' : m.graph s with
      | some t' => rfl
      | none =>
        have : s' ≠ s := fun h => by rw [h, hs'] at hs; cases hs
        simp [this]
    | none =>
      have e : (m.call false dec (.predict s')).graph s =
          Function.update (m.fn.getD fun _ => none) s' (some m.layers) s := by
        unfold Model.graph at hs
        simp only [Model.call, Model.predict, hs, Model.graph, through_eq]
        rfl
      rw [e]
      by_cases h : s = s'
      · subst h
        rw [Function.update_self, hs]
        simp
      · rw [Function.update_of_ne h]
        show m.graph s = _
        have : s' ≠ s := fun e => h e.symm
        cases m.graph s <;> simp [this]

theorem graph_kept (dec : DecidableEq σ) {s : σ} {t : List ℕ} : ∀ (h : List (Call σ)) {m : Model σ},
    m.graph s = some t → (m.calls false dec h).graph s = some t
  | [], _, hm => hm
  | c :: h, m, hm => graph_kept dec h (by rw [graph_call, hm])

theorem graph_none (dec : DecidableEq σ) {s : σ} : ∀ (h : List (Call σ)) {m : Model σ},
    m.graph s = none → Call.predict s ∉ h → (m.calls false dec h).graph s = none
  | [], _, hm, _ => hm
  | c :: h, m, hm, hc => by
    refine graph_none dec h ?_ fun h' => hc (List.mem_cons_of_mem _ h')
    rw [graph_call, hm]
    have : c ≠ .predict s := fun e => hc (e ▸ List.mem_cons_self)
    simp [this]

theorem predict_eq (dec : DecidableEq σ) (m : Model σ) (s : σ) :
    (m.predict false dec s).2 = (m.graph s).getD m.layers := by
  cases hs : m.graph s with
  | some t =>
    unfold Model.graph at hs
    simp only [Model.predict, hs]
    rfl
  | none =>
    unfold Model.graph at hs
    simp only [Model.predict, hs, through_eq]
    rfl

theorem calls_append (debug : Bool) (dec : DecidableEq σ) (m : Model σ) (h h' : List (Call σ)) :
    m.calls debug dec (h ++ h') = (m.calls debug dec h).calls debug dec h' :=
  List.foldl_append

/-! ## Theorems -/

/-- **C104, which layers are used.** Outside of debug mode a batch goes through the layers that the model
had when the first batch of its shape was predicted, for every history of the model. -/
theorem predict_first (dec : DecidableEq σ) (h h' : List (Call σ)) (s : σ)
    (hs : Call.predict s ∉ h) :
    ((({} : Model σ).calls false dec (h ++ .predict s :: h')).predict false dec s).2 = added h := by
  have h0 : (({} : Model σ).calls false dec h).graph s = none := graph_none dec h rfl hs
  have h1 : ((({} : Model σ).calls false dec h).call false dec (.predict s)).graph s =
      some (added h) := by
    rw [graph_call, h0, calls_layers]
    simp
  have h2 : (({} : Model σ).calls false dec (h ++ .predict s :: h')).graph s = some (added h) := by
    rw [calls_append]
    exact graph_kept dec h' h1
  rw [predict_eq, h2]
  rfl

/-- **C104, in part.** Missing: outside of debug mode, models that get layers after a prediction on a batch
of the same shape (`predict_first`).

Every batch goes through all layers that were added, once and in their order. -/
theorem predicts_all_partial (debug : Bool) (dec : DecidableEq σ) (h : List (Call σ)) (s : σ)
    (hs : debug = true ∨ Settled h s) :
    ((({} : Model σ).calls debug dec h).predict debug dec s).2 = added h := by
  cases debug with
  | true =>
    have := calls_layers true dec h ({} : Model σ)
    simp only [Model.predict, through_eq, if_true, this]
    rfl
  | false =>
    obtain ⟨h₁, h₂, rfl, h3, h4⟩ : Settled h s := by simpa using hs
    rw [added_append, h4, List.append_nil]
    by_cases hm : Call.predict s ∈ h₂
    · obtain ⟨a, b, rfl, ha⟩ := List.eq_append_cons_of_mem hm
      have := predict_first dec (h₁ ++ a) b s (by simp [h3, ha])
      rw [List.append_assoc] at this
      rw [this, added_append]
      rw [added_append] at h4
      simp [(List.append_eq_nil_iff.1 h4).1]
    · rw [predict_eq, graph_none dec (h₁ ++ h₂) rfl (by simp [h3, hm]), calls_layers, added_append, h4]
      simp

/-! ## Concrete cases, and the negation -/

/-- Two layers, a prediction on another shape in between, and one on the same shape afterwards. -/
example : Settled [Call.add 0, .predict 16, .add 1, .predict 32] 32 :=
  ⟨[.add 0, .predict 16, .add 1], [.predict 32], rfl, by simp, rfl⟩

example : Call.predict 32 ∉ [Call.add 0, .predict 16] := by simp

/-- **C104 is false for models that get a layer after a prediction.** The next prediction does not go through
the new layer. -/
theorem late_layer_false : ¬ ∀ (h : List (Call ℕ)) (s : ℕ),
    ((({} : Model ℕ).calls false inferInstance h).predict false inferInstance s).2 = added h := by
  intro hall
  have h1 := hall [.add 0, .predict 32, .add 1] 32
  have h2 := predict_first (inferInstance : DecidableEq ℕ) [.add 0] [.add 1] 32 (by simp)
  rw [show [Call.add 0, .predict 32, .add 1] = [Call.add 0] ++ .predict 32 :: [.add 1] from rfl, h2] at h1
  simp [added] at h1

end Verif.Keras.PredictGraph
