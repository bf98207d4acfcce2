import Verif.Keras.Metrics
import Verif.Keras.FitProps

/-!
# C106: evaluation reports the metrics that are asked for
-/

namespace Verif.Keras.Metrics

variable {X Y R : Type}

/-! ## Specification -/

/-- The metrics that exist. -/
def Supported (m : String) : Prop := m = "categorical_accuracy" ∨ m = "binary_accuracy"

/-- A dictionary that reports the metrics `ms`: distinct keys, each metric with its value on all labels and
predictions, and nothing else. -/
def Reports (ms : List String) (value : String → R) (d : List (String × R)) : Prop :=
  (d.map (·.1)).Nodup ∧ ∀ m v, (m, v) ∈ d ↔ m ∈ ms ∧ v = value m

/-! ## Lemmas -/

theorem mem_setKey (keys : List String) (m k : String) : k ∈ setKey keys m ↔ k ∈ keys ∨ k = m := by
  unfold setKey
  split
  · rename_i h
    exact ⟨.inl, fun h' => h'.elim id fun e => e ▸ h⟩
  · simp

theorem nodup_setKey {keys : List String} (h : keys.Nodup) (m : String) : (setKey keys m).Nodup := by
  unfold setKey
  split
  · exact h
  · rename_i hm
    rw [List.nodup_append]
    refine ⟨h, by simp, fun a ha b hb => ?_⟩
    rw [List.mem_singleton.1 hb]
    exact fun e => hm (e ▸ ha)

theorem collect_spec (ms : List String) :
    (collectKeys ms).Nodup ∧ ∀ k, k ∈ collectKeys ms ↔ k ∈ ms ∧ Supported k := by
  have key : ∀ (ms keys : List String), keys.Nodup →
      (ms.foldl (fun keys m =>
        let keys := if m = "categorical_accuracy" then setKey keys m else keys
        if m = "binary_accuracy" then setKey keys m else keys) keys).Nodup ∧
      ∀ k, k ∈ ms.foldl (fun keys m =>
        let keys := if m = "categorical_accuracy" then setKey keys m else keys
        if m = "binary_accuracy" then setKey keys m else keys) keys ↔
          k ∈ keys ∨ k ∈ ms ∧ Supported k := by
    intro ms
    induction ms with
    | nil => exact fun keys h => ⟨h, by simp⟩
    | cons m ms ih =>
      intro keys h
      rw [List.foldl_cons]
      by_cases h1 : m = "categorical_accuracy"
      · have h2 : m ≠ "binary_accuracy" := by rw [h1]; decide
        simp only [h1, if_true, show ("categorical_accuracy" : String) ≠ "binary_accuracy" by decide, if_false]
        obtain ⟨i1, i2⟩ := ih _ (nodup_setKey h "categorical_accuracy")
        refine ⟨i1, fun k => ?_⟩
        rw [i2, mem_setKey]
        simp only [List.mem_cons, Supported]
        tauto
      · by_cases h2 : m = "binary_accuracy"
        · simp only [h2, if_true, show ("binary_accuracy" : String) ≠ "categorical_accuracy" by decide, if_false]
          obtain ⟨i1, i2⟩ := ih _ (nodup_setKey h "binary_accuracy")
          refine ⟨i1, fun k => ?_⟩
          rw [i2, mem_setKey]
          simp only [List.mem_cons, Supported]
          tauto
        · simp only [h1, h2, if_false]
          obtain ⟨i1, i2⟩ := ih keys h
          refine ⟨i1, fun k => ?_⟩
          rw [i2]
          simp only [List.mem_cons, Supported]
          constructor
          · tauto
          · rintro (h | ⟨rfl | h, h'⟩)
            · exact .inl h
            · tauto
            · exact .inr ⟨h, h'⟩
  obtain ⟨h1, h2⟩ := key ms [] List.nodup_nil
  exact ⟨h1, fun k => by rw [collectKeys, h2]; simp⟩

theorem reports_keys (ms : List String) (value : String → R) :
    Reports (ms.filter fun m => decide (m = "categorical_accuracy" ∨ m = "binary_accuracy")) value
      ((collectKeys ms).map fun k => (k, value k)) := by
  obtain ⟨h1, h2⟩ := collect_spec ms
  refine ⟨by simpa [Function.comp_def] using h1, fun m v => ?_⟩
  rw [List.mem_map, List.mem_filter]
  constructor
  · rintro ⟨k, hk, e⟩
    cases e
    have := (h2 m).1 hk
    exact ⟨⟨this.1, by simpa [Supported] using this.2⟩, rfl⟩
  · rintro ⟨⟨hm, hs⟩, rfl⟩
    exact ⟨m, (h2 m).2 ⟨hm, by simpa [Supported] using hs⟩, rfl⟩

/-! ## Theorems -/

/-- **C106, every list of metrics.** `evaluate` reports those of the metrics asked for that exist, on all
samples, under the conditions of C64 (`evaluate_all_partial`). -/
theorem reports_supported (f : X → Y) (metric : String → List Y → List Y → R) {x : Data X} {y : Data Y}
    {k d : ℕ} {ds : List ℕ} (hk : 0 < k) (hx : x.rows ≠ []) (hd : x.sampleShape = d :: ds) (h0 : d ≠ 0)
    (hxy : x.rows.length = y.rows.length) (hc : nBatches x.rows.length k ≤ nBatches d k)
    {fuel : ℕ} (hf : d < fuel) (ms : List String) :
    ∃ r, evaluateAll (fun b => b.map f) metric x y (some k) none (some ms) fuel = some (.ok r) ∧
      Reports (ms.filter fun m => decide (m = "categorical_accuracy" ∨ m = "binary_accuracy"))
        (fun m => metric m y.rows (x.rows.map f)) r :=
  ⟨(collectKeys ms).map fun m => (m, metric m y.rows (x.rows.map f)),
    evaluate_all_partial f (fun t p => (collectKeys ms).map fun m => (m, metric m t p)) hk hx hd h0 hxy hc hf,
    reports_keys ms _⟩

/-- **C106, in part.** Missing: metrics that do not exist (`unknown_metric_false`), and what C64 lacks.

If all metrics asked for exist, `evaluate` reports each of them, once, with its value on all samples, and no
others. -/
theorem evaluate_reports_partial (f : X → Y) (metric : String → List Y → List Y → R) {x : Data X}
    {y : Data Y} {k d : ℕ} {ds : List ℕ} (hk : 0 < k) (hx : x.rows ≠ []) (hd : x.sampleShape = d :: ds)
    (h0 : d ≠ 0) (hxy : x.rows.length = y.rows.length) (hc : nBatches x.rows.length k ≤ nBatches d k)
    {fuel : ℕ} (hf : d < fuel) {ms : List String} (hm : ∀ m ∈ ms, Supported m) :
    ∃ r, evaluateAll (fun b => b.map f) metric x y (some k) none (some ms) fuel = some (.ok r) ∧
      Reports ms (fun m => metric m y.rows (x.rows.map f)) r := by
  obtain ⟨r, h1, h2⟩ := reports_supported f metric hk hx hd h0 hxy hc hf ms
  refine ⟨r, h1, ?_⟩
  rwa [List.filter_eq_self.2 fun m h => by simpa [Supported] using hm m h] at h2

/-- If no metrics are given, the result is empty, whatever the data. -/
theorem no_metrics (call : List X → List Y) (metric : String → List Y → List Y → R) (x : Data X) (y : Data Y)
    (size steps : Option ℕ) (fuel : ℕ) :
    evaluateAll call metric x y size steps none fuel = some (.ok []) := rfl

/-! ## A concrete case, and the negation -/

/-- The hypotheses of `evaluate_reports_partial` hold for two samples of two features in batches of two. -/
example : (∀ m ∈ ["binary_accuracy", "categorical_accuracy", "binary_accuracy"], Supported m) ∧
    evaluateAll (fun b => b.map (· + 1)) (fun m t p => (m.length, t, p)) ⟨[2], [1, 2]⟩ ⟨[1], [5, 6]⟩ (some 2)
      none (some ["binary_accuracy", "categorical_accuracy", "binary_accuracy"]) 9 =
      some (.ok [("binary_accuracy", 15, [5, 6], [2, 3]), ("categorical_accuracy", 20, [5, 6], [2, 3])]) := by
  exact ⟨by simp [Supported], rfl⟩

/-- **C106 is false for metrics that do not exist.** `evaluate(x, y, metrics=["accuracy"])` neither reports the
metric nor raises. -/
theorem unknown_metric_false : ¬ ∀ (ms : List String) (x y : Data ℕ) (r : List (String × ℕ)),
    evaluateAll (fun b => b) (fun _ _ _ => 0) x y (some 2) none (some ms) 9 = some (.ok r) →
    ∀ m ∈ ms, ∃ v, (m, v) ∈ r := by
  intro h
  obtain ⟨v, hv⟩ := h ["accuracy"] ⟨[2], [1, 2]⟩ ⟨[1], [5, 6]⟩ [] rfl "accuracy" (by simp)
  cases hv

end Verif.Keras.Metrics
