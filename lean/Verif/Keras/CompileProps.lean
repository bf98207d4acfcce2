import Verif.Keras.Compile

/-!
# C103: training follows the last `compile`
-/

namespace Verif.Keras.Compile

variable {σ : Type}

/-! ## Specification -/

/-- The layers a history has added, in their order. -/
def added : List (Call σ) → List ℕ
  | [] => []
  | .add l :: h => l :: added h
  | _ :: h => added h

/-- The call is no `fit`. -/
def NoFit : Call σ → Prop
  | .fit _ => False
  | _ => True

/-- What `compile` documents as an optimizer: one of the three names, a class or an instance. -/
def Valid : Ident → Prop
  | .none => False
  | .text s => s = "sgd" ∨ s = "amsgrad" ∨ s = "adam"
  | .cls => True
  | .inst _ => True

/-- The optimizer that is meant: the instance that was given, or a new one, which is not that of the model
and was not compiled with any layers. -/
def Means (m : Model σ) : Ident → ℕ → Prop
  | .inst k, k' => k' = k
  | _, k' => m.optimizer ≠ .inst k' ∧ m.keys k' = []

/-- The optimizers that a history uses exist before it: their numbers are below `n`. -/
def Exist (n : ℕ) (h : List (Call σ)) : Prop := ∀ k loss, Call.compile (.inst k) loss ∈ h → k < n

/-- The right step: the optimizer updates every layer once, from the last to the first, and the loss is
the one that was given. -/
def Right (k : ℕ) (layers : List ℕ) (loss : ℕ) (t : Step) : Prop :=
  t.updates = layers.reverse.map (fun l => (k, l)) ∧ t.loss = loss

/-- Training steps one after the other: the updates and outcomes. -/
def fits (debug : Bool) (dec : DecidableEq σ) (m : Model σ) :
    List σ → List (List (ℕ × ℕ) × Except Err Step)
  | [] => []
  | s :: ss => (m.fit debug dec s).2 :: fits debug dec (m.fit debug dec s).1 ss

/-! ## Lemmas -/

theorem backward_all (k : ℕ) (keys : ℕ → List ℕ) : ∀ ls : List ℕ, (∀ l ∈ ls, l ∈ keys k) →
    backward (.inst k) keys ls = (ls.map fun l => (k, l), .ok ())
  | [], _ => rfl
  | l :: ls, h => by
    have ih := backward_all k keys ls fun x hx => h x (List.mem_cons_of_mem _ hx)
    simp [backward, h l, ih]

theorem fitBatch_right {m : Model σ} {k loss : ℕ} (ho : m.optimizer = .inst k)
    (hl : m.loss = some loss) (hk : ∀ l ∈ m.layers, l ∈ m.keys k) :
    m.fitBatch = (m.layers.reverse.map fun l => (k, l),
      .ok ⟨m.layers.reverse.map fun l => (k, l), loss⟩) := by
  simp only [Model.fitBatch, hl, ho]
  rw [backward_all k m.keys _ fun l h => hk l (List.mem_reverse.1 h)]

/-- A model that is compiled. -/
structure Ready (k : ℕ) (layers : List ℕ) (loss : ℕ) (m : Model σ) : Prop where
  hopt : m.optimizer = .inst k
  hloss : m.loss = some loss
  hlayers : m.layers = layers
  hkeys : ∀ l ∈ layers, l ∈ m.keys k

/-- The graphs for these batches are all right. -/
def Traced (S : List σ) (k : ℕ) (layers : List ℕ) (loss : ℕ) (m : Model σ) : Prop :=
  ∀ f, ∀ s ∈ S, ∀ t, m.trainFn = some f → f s = some t → t = ⟨layers.reverse.map fun l => (k, l), loss⟩

theorem fit_ready (debug : Bool) (dec : DecidableEq σ) {m : Model σ} {k loss : ℕ} {layers : List ℕ}
    (h : Ready k layers loss m) {S : List σ}
    (ht : debug = true ∨ Traced S k layers loss m) {s : σ} (hS : s ∈ S) :
    (m.fit debug dec s).2 = (layers.reverse.map fun l => (k, l),
      .ok ⟨layers.reverse.map fun l => (k, l), loss⟩) ∧
    Ready k layers loss (m.fit debug dec s).1 ∧
    (debug = true ∨ Traced S k layers loss (m.fit debug dec s).1) := by
  obtain ⟨ho, hl, rfl, hk⟩ := h
  have hb : ({ m with trainFn := some (m.trainFn.getD fun _ => none) } : Model σ).fitBatch = _ :=
    fitBatch_right (k := k) (loss := loss) ho hl hk
  cases debug with
  | true => exact ⟨by simp [Model.fit, hb], ⟨ho, hl, rfl, hk⟩, .inl rfl⟩
  | false =>
    have ht : Traced S k m.layers loss m := by simpa using ht
    have ht' : ∀ s ∈ S, ∀ t, (m.trainFn.getD fun _ => none) s = some t →
        t = ⟨m.layers.reverse.map fun l => (k, l), loss⟩ := by
      intro s hS t e
      cases hf : m.trainFn with
      | none => simp [hf] at e
      | some f => rw [hf] at e; exact ht f s hS t hf e
    cases hs : (m.trainFn.getD fun _ => none) s with
    | some t =>
      obtain rfl := ht' s hS t hs
      have e : m.fit false dec s = ({ m with trainFn := some (m.trainFn.getD fun _ => none) },
          m.layers.reverse.map fun l => (k, l), .ok ⟨m.layers.reverse.map fun l => (k, l), loss⟩) := by
        simp only [Model.fit, hs]; simp
      rw [e]
      refine ⟨rfl, ⟨ho, hl, rfl, hk⟩, .inr ?_⟩
      intro f s' hS' t' hf e'
      cases hf
      exact ht' s' hS' t' e'
    | none =>
      have e : m.fit false dec s =
          ({ m with trainFn := some (Function.update (m.trainFn.getD fun _ => none) s
              (some ⟨m.layers.reverse.map fun l => (k, l), loss⟩)) },
            m.layers.reverse.map fun l => (k, l),
            .ok ⟨m.layers.reverse.map fun l => (k, l), loss⟩) := by
        simp only [Model.fit, hs, hb]; simp
      rw [e]
      refine ⟨rfl, ⟨ho, hl, rfl, hk⟩, .inr ?_⟩
      intro f s' hS' t' hf e'
      cases hf
      by_cases h : s' = s
      · subst h
        rw [Function.update_self] at e'
        exact (Option.some.inj e').symm
      · rw [Function.update_of_ne h] at e'
        exact ht' s' hS' t' e'

theorem fits_ready (debug : Bool) (dec : DecidableEq σ) {k loss : ℕ} {layers : List ℕ} :
    ∀ (ss : List σ) {m : Model σ}, Ready k layers loss m →
      (debug = true ∨ ∃ S, (∀ s ∈ ss, s ∈ S) ∧ Traced S k layers loss m) →
      fits debug dec m ss = ss.map fun _ => (layers.reverse.map fun l => (k, l),
        .ok ⟨layers.reverse.map fun l => (k, l), loss⟩)
  | [], _, _, _ => rfl
  | s :: ss, m, h, ht => by
    obtain ⟨S, hS, ht⟩ : ∃ S, (∀ x ∈ s :: ss, x ∈ S) ∧ (debug = true ∨ Traced S k layers loss m) := by
      rcases ht with ht | ⟨S, hS, ht⟩
      · exact ⟨s :: ss, fun _ h => h, .inl ht⟩
      · exact ⟨S, hS, .inr ht⟩
    obtain ⟨h1, h2, h3⟩ := fit_ready debug dec h ht (hS s List.mem_cons_self)
    rw [fits, h1, fits_ready debug dec ss h2
      (h3.imp id fun h3 => ⟨S, fun x hx => hS x (List.mem_cons_of_mem _ hx), h3⟩)]
    rfl

theorem call_layers (debug : Bool) (dec : DecidableEq σ) (m : Model σ) (c : Call σ) :
    (m.call debug dec c).layers = m.layers ++ added [c] := by
  cases c with
  | add l => rfl
  | compile o loss =>
    simp only [Model.call, Model.compile, added, List.append_nil]
    split
    · rfl
    · split <;> rfl
    · split <;> rfl
  | fit s =>
    simp only [Model.call, Model.fit, added, List.append_nil]
    split
    · rfl
    · split
      · rfl
      · split <;> rfl

theorem added_cons (c : Call σ) (h : List (Call σ)) : added (c :: h) = added [c] ++ added h := by
  cases c <;> rfl

theorem calls_layers (debug : Bool) (dec : DecidableEq σ) : ∀ (h : List (Call σ)) (m : Model σ),
    (m.calls debug dec h).layers = m.layers ++ added h
  | [], m => by simp [Model.calls, added]
  | c :: h, m => by
    have := calls_layers debug dec h (m.call debug dec c)
    rw [Model.calls, List.foldl_cons]
    rw [Model.calls] at this
    rw [this, call_layers, added_cons c h, List.append_assoc]

theorem call_trainFn (debug : Bool) (dec : DecidableEq σ) (m : Model σ) {c : Call σ} (hc : NoFit c) :
    (m.call debug dec c).trainFn = m.trainFn := by
  cases c with
  | add l => rfl
  | compile o loss =>
    simp only [Model.call, Model.compile]
    split
    · rfl
    · split <;> rfl
    · split <;> rfl
  | fit s => exact hc.elim

theorem calls_trainFn (debug : Bool) (dec : DecidableEq σ) : ∀ (h : List (Call σ)) (m : Model σ),
    (∀ c ∈ h, NoFit c) → (m.calls debug dec h).trainFn = m.trainFn
  | [], _, _ => rfl
  | c :: h, m, hc => by
    have := calls_trainFn debug dec h (m.call debug dec c) fun x hx => hc x (List.mem_cons_of_mem _ hx)
    rw [Model.calls, List.foldl_cons]
    rw [Model.calls] at this
    rw [this, call_trainFn debug dec m (hc c List.mem_cons_self)]

/-- No graph for batches of this kind. -/
def Untraced (s : σ) (m : Model σ) : Prop := ∀ f, m.trainFn = some f → f s = none

theorem call_untraced (debug : Bool) (dec : DecidableEq σ) {m : Model σ} {s : σ} {c : Call σ}
    (hm : Untraced s m) (hc : c ≠ .fit s) : Untraced s (m.call debug dec c) := by
  cases c with
  | add l => exact hm
  | compile o loss =>
    intro f hf
    rw [call_trainFn debug dec m (c := .compile o loss) trivial] at hf
    exact hm f hf
  | fit s' =>
    have hne : s ≠ s' := fun e => hc (by rw [e])
    have h0 : (m.trainFn.getD fun _ => none) s = none := by
      cases hf : m.trainFn with
      | none => rfl
      | some f => exact hm f hf
    intro f hf
    simp only [Model.call, Model.fit] at hf
    split at hf
    · cases hf; exact h0
    · split at hf
      · cases hf; exact h0
      · split at hf
        · cases hf; exact h0
        · cases hf
          rw [Function.update_of_ne hne]
          exact h0

theorem calls_untraced (debug : Bool) (dec : DecidableEq σ) {s : σ} : ∀ (h : List (Call σ)) {m : Model σ},
    Untraced s m → (∀ c ∈ h, c ≠ .fit s) → Untraced s (m.calls debug dec h)
  | [], _, hm, _ => hm
  | c :: h, _, hm, hc =>
    calls_untraced debug dec h (call_untraced debug dec hm (hc c List.mem_cons_self))
      fun x hx => hc x (List.mem_cons_of_mem _ hx)

/-- New optimizers are new. -/
structure New (n : ℕ) (m : Model σ) : Prop where
  hn : n ≤ m.fresh
  hk : ∀ k, m.fresh ≤ k → m.optimizer ≠ .inst k ∧ m.keys k = []

theorem fit_same (debug : Bool) (dec : DecidableEq σ) (m : Model σ) (s : σ) :
    (m.fit debug dec s).1.optimizer = m.optimizer ∧ (m.fit debug dec s).1.keys = m.keys ∧
      (m.fit debug dec s).1.fresh = m.fresh := by
  simp only [Model.fit]
  split
  · exact ⟨rfl, rfl, rfl⟩
  · split
    · exact ⟨rfl, rfl, rfl⟩
    · split <;> exact ⟨rfl, rfl, rfl⟩

theorem compile_new {n : ℕ} {m : Model σ} (h : New n m) (o : Ident) (loss : Option ℕ)
    (ho : ∀ k, o = .inst k → k < n) : New n (m.compile o loss).1 := by
  obtain ⟨hn, hk⟩ := h
  have key : ∀ k f, get m.fresh o = (.inst k, f) → m.fresh ≤ f → k < f →
      New n (m.compile o loss).1 := by
    intro k f e h1 h2
    simp only [Model.compile, e]
    split
    · exact ⟨Nat.le_trans hn h1, fun j hj => ⟨(fun e => by cases e; exact absurd h2 (by simpa using hj)),
        (hk j (Nat.le_trans h1 hj)).2⟩⟩
    · refine ⟨Nat.le_trans hn h1, fun j hj => ?_⟩
      have hne : j ≠ k := fun e => by subst e; exact absurd h2 (by simpa using hj)
      refine ⟨fun e => hne (by cases e; rfl), ?_⟩
      show Function.update m.keys k _ j = []
      rw [Function.update_of_ne hne]
      exact (hk j (Nat.le_trans h1 hj)).2
  cases o with
  | none => exact ⟨hn, fun j hj => ⟨(fun e => by cases e), (hk j hj).2⟩⟩
  | cls => exact key _ _ rfl (by omega) (by omega)
  | inst k =>
    have := ho k rfl
    exact key _ _ rfl (by omega) (by omega)
  | text s =>
    by_cases hs : s ∈ knownOptimizers
    · exact key m.fresh (m.fresh + 1) (by simp [get, hs]) (by omega) (by omega)
    · have e : get m.fresh (.text s) = (.text s, m.fresh) := by simp [get, hs]
      simp only [Model.compile, e]
      split <;> exact ⟨hn, fun j hj => ⟨(fun e => by cases e), (hk j hj).2⟩⟩

theorem calls_new (debug : Bool) (dec : DecidableEq σ) {n : ℕ} : ∀ (h : List (Call σ)) {m : Model σ},
    New n m → Exist n h → New n (m.calls debug dec h)
  | [], _, hm, _ => hm
  | c :: h, m, hm, he => by
    refine calls_new debug dec h (m := m.call debug dec c) ?_ fun k l hk =>
      he k l (List.mem_cons_of_mem _ hk)
    cases c with
    | add l => exact ⟨hm.hn, hm.hk⟩
    | compile o loss =>
      exact compile_new hm o loss fun k e => he k loss (by rw [e]; exact List.mem_cons_self)
    | fit s =>
      obtain ⟨h1, h2, h3⟩ := fit_same debug dec m s
      refine ⟨?_, fun k hk => ?_⟩
      · show n ≤ (m.fit debug dec s).1.fresh
        rw [h3]
        exact hm.hn
      · show (m.fit debug dec s).1.optimizer ≠ _ ∧ (m.fit debug dec s).1.keys k = _
        rw [h1, h2]
        exact hm.hk k (h3 ▸ hk)

theorem compile_ready {n : ℕ} {m : Model σ} (hm : New n m) {o : Ident} (ho : Valid o) (loss : ℕ) :
    ∃ k, Means m o k ∧ (m.compile o (some loss)).2 = .ok () ∧
      Ready k m.layers loss (m.compile o (some loss)).1 ∧
      (m.compile o (some loss)).1.trainFn = m.trainFn := by
  have key : ∀ k n, get m.fresh o = (.inst k, n) →
      (m.compile o (some loss)).2 = .ok () ∧
      Ready k m.layers loss (m.compile o (some loss)).1 ∧
      (m.compile o (some loss)).1.trainFn = m.trainFn := by
    intro k n e
    simp only [Model.compile, e]
    refine ⟨rfl, ⟨rfl, rfl, rfl, fun l hl => ?_⟩, rfl⟩
    simp [hl]
  cases o with
  | none => exact ho.elim
  | cls => exact ⟨_, hm.hk _ (Nat.le_refl _), key _ _ rfl⟩
  | inst k => exact ⟨_, rfl, key _ _ rfl⟩
  | text s =>
    refine ⟨_, hm.hk _ (Nat.le_refl _), key m.fresh (m.fresh + 1) ?_⟩
    have : s ∈ knownOptimizers := by simpa [knownOptimizers, Valid] using ho
    simp [get, this]

/-! ## Theorems -/

/-- **C103, in part.** Missing: outside of debug mode, batches of a shape that was trained before the last
`compile` (`recompile_ignored`).

A new model, any history of calls, of which any may have failed, and then a `compile` with a valid optimizer
and a loss: `compile` succeeds, and every step of every training that follows, on batches of any shapes (in
debug mode) or of any shapes that were not trained before, has the optimizer that was named update every
layer that was added once, from the last to the first, and uses the loss that was given. -/
theorem trains_as_compiled_partial (debug : Bool) (dec : DecidableEq σ) (n : ℕ) (h : List (Call σ))
    (he : Exist n h) {o : Ident} (ho : Valid o) (loss : ℕ) :
    let m := ({ fresh := n } : Model σ).calls debug dec h
    (m.compile o (some loss)).2 = .ok () ∧
    ∃ k, Means m o k ∧ ∀ ss : List σ, (debug = true ∨ ∀ s ∈ ss, Call.fit s ∉ h) →
      ∀ r ∈ fits debug dec (m.compile o (some loss)).1 ss,
        ∃ t, r = (t.updates, .ok t) ∧ Right k (added h) loss t := by
  intro m
  obtain ⟨k, hk, h1, h2, h3⟩ :=
    compile_ready (calls_new debug dec h (n := n) (m := { fresh := n })
      ⟨Nat.le_refl _, fun _ _ => ⟨(by simp), rfl⟩⟩ he) ho loss
  refine ⟨h1, k, hk, fun ss hf r hr => ?_⟩
  have hl : m.layers = added h := by
    have := calls_layers debug dec h ({ fresh := n } : Model σ)
    simpa using this
  rw [hl] at h2
  have ht : debug = true ∨ ∃ S, (∀ s ∈ ss, s ∈ S) ∧
      Traced S k (added h) loss (m.compile o (some loss)).1 := by
    refine hf.imp id fun hf => ⟨ss, fun _ h => h, fun f s hs t e e' => ?_⟩
    rw [h3] at e
    have hu : Untraced s m := calls_untraced debug dec h (fun f hf => by cases hf)
      fun c hc e => hf s hs (e ▸ hc)
    rw [hu f e] at e'
    cases e'
  rw [fits_ready debug dec ss h2 ht, List.mem_map] at hr
  obtain ⟨s, -, rfl⟩ := hr
  exact ⟨⟨(added h).reverse.map fun l => (k, l), loss⟩, rfl, rfl, rfl⟩

/-- **C103, all batches are trained.** There is one step for every batch. -/
theorem fits_length (debug : Bool) (dec : DecidableEq σ) : ∀ (ss : List σ) (m : Model σ),
    (fits debug dec m ss).length = ss.length
  | [], _ => rfl
  | s :: ss, m => by simp [fits, fits_length debug dec ss]

/-- **Compiling again has no effect on training.** Outside of debug mode, once a batch has been trained,
whatever layers are added and however the model is compiled after that, successfully or not, the next
batch of the same shape is trained in the same way: with the old optimizer, the old loss and the old
layers. -/
theorem recompile_ignored (dec : DecidableEq σ) (m : Model σ) (s : σ) (t : Step)
    (hfit : (m.fit false dec s).2.2 = .ok t) (h : List (Call σ)) (hf : ∀ c ∈ h, NoFit c) :
    (((m.fit false dec s).1.calls false dec h).fit false dec s).2 = (t.updates, .ok t) := by
  have key : ∃ f, (m.fit false dec s).1.trainFn = some f ∧ f s = some t := by
    cases hs : (m.trainFn.getD fun _ => none) s with
    | some t' =>
      simp only [Model.fit, hs] at hfit ⊢
      simp only [Bool.false_eq_true, if_false, Except.ok.injEq] at hfit ⊢
      exact ⟨_, rfl, by rw [hs, hfit]⟩
    | none =>
      rcases hb : ({ m with trainFn := some (m.trainFn.getD fun _ => none) } : Model σ).fitBatch
        with ⟨us, e | t'⟩
      · simp [Model.fit, hs, hb] at hfit
      · simp only [Model.fit, hs, hb] at hfit ⊢
        simp only [Bool.false_eq_true, if_false, Except.ok.injEq] at hfit ⊢
        exact ⟨_, rfl, by rw [Function.update_self, hfit]⟩
  obtain ⟨f, h1, h2⟩ := key
  have h3 := calls_trainFn false dec h (m.fit false dec s).1 hf
  rw [h1] at h3
  generalize (m.fit false dec s).1.calls false dec h = m' at h3 ⊢
  simp only [Model.fit, h3, Option.getD_some, h2]
  rfl

/-- A layer added after `compile` (one that the optimizer does not know from elsewhere): a step of a kind
that was not trained before, and in debug mode every step, raises `RuntimeError` before any layer is
updated. -/
theorem late_layer_raises (debug : Bool) (dec : DecidableEq σ) (m : Model σ) {k loss l : ℕ}
    (ho : m.optimizer = .inst k) (hl : m.loss = some loss) (hk : l ∉ m.keys k) (s : σ)
    (hs : debug = true ∨ ∀ f, m.trainFn = some f → f s = none) :
    ((m.add l).fit debug dec s).2 = ([], .error .runtime) := by
  have hb : ({ m.add l with trainFn := some ((m.add l).trainFn.getD fun _ => none) } : Model σ).fitBatch
      = ([], .error .runtime) := by
    simp [Model.fitBatch, Model.add, hl, ho, backward, hk]
  cases debug with
  | true => simp [Model.fit, hb]
  | false =>
    have hn : ((m.add l).trainFn.getD fun _ => none) s = none := by
      cases hf : m.trainFn with
      | none => simp [Model.add, hf]
      | some f =>
        have : f s = none := by simpa using hs.resolve_left (by simp) f hf
        simpa [Model.add, hf] using this
    simp only [Model.fit, hn, hb]
    rfl

/-- Outside of debug mode a training step that raises has updated no layer, whatever the model. -/
theorem failed_step_updates_nothing (dec : DecidableEq σ) (m : Model σ) (s : σ) {e : Err}
    (h : (m.fit false dec s).2.2 = .error e) : (m.fit false dec s).2.1 = [] := by
  revert h
  simp only [Model.fit]
  rw [if_neg (by simp)]
  split
  · exact fun h => by cases h
  · split
    · exact fun _ => rfl
    · exact fun h => by cases h

/-- A model that was never compiled cannot be trained: `AttributeError`, and no layer is updated. -/
theorem uncompiled_raises (debug : Bool) (dec : DecidableEq σ) (n : ℕ) (ls : List ℕ) (s : σ) :
    ((({ fresh := n } : Model σ).calls debug dec (ls.map .add)).fit debug dec s).2 =
      ([], .error .attribute) := by
  have key : ∀ (ls : List ℕ) (m : Model σ), m.loss = none → m.trainFn = none →
      (m.calls debug dec (ls.map .add)).loss = none ∧
        (m.calls debug dec (ls.map .add)).trainFn = none := by
    intro ls
    induction ls with
    | nil => exact fun m h1 h2 => ⟨h1, h2⟩
    | cons l ls ih => exact fun m h1 h2 => ih (m.add l) h1 h2
  obtain ⟨h1, h2⟩ := key ls { fresh := n } rfl rfl
  cases debug <;> simp [Model.fit, Model.fitBatch, h1, h2]

/-- What `compile` refuses: no optimizer or no loss is an `AssertionError`, another string an
`AttributeError`. -/
theorem compile_refuses (m : Model σ) (o : Ident) (loss : Option ℕ) :
    ((m.compile o loss).2 = .error .assertion ↔ o = .none ∨ loss = none) ∧
    ((m.compile o loss).2 = .error .attribute ↔ o ≠ .none ∧ loss ≠ none ∧ ¬ Valid o) := by
  cases loss <;> cases o <;> simp [Model.compile, get, Valid]
  all_goals
    rename_i s
    by_cases h : s ∈ knownOptimizers
    · have h' : s = "sgd" ∨ s = "amsgrad" ∨ s = "adam" := by simpa [knownOptimizers] using h
      simp [h]
      try tauto
    · have h' : ¬ (s = "sgd" ∨ s = "amsgrad" ∨ s = "adam") := by simpa [knownOptimizers] using h
      simp [h]
      try tauto

/-! ## Concrete cases, and the negations -/

/-- The hypotheses of `trains_as_compiled_partial` hold for two layers, after training on batches of
16, for batches of 32. -/
example : Valid (.text "sgd") ∧
    Exist 1 [Call.add 0, .compile (.inst 0) (some 3), .fit 16, .add 1] ∧
    (∀ s ∈ [32, 32], Call.fit s ∉ [Call.add 0, .compile (.inst 0) (some 3), .fit 16, .add 1]) ∧
    added [Call.add 0, .compile (.inst 0) (some 3), .fit 16, .add 1] =
      [0, 1] := by
  refine ⟨.inl rfl, fun k l h => ?_, by simp, rfl⟩
  simp at h
  omega

/-- The model of `recompile_false`: one layer, compiled with optimizer 0 and loss 7. -/
def trained : Model ℕ := (({ fresh := 5 } : Model ℕ).add 1 |>.compile (.inst 0) (some 7)).1

/-- The hypotheses of `recompile_ignored`, `late_layer_raises` hold for it. -/
example : (trained.fit false inferInstance 32).2.2 = .ok ⟨[(0, 1)], 7⟩ ∧
    trained.optimizer = .inst 0 ∧ trained.loss = some 7 ∧ 2 ∉ trained.keys 0 ∧
    ∀ f, trained.trainFn = some f → f 32 = none := by
  refine ⟨by decide, rfl, rfl, by decide, fun f h => by cases h⟩

/-- **C103 is false for compiling again after training.** The second optimizer and loss are not used,
although `compile` succeeds. -/
theorem recompile_false : ¬ ∀ (m : Model ℕ) (s : ℕ) (k loss : ℕ) (t : Step),
    ((m.fit false inferInstance s).1.compile (.inst k) (some loss)).2 = .ok () →
    (((m.fit false inferInstance s).1.compile (.inst k) (some loss)).1.fit false inferInstance s).2.2
      = .ok t → Right k m.layers loss t := by
  intro h
  have := (h trained 32 1 8 ⟨[(0, 1)], 7⟩ (by decide) (by decide)).2
  simp at this

/-- **In debug mode a step that raises may have updated layers.** A layer that is added a second time, after
another one that came too late, is updated before the exception. -/
theorem debug_partial_update_false : ¬ ∀ (h : List (Call ℕ)) (s : ℕ) (e : Err),
    ((({ fresh := 0 } : Model ℕ).calls true inferInstance h).fit true inferInstance s).2.2 = .error e →
    ((({ fresh := 0 } : Model ℕ).calls true inferInstance h).fit true inferInstance s).2.1 = [] := by
  intro h
  have := h [.add 0, .compile .cls (some 7), .add 1, .add 0] 32 .runtime (by decide)
  revert this
  decide

/-- **A `compile` that raises does not leave the model as it was.** After `compile("SGD", loss)`, which
raises, a model that could be trained cannot be. -/
theorem failed_compile_false : ¬ ∀ (m : Model ℕ) (o : Ident) (loss : Option ℕ) (s : ℕ) (t : Step),
    (m.fit false inferInstance s).2.2 = .ok t → (m.compile o loss).2 ≠ .ok () →
    ((m.compile o loss).1.fit false inferInstance s).2.2 = .ok t := by
  intro h
  have := h trained (.text "SGD") (some 7) 32 ⟨[(0, 1)], 7⟩ (by decide) (by decide)
  revert this
  decide

end Verif.Keras.Compile
