import Verif.Keras.Fit
import Mathlib.Tactic.Ring
import Mathlib.Algebra.Order.Floor.Div

/-!
# Lemmas about the loops
-/

namespace Verif.Keras

variable {B S W X Y : Type}

/-- From state `s` the iterator produces the elements of the list and is then in state `s'`. -/
def Yields (next : S → Except LoopErr (Option (B × S))) : S → List B → S → Prop
  | s, [], s' => s = s'
  | s, b :: t, s' => ∃ s₁, next s = .ok (some (b, s₁)) ∧ Yields next s₁ t s'

/-- The batches that one epoch takes from an iterator that still has `r`. -/
def quota (steps : Option ℕ) (index len : ℕ) : ℕ :=
  match steps with
  | none => len
  | some k => max 1 (k - index)

theorem epochLoop_yields {next : S → Except LoopErr (Option (B × S))} {step : W → B → Except LoopErr W}
    {steps : Option ℕ} {s' : S} (hend : next s' = .ok none) :
    ∀ {bs : List B} {s : S} {fuel index len : ℕ} (w : W), Yields next s bs s' → bs.length < fuel →
      bs.length ≤ len → ∃ s'', Yields next s'' (bs.drop (quota steps index len)) s' ∧
        epochLoop next step steps fuel index s w =
          some (((bs.take (quota steps index len)).foldlM step w).map fun w' => (w', s'')) := by
  intro bs
  induction bs with
  | nil =>
    intro s fuel index len w h hf _
    obtain ⟨fuel, rfl⟩ := Nat.exists_eq_succ_of_ne_zero (by omega : fuel ≠ 0)
    have h : s = s' := h
    subst h
    refine ⟨s, by simp [Yields], ?_⟩
    simp only [epochLoop, hend, List.take_nil, List.foldlM_nil]
    rfl
  | cons b t ih =>
    intro s fuel index len w h hf hl
    obtain ⟨fuel, rfl⟩ := Nat.exists_eq_succ_of_ne_zero (by omega : fuel ≠ 0)
    obtain ⟨s₁, h1, h2⟩ := h
    simp only [List.length_cons] at hf hl
    simp only [epochLoop, h1]
    by_cases he : enough steps index = true
    · obtain ⟨k, rfl, hk⟩ : ∃ k, steps = some k ∧ k ≤ index + 1 := by
        cases steps with
        | none => cases he
        | some k => exact ⟨k, rfl, by simpa [enough] using he⟩
      have hq : quota (some k) index len = 1 := by simp only [quota]; omega
      refine ⟨s₁, by rw [hq]; exact h2, ?_⟩
      rw [hq]
      simp only [if_pos he, List.take_succ_cons, List.take_zero, List.foldlM_cons]
      cases step w b <;> rfl
    · have hq : quota steps index len = quota steps (index + 1) (len - 1) + 1 := by
        cases steps with
        | none => simp only [quota]; omega
        | some k =>
          have : ¬ k ≤ index + 1 := by simpa [enough] using he
          simp only [quota]; omega
      obtain ⟨s'', k1, -⟩ := ih (fuel := fuel) (index := index + 1) (len := len - 1) w h2 (by omega) (by omega)
      rw [hq]
      simp only [if_neg he, List.drop_succ_cons, List.take_succ_cons, List.foldlM_cons]
      cases hs : step w b with
      | error e => exact ⟨s'', k1, rfl⟩
      | ok w' =>
        obtain ⟨s'', k1, k2⟩ := ih (fuel := fuel) (index := index + 1) (len := len - 1) w' h2 (by omega) (by omega)
        exact ⟨s'', k1, k2⟩

theorem epochs_yields {next : S → Except LoopErr (Option (B × S))} {step : W → B → Except LoopErr W}
    {steps : Option ℕ} {s' : S} (hend : next s' = .ok none) (len : ℕ) {fuel : ℕ} :
    ∀ (n : ℕ) {bs : List B} {s : S} (w : W), Yields next s bs s' → bs.length < fuel → bs.length ≤ len →
      ∃ s'', epochs next step steps fuel n s w =
        some (((bs.take (n * quota steps 0 len)).foldlM step w).map fun w' => (w', s'')) := by
  intro n
  induction n with
  | zero =>
    intro bs s w _ _ _
    exact ⟨s, by simp only [epochs, Nat.zero_mul, List.take_zero, List.foldlM_nil]; rfl⟩
  | succ n ih =>
    intro bs s w h hf hl
    obtain ⟨s₁, h1, h2⟩ := epochLoop_yields (steps := steps) (step := step) hend (index := 0) w h hf hl
    simp only [epochs, h2]
    have hq : bs.take ((n + 1) * quota steps 0 len) =
        bs.take (quota steps 0 len) ++ (bs.drop (quota steps 0 len)).take (n * quota steps 0 len) := by
      rw [Nat.succ_mul, Nat.add_comm, List.take_add]
    rw [hq, List.foldlM_append]
    cases hs : (bs.take (quota steps 0 len)).foldlM step w with
    | error e => exact ⟨s, rfl⟩
    | ok w' =>
      have hd := List.length_drop (l := bs) (i := quota steps 0 len)
      obtain ⟨s₂, h3⟩ := ih w' h1 (by omega) (by omega)
      exact ⟨s₂, h3⟩

/-! ## The generator -/

/-- The number of batches of size `k` that cover `limit`. -/
def nBatches (limit k : ℕ) : ℕ := (limit + k - 1) / k

theorem lt_nBatches {limit k i : ℕ} (hk : 0 < k) : i < nBatches limit k ↔ i * k < limit := by
  unfold nBatches
  rw [Nat.lt_iff_add_one_le, Nat.le_div_iff_mul_le hk, Nat.add_mul]
  omega

/-- The batches. -/
def batchList (k count : ℕ) (batch : ℕ → Option ℕ → B) : List B :=
  (List.range count).map fun i => batch (i * k) (some (i * k + k))

theorem gen_yields_from {limit k : ℕ} (hk : 0 < k) (batch : ℕ → Option ℕ → B) :
    ∀ (c i : ℕ), i + c = nBatches limit k - 1 → 0 < nBatches limit k → ∃ s',
      Yields (genNext limit (some k) batch) (.yielded (i * k) (some (i * k + k)))
        ((List.range' (i + 1) c).map fun i => batch (i * k) (some (i * k + k))) s' ∧
      genNext limit (some k) batch s' = .ok none := by
  intro c
  induction c with
  | zero =>
    intro i hi hp
    refine ⟨_, rfl, ?_⟩
    have : ¬ (i + 1) * k < limit := by rw [← lt_nBatches hk]; omega
    simp only [genNext, genTest]
    rw [if_neg (by rw [Nat.add_mul, Nat.one_mul] at this; exact this)]
  | succ c ih =>
    intro i hi hp
    obtain ⟨s', h1, h2⟩ := ih (i + 1) (by omega) hp
    have hlt : (i + 1) * k < limit := by rw [← lt_nBatches hk]; omega
    refine ⟨s', ⟨_, ?_, h1⟩, h2⟩
    simp only [genNext, genTest]
    have e : i * k + k = (i + 1) * k := by ring
    rw [e, if_pos hlt]

theorem gen_yields {limit k : ℕ} (hk : 0 < k) (batch : ℕ → Option ℕ → B) : ∃ s',
    Yields (genNext limit (some k) batch) (genInit (some k)) (batchList k (nBatches limit k) batch) s' ∧
      genNext limit (some k) batch s' = .ok none := by
  rcases Nat.eq_zero_or_pos (nBatches limit k) with h | h
  · refine ⟨genInit (some k), by rw [h]; rfl, ?_⟩
    have : ¬ 0 * k < limit := by rw [← lt_nBatches hk]; omega
    simp only [genNext, genTest, genInit]
    rw [if_neg (by rwa [Nat.zero_mul] at this)]
  · obtain ⟨s', h1, h2⟩ := gen_yields_from hk batch (nBatches limit k - 1) 0 (by omega) h
    refine ⟨s', ?_, h2⟩
    have hr : List.range (nBatches limit k) = 0 :: List.range' 1 (nBatches limit k - 1) := by
      obtain ⟨c, hc⟩ := Nat.exists_eq_succ_of_ne_zero h.ne'
      rw [hc, List.range_eq_range', List.range'_succ]
      simp
    unfold batchList
    rw [hr, List.map_cons]
    have hlt : 0 * k < limit := by rw [← lt_nBatches hk]; exact h
    refine ⟨_, ?_, h1⟩
    simp only [genInit, genNext, genTest]
    rw [if_pos (by rwa [Nat.zero_mul] at hlt), Nat.zero_mul, Nat.zero_add]

theorem drain_yields {next : S → Except LoopErr (Option (B × S))} {s' : S} (hend : next s' = .ok none) :
    ∀ {bs : List B} {s : S} {fuel : ℕ}, Yields next s bs s' → bs.length < fuel →
      drain next fuel s = some (.ok bs) := by
  intro bs
  induction bs with
  | nil =>
    intro s fuel h hf
    obtain ⟨fuel, rfl⟩ := Nat.exists_eq_succ_of_ne_zero (by omega : fuel ≠ 0)
    have h : s = s' := h
    subst h
    simp only [drain, hend]
  | cons b t ih =>
    intro s fuel h hf
    obtain ⟨fuel, rfl⟩ := Nat.exists_eq_succ_of_ne_zero (by omega : fuel ≠ 0)
    obtain ⟨s₁, h1, h2⟩ := h
    simp only [List.length_cons] at hf
    simp only [drain, h1, ih h2 (by omega : t.length < fuel)]

theorem collect_yields {next : S → Except LoopErr (Option (B × S))} {steps : Option ℕ} {s' : S}
    (hend : next s' = .ok none) :
    ∀ {bs : List B} {s : S} {fuel index len : ℕ}, Yields next s bs s' → bs.length < fuel → bs.length ≤ len →
      collect next steps fuel index s = some (.ok (bs.take (quota steps index len))) := by
  intro bs
  induction bs with
  | nil =>
    intro s fuel index len h hf _
    obtain ⟨fuel, rfl⟩ := Nat.exists_eq_succ_of_ne_zero (by omega : fuel ≠ 0)
    have h : s = s' := h
    subst h
    simp only [collect, hend, List.take_nil]
  | cons b t ih =>
    intro s fuel index len h hf hl
    obtain ⟨fuel, rfl⟩ := Nat.exists_eq_succ_of_ne_zero (by omega : fuel ≠ 0)
    obtain ⟨s₁, h1, h2⟩ := h
    simp only [List.length_cons] at hf hl
    simp only [collect, h1]
    by_cases he : enough steps index = true
    · obtain ⟨k, rfl, hk⟩ : ∃ k, steps = some k ∧ k ≤ index + 1 := by
        cases steps with
        | none => cases he
        | some k => exact ⟨k, rfl, by simpa [enough] using he⟩
      have hq : quota (some k) index len = 1 := by simp only [quota]; omega
      rw [if_pos he, hq, List.take_succ_cons, List.take_zero]
    · have hq : quota steps index len = quota steps (index + 1) (len - 1) + 1 := by
        cases steps with
        | none => simp only [quota]; omega
        | some k =>
          have : ¬ k ≤ index + 1 := by simpa [enough] using he
          simp only [quota]; omega
      rw [if_neg he, ih (len := len - 1) h2 (by omega : t.length < fuel) (by omega), hq, List.take_succ_cons]

/-! ## Slices -/

theorem slice_eq {α : Type} (l : List α) (a k : ℕ) : slice a (some (a + k)) l = (l.drop a).take k := by
  unfold slice
  rw [List.take_drop]

theorem slices_flatten {α : Type} (k : ℕ) (l : List α) (c : ℕ) :
    (batchList k c fun a b => slice a b l).flatten = l.take (c * k) := by
  unfold batchList
  induction c with
  | zero => simp
  | succ c ih =>
    rw [List.range_succ, List.map_append, List.flatten_append, ih, List.map_singleton, List.flatten_singleton]
    show _ ++ slice (c * k) (some (c * k + k)) l = _
    rw [slice_eq, Nat.succ_mul, List.take_add]

theorem nBatches_cover {n k : ℕ} (hk : 0 < k) : n ≤ nBatches n k * k := by
  have h := (lt_nBatches (limit := n) (i := nBatches n k) hk).not.1 (lt_irrefl _)
  omega

end Verif.Keras
