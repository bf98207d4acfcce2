import Verif.Convert.NodeGradSpec
import Verif.Convert.StructLemmas
import Verif.Convert.StructProps
import Mathlib.Analysis.Calculus.Deriv.Add
import Mathlib.Analysis.Calculus.Deriv.Mul
import Mathlib.Analysis.Calculus.Deriv.Pow

/-!
# Helper lemmas for gradients of functions of tensors
-/

namespace Verif.Convert

open Verif.Tensor Verif.Keras Verif.Convert.Onnx

theorem mem_indices : ∀ {s i : List ℕ}, i ∈ indices s ↔ InShape s i
  | [], [] => by simp [indices, InShape]
  | [], _ :: _ => by simp [indices, InShape]
  | _ :: _, [] => by simp [indices, InShape]
  | d :: s, q :: i => by
      simp only [indices, InShape, Finset.mem_image, Finset.mem_product, Finset.mem_range, Prod.exists, List.cons.injEq]
      constructor
      · rintro ⟨a, b, ⟨h1, h2⟩, rfl, rfl⟩; exact ⟨h1, mem_indices.1 h2⟩
      · rintro ⟨h1, h2⟩; exact ⟨q, i, ⟨h1, mem_indices.2 h2⟩, rfl, rfl⟩

theorem sum_indices_cons (d : ℕ) (s : List ℕ) (f : List ℕ → ℝ) :
    ∑ i ∈ indices (d :: s), f i = ∑ q ∈ Finset.range d, ∑ i ∈ indices s, f (q :: i) := by
  rw [indices, Finset.sum_image, Finset.sum_product]
  rintro ⟨a, b⟩ - ⟨c, e⟩ - h
  simpa using h

/-- Along an axis, a sum is a sum over the first entries plus one over the others. -/
theorem sum_indices_add (a b : ℕ) : ∀ (s : List ℕ) (k : ℕ), k < s.length → ∀ f : List ℕ → ℝ,
    ∑ i ∈ indices (s.set k (a + b)), f i =
      ∑ i ∈ indices (s.set k a), f i + ∑ i ∈ indices (s.set k b), f (i.set k (a + i.getD k 0))
  | [], k, h, _ => by simp at h
  | d :: s, 0, _, f => by
      simp only [List.set_cons_zero, sum_indices_cons, List.getD_cons_zero]
      rw [Finset.sum_range_add]
  | d :: s, k + 1, h, f => by
      simp only [List.set_cons_succ, sum_indices_cons, List.getD_cons_succ]
      rw [← Finset.sum_add_distrib]
      refine Finset.sum_congr rfl fun q _ => ?_
      exact sum_indices_add a b s k (by simpa using h) _

/-- A function that puts every entry of its only input somewhere, and 0 everywhere else: what comes back for an
entry is the gradient of where it went. -/
theorem gradient_place (f : List (Ten ℝ) → Except NErr (List (Ten ℝ))) (X dY dX : Ten ℝ) (Ys : List ℕ)
    (place : List ℕ → List ℕ)
    (hf : ∀ Z : Ten ℝ, Z.shape = X.shape → ∃ Y : Ten ℝ, f [Z] = .ok [Y] ∧ Y.shape = Ys ∧
      (∀ i, InShape X.shape i → Y.get (place i) = Z.get i) ∧
      ∀ j, InShape Ys j → (∀ i, InShape X.shape i → place i ≠ j) → Y.get j = 0)
    (hin : ∀ i, InShape X.shape i → InShape Ys (place i))
    (hinj : ∀ i j, InShape X.shape i → InShape X.shape j → place i = place j → i = j)
    (hd : dY.shape = Ys) (hs : dX.shape = X.shape) (hx : ∀ i, InShape X.shape i → dX.get i = dY.get (place i)) :
    IsGradientOf f [X] [dY] [dX] := by
  refine ⟨.cons hs .nil, ?_⟩
  intro χs vs t hχ hm
  obtain ⟨χ, rfl⟩ : ∃ χ, χs = [χ] := by
    match χs, hχ with
    | [χ], _ => exact ⟨χ, rfl⟩
  cases hm with
  | @cons _ V _ _ hm h2 =>
  cases h2
  simp only [List.map_cons, List.map_nil, List.cons.injEq, and_true] at hχ
  have hV : V.shape = X.shape := by rw [← hm.1 t, hχ]
  have hsh : ∀ s, (χ s).shape = X.shape := fun s => (hm.1 s).trans hV
  choose Y hY using fun s => hf (χ s) (hsh s)
  obtain ⟨U, -, hU, hUp, hU0⟩ := hf V hV
  refine ⟨[Y], [U], fun s => (hY s).1, .cons ⟨fun s => by rw [(hY s).2.1, hU], fun j hj => ?_⟩ .nil,
    .cons (by rw [hd, hU]) .nil, ?_⟩
  · rw [hU] at hj
    by_cases h : ∃ i, InShape X.shape i ∧ place i = j
    · obtain ⟨i, hi, rfl⟩ := h
      rw [hUp i hi]
      have e : (fun s => (Y s).get (place i)) = fun s => (χ s).get i := by
        funext s; exact (hY s).2.2.1 i hi
      rw [e]; exact hm.2 i (by rw [hV]; exact hi)
    · have hn : ∀ i, InShape X.shape i → place i ≠ j := fun i hi e => h ⟨i, hi, e⟩
      rw [hU0 j hj hn]
      have e : (fun s => (Y s).get j) = fun _ => 0 := by
        funext s; exact (hY s).2.2.2 j hj hn
      rw [e]; exact hasDerivAt_const t 0
  · simp only [List.zipWith_cons_cons, List.zipWith_nil_left, List.sum_cons, List.sum_nil, add_zero, Onnx.inner]
    rw [hd, hs]
    have h1 : ∑ i ∈ indices X.shape, dX.get i * V.get i =
        ∑ i ∈ indices X.shape, dY.get (place i) * U.get (place i) := by
      refine Finset.sum_congr rfl fun i hi => ?_
      rw [mem_indices] at hi
      rw [hx i hi, hUp i hi]
    rw [h1, ← Finset.sum_image (f := fun j => dY.get j * U.get j) (g := place)]
    · symm
      apply Finset.sum_subset
      · intro j hj
        obtain ⟨i, hi, rfl⟩ := Finset.mem_image.1 hj
        exact mem_indices.2 (hin i (mem_indices.1 hi))
      · intro j hj hn
        rw [hU0 j (mem_indices.1 hj) fun i hi e => hn (Finset.mem_image.2 ⟨i, mem_indices.2 hi, e⟩), mul_zero]
    · intro i hi j hj e
      exact hinj i j (mem_indices.1 hi) (mem_indices.1 hj) e

/-- A function that keeps the order of the entries. -/
theorem gradient_same (f : List (Ten ℝ) → Except NErr (List (Ten ℝ))) (X dY dX : Ten ℝ) (Ys : List ℕ)
    (hp : Ys.prod = X.shape.prod)
    (hf : ∀ Z : Ten ℝ, Z.shape = X.shape → ∃ Y : Ten ℝ, f [Z] = .ok [Y] ∧ Y.shape = Ys ∧ SameEntries Z Y)
    (hd : dY.shape = Ys) (hs : dX.shape = X.shape) (hx : SameEntries dY dX) :
    IsGradientOf f [X] [dY] [dX] := by
  have hlt : ∀ i, InShape X.shape i → flat X.shape i < Ys.prod := fun i hi => by rw [hp]; exact flat_lt _ _ hi
  have hin : ∀ i, InShape X.shape i → InShape Ys (unflat Ys (flat X.shape i)) := fun i hi => inShape_unflat _ _ (hlt i hi)
  have hfl : ∀ i, InShape X.shape i → flat Ys (unflat Ys (flat X.shape i)) = flat X.shape i :=
    fun i hi => flat_unflat _ _ (hlt i hi)
  refine gradient_place f X dY dX Ys (fun i => unflat Ys (flat X.shape i)) ?_ hin ?_ hd hs ?_
  · intro Z hZ
    obtain ⟨Y, e, hY, hS⟩ := hf Z hZ
    refine ⟨Y, e, hY, fun i hi => ?_, fun j hj hn => ?_⟩
    · apply hS.2 _ _ (by rw [hY]; exact hin i hi) (by rw [hZ]; exact hi)
      rw [hY, hZ]; exact hfl i hi
    · have h1 : flat Ys j < X.shape.prod := by rw [← hp]; exact flat_lt _ _ hj
      refine absurd ?_ (hn (unflat X.shape (flat Ys j)) (inShape_unflat _ _ h1))
      beta_reduce
      rw [flat_unflat _ _ h1, unflat_flat _ _ hj]
  · intro i j hi hj e
    beta_reduce at e
    have := hfl i hi
    rw [e, hfl j hj] at this
    rw [← unflat_flat _ _ hi, ← unflat_flat _ _ hj, this]
  · intro i hi
    apply hx.2 _ _ (by rw [hs]; exact hi) (by rw [hd]; exact hin i hi)
    beta_reduce
    rw [hs, hd, hfl i hi]

end Verif.Convert
