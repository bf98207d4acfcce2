import Verif.Convert.Struct
import Verif.Convert.OnnxStruct
import Verif.Convert.NodesLemmas
import Verif.Tensor.PoolProps

/-!
# Lemmas about shapes, axes and broadcasting for the structural nodes
-/

namespace Verif.Convert

open Verif.Tensor Verif.Keras Verif.Convert.Onnx

theorem inShape_iff : ∀ {s i : List ℕ}, InShape s i ↔ i.length = s.length ∧ ∀ k, k < s.length → i.getD k 0 < s.getD k 0
  | [], [] => by simp [InShape]
  | [], _ :: _ => by simp [InShape]
  | _ :: _, [] => by simp [InShape]
  | d :: s, q :: i => by
      simp only [InShape, inShape_iff, List.length_cons]
      constructor
      · rintro ⟨h0, hl, h⟩
        refine ⟨by omega, fun k hk => ?_⟩
        cases k with
        | zero => simpa using h0
        | succ k => simpa using h k (by omega)
      · rintro ⟨hl, h⟩
        exact ⟨by simpa using h 0 (by omega), by omega, fun k hk => by simpa using h (k + 1) (by omega)⟩

theorem axisOf_iff {r : ℕ} {a : ℤ} {k : ℕ} : axisOf r a = some k ↔ IsAxis r a k := by
  unfold axisOf IsAxis
  split_ifs with h1 h2 h3
  · simp only [Option.some.injEq]; omega
  · simp only [reduceCtorEq, false_iff]; omega
  · simp only [Option.some.injEq]; omega
  · simp only [reduceCtorEq, false_iff]; omega

theorem agrees_iff {d : List ℤ} {s : List ℕ} : Agrees d s ↔ d.length = s.length ∧
    ∀ k, k < s.length → d.getD k 0 = -1 ∨ d.getD k 0 = (s.getD k 0 : ℤ) := by
  unfold Agrees
  constructor
  · intro h
    refine ⟨h.length_eq, ?_⟩
    induction h with
    | nil => simp
    | cons h0 _ ih =>
        intro k hk
        cases k with
        | zero => simpa using h0
        | succ k => simpa using ih k (by simpa using hk)
  · rintro ⟨hl, h⟩
    induction d generalizing s with
    | nil => cases s with
        | nil => exact .nil
        | cons _ _ => simp at hl
    | cons a d ih => cases s with
        | nil => simp at hl
        | cons b s =>
            exact .cons (by simpa using h 0 (by simp)) (ih (by simpa using hl) fun k hk => by
              simpa using h (k + 1) (by simpa using hk))

theorem shapeAt_zero (s : List ℤ) (r : List Inp) : shapeAt (.shape s :: r) 0 = .ok s := rfl

theorem sameEntries_reshape {X Y : Ten ℝ} {s : List ℕ} (h : Tensor.reshape X s = some Y) :
    Y.shape = s ∧ SameEntries X Y := by
  unfold Tensor.reshape at h
  split_ifs at h with hp
  simp only [Option.some.injEq] at h
  subst h
  refine ⟨rfl, hp, ?_⟩
  intro i j hi hj e
  show X.get _ = X.get j
  have e' : flat s i = flat X.shape j := e
  rw [e', unflat_flat _ _ hj]

theorem reshape_ok (X : Ten ℝ) (s : List ℕ) (h : s.prod = X.shape.prod) :
    ∃ Y, Tensor.reshape X s = some Y ∧ Y.shape = s ∧ SameEntries X Y := by
  refine ⟨_, reshape_some X s h, rfl, ?_⟩
  exact (sameEntries_reshape (reshape_some X s h)).2

/-! ## Broadcasting -/

theorem mapM_zip (f : ℕ → ℕ → Option ℕ) : ∀ (p q s : List ℕ), p.length = q.length →
    ((p.zip q).mapM (fun (d : ℕ × ℕ) => f d.1 d.2) = some s ↔
      s.length = p.length ∧ ∀ k, k < s.length → f (p.getD k 0) (q.getD k 0) = some (s.getD k 0))
  | [], [], s, _ => by
      cases s <;> simp
  | [], _ :: _, _, h => by simp at h
  | _ :: _, [], _, h => by simp at h
  | a :: p, b :: q, s, h => by
      simp only [List.zip_cons_cons, List.mapM_cons, Option.bind_eq_bind, Option.pure_def]
      constructor
      · intro e
        obtain ⟨c, hc, e⟩ := Option.bind_eq_some_iff.1 e
        obtain ⟨r, hr, e⟩ := Option.bind_eq_some_iff.1 e
        simp only [Option.some.injEq] at e
        subst e
        obtain ⟨hl, hk⟩ := (mapM_zip f p q r (by simpa using h)).1 hr
        refine ⟨by simp [hl], fun k hk' => ?_⟩
        cases k with
        | zero => simpa using hc
        | succ k => simpa using hk k (by simpa using hk')
      · rintro ⟨hl, hk⟩
        cases s with
        | nil => simp at hl
        | cons c r =>
            have h0 := hk 0 (by simp)
            simp only [List.getD_cons_zero] at h0
            have hr := (mapM_zip f p q r (by simpa using h)).2 ⟨by simpa using hl, fun k hk' => by
              simpa using hk (k + 1) (by simpa using hk')⟩
            rw [h0, Option.bind_some, hr, Option.bind_some]

theorem bcastDim_iff (a b d : ℕ) : bcastDim a b = some d ↔ (a = d ∨ a = 1) ∧ (b = d ∨ b = 1) ∧ (a = d ∨ b = d) := by
  unfold bcastDim
  split_ifs with h1 h2 h3
  · simp only [Option.some.injEq]; omega
  · simp only [Option.some.injEq]; omega
  · simp only [Option.some.injEq]; omega
  · simp only [reduceCtorEq, false_iff]; omega

theorem bcastShape_iff {a b s : List ℕ} : bcastShape a b = some s ↔ Broadcast a b s := by
  unfold bcastShape Broadcast
  rw [mapM_zip bcastDim _ _ _ (by simp)]
  simp only [bcastDim_iff, List.length_append, List.length_replicate]
  constructor
  · rintro ⟨hl, h⟩
    have hl' : s.length = max a.length b.length := by omega
    refine ⟨hl', ?_⟩
    unfold lead
    rw [hl']
    rw [hl'] at h
    exact h
  · rintro ⟨hl, h⟩
    refine ⟨by omega, ?_⟩
    unfold lead at h
    rw [hl] at h
    rw [hl]
    exact h

theorem bget_under (t : Ten ℝ) (i : List ℕ) : Ten.bget t i = t.get (under t.shape i) := by
  unfold Ten.bget under
  congr 1
  rw [List.zip, List.map_zipWith]

theorem bcastOp_pointwise (f : ℝ → ℝ → ℝ) (A B : Ten ℝ) (s : List ℕ) (h : Broadcast A.shape B.shape s) :
    ∃ Y, bcastOp f A B = .ok Y ∧ Y.shape = s ∧ IsPointwise f A B Y := by
  have e : bcastOp f A B = .ok ⟨s, fun idx => f (Ten.bget A idx) (Ten.bget B idx)⟩ := by
    unfold bcastOp; rw [bcastShape_iff.2 h]
  exact ⟨_, e, rfl, h, fun i _ => by simp only [bget_under]⟩

end Verif.Convert
