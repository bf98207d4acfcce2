import Verif.Convert.Onnx
import Verif.Keras.ConvProps
import Verif.Keras.PoolingProps
import Verif.Keras.DepthwiseProps
import Verif.Keras.NormProps
import Verif.Keras.ShapesProps

/-!
# Helpers for the nodes of converted models
-/

namespace Verif.Convert

open Verif.Tensor Verif.Keras

/-! ## Attributes -/

/-- Attribute names are unique, so that the order in which they are looked up does not matter. -/
theorem attrOf_eq {as : List Attr} (h : (as.map Attr.name).Nodup) (name : String) :
    attrOf as name = as.find? fun a => a.name = name := by
  unfold attrOf
  induction as with
  | nil => rfl
  | cons a as ih =>
      rw [List.map_cons, List.nodup_cons] at h
      rw [List.reverse_cons, List.find?_append, ih h.2]
      by_cases e : a.name = name
      · rw [List.find?_cons_of_pos (by simpa using e)]
        have : (as.find? fun a => a.name = name) = none := by
          rw [List.find?_eq_none]
          intro b hb
          simp only [decide_eq_true_eq]
          intro hn
          exact h.1 (List.mem_map.2 ⟨b, hb, hn.trans e.symm⟩)
        rw [this]
        simp [e]
      · have h1 : ((a :: as).find? fun a => a.name = name) = as.find? fun a => a.name = name :=
          List.find?_cons_of_neg (by simpa using e)
        have h2 : ([a].find? fun a => a.name = name) = none := by simp [e]
        rw [h1, h2, Option.or_none]

theorem attrOf_some {as : List Attr} (h : (as.map Attr.name).Nodup) {name : String} {v : AVal}
    (hv : Onnx.attr as name = some v) : ∃ a, attrOf as name = some a ∧ a.val = v := by
  rw [attrOf_eq h]
  unfold Onnx.attr at hv
  cases hf : as.find? fun a => a.name = name with
  | none => rw [hf] at hv; simp at hv
  | some a => rw [hf] at hv; exact ⟨a, rfl, by simpa using hv⟩

theorem attrOf_none {as : List Attr} (h : (as.map Attr.name).Nodup) {name : String}
    (hv : Onnx.attr as name = none) : attrOf as name = none := by
  rw [attrOf_eq h]
  unfold Onnx.attr at hv
  cases hf : as.find? fun a => a.name = name with
  | none => rfl
  | some a => rw [hf] at hv; simp at hv

theorem attrKey_ints {as : List Attr} (h : (as.map Attr.name).Nodup) {name : String} {l : List ℤ}
    (hv : Onnx.attr as name = some (.ints l)) : ∃ a, attrKey as name = .ok a ∧ a.ints = l := by
  obtain ⟨a, e, hval⟩ := attrOf_some h hv
  exact ⟨a, by unfold attrKey; rw [e], by unfold Attr.ints; rw [hval]⟩

theorem attrKey_int {as : List Attr} (h : (as.map Attr.name).Nodup) {name : String} {i : ℤ}
    (hv : Onnx.attr as name = some (.int i)) : ∃ a, attrKey as name = .ok a ∧ a.i = i := by
  obtain ⟨a, e, hval⟩ := attrOf_some h hv
  exact ⟨a, by unfold attrKey; rw [e], by unfold Attr.i; rw [hval]⟩

/-! ## Tensors -/

theorem transpose_2310 {α : Type} (t : Ten α) (a b c d : ℕ) (h : t.shape = [a, b, c, d]) :
    Tensor.transpose t [2, 3, 1, 0] = some ⟨[c, d, b, a], fun idx =>
      t.get [idx.getD 3 0, idx.getD 2 0, idx.getD 0 0, idx.getD 1 0]⟩ := by
  unfold Tensor.transpose; rw [if_pos (by rw [h]; simp only [List.length_cons, List.length_nil]; decide)]; rw [h]; rfl

theorem transpose_10 {α : Type} (t : Ten α) (a b : ℕ) (h : t.shape = [a, b]) :
    Tensor.transpose t (List.range t.shape.length).reverse = some ⟨[b, a], fun idx => t.get [idx.getD 1 0, idx.getD 0 0]⟩ := by
  unfold Tensor.transpose
  rw [if_pos (by rw [h]; simp only [List.length_cons, List.length_nil]; decide)]; rw [h]; rfl

theorem matmul_some {α : Type} [Ring α] (a b : Ten α) (m k n : ℕ) (ha : a.shape = [m, k]) (hb : b.shape = [k, n]) :
    ∃ y, Tensor.matmul a b = some y ∧ y.shape = [m, n] ∧
      ∀ i j, y.get [i, j] = ∑ q ∈ Finset.range k, a.get [i, q] * b.get [q, j] := by
  unfold Tensor.matmul
  rw [ha, hb]
  simp only [if_true]
  exact ⟨_, rfl, rfl, fun i j => rfl⟩

/-- A weight that already has the shape is unchanged. -/
theorem putWeight_same (t : Ten ℝ) (s : List ℕ) (h : t.shape = s) : ∃ v, putWeight t s = .ok v ∧ v.shape = s ∧
    ∀ idx, InShape s idx → v.get idx = t.get idx := by
  subst h
  obtain ⟨v, e, hs, hv⟩ := reshape_same t
  exact ⟨v, by unfold putWeight; rw [e]; rfl, hs, fun idx hi => hv idx (by rw [hs]; exact hi)⟩

theorem putWeight_fail (t : Ten ℝ) (s : List ℕ) (h : s.prod ≠ t.shape.prod) : putWeight t s = .error .shape := by
  unfold putWeight Tensor.reshape; rw [if_neg h]; rfl

theorem bcastShape_row (m n : ℕ) : bcastShape [m, n] [n] = some [m, n] := by
  simp [bcastShape, bcastDim_one_right, bcastDim_self]

theorem bcastShape_row' (m n : ℕ) : bcastShape [n] [m, n] = some [m, n] := by
  simp [bcastShape, bcastDim_one_left, bcastDim_self]

theorem bget_row (t : Ten ℝ) (n i j : ℕ) (ht : t.shape = [n]) (hj : j < n) : Ten.bget t [i, j] = t.get [j] := by
  simp [Ten.bget, ht, bidx hj]

/-- `Dense.call` with a bias vector. -/
theorem denseCall_some (k x : Ten ℝ) (b : Option (Ten ℝ)) (m d n : ℕ) (hx : x.shape = [m, d]) (hk : k.shape = [d, n])
    (hb : ∀ t, b = some t → t.shape = [n]) :
    ∃ y, denseCall k b x = .ok y ∧ y.shape = [m, n] ∧ ∀ i j, i < m → j < n →
      y.get [i, j] = ∑ q ∈ Finset.range d, x.get [i, q] * k.get [q, j] + Onnx.vecAt b j := by
  obtain ⟨y, e, hs, hy⟩ := matmul_some x k m d n hx hk
  cases b with
  | none =>
      refine ⟨y, ?_, hs, fun i j _ _ => by rw [hy]; exact (add_zero _).symm⟩
      unfold denseCall
      rw [e]
      rfl
  | some t =>
      have ht := hb t rfl
      refine ⟨⟨[m, n], fun idx => Ten.bget y idx + Ten.bget t idx⟩, ?_, rfl, ?_⟩
      · unfold denseCall
        rw [e]
        show orShape (bcastOp (· + ·) y t).toOption = _
        unfold bcastOp
        rw [hs, ht, bcastShape_row]
        rfl
      · intro i j hi hj
        show Ten.bget y [i, j] + Ten.bget t [i, j] = _
        have hin : InShape [m, n] [i, j] := ⟨hi, hj, trivial⟩
        rw [bget_row t n i j ht hj, bget_self hs hin, hy]
        rfl

/-! ## Padding -/

/-- A padded image, extended by zeros, is the image extended by zeros and shifted. -/
theorem extend_pad (h w t b l r : ℕ) (f g : ℕ → ℕ → ℝ)
    (hg : ∀ i j, i < t + h + b → j < l + w + r →
      g i j = if t ≤ i ∧ i < t + h ∧ l ≤ j ∧ j < l + w then f (i - t) (j - l) else 0) (y x : ℤ) :
    extend (t + h + b) (l + w + r) g y x = extend h w f (y - t) (x - l) := by
  unfold extend
  by_cases h1 : 0 ≤ y ∧ y < (t + h + b : ℕ) ∧ 0 ≤ x ∧ x < (l + w + r : ℕ)
  · rw [if_pos h1, hg y.toNat x.toNat (by omega) (by omega)]
    by_cases h2 : 0 ≤ y - t ∧ y - t < h ∧ 0 ≤ x - l ∧ x - l < w
    · rw [if_pos h2, if_pos (by omega)]
      congr 1 <;> omega
    · rw [if_neg h2, if_neg (by omega)]
  · rw [if_neg h1, if_neg (by push_cast at h1 ⊢; omega)]

/-- The number of positions of a kernel, as the ONNX documentation and the layers count them. -/
theorem outputs_span (size k s : ℕ) (hs : 0 < s) (hk : 0 < k) (hv : k ≤ size) :
    outputs size k s .valid = (size - k) / s + 1 := by
  rw [outputs_valid _ _ _ hs hk]
  have : size + 1 - k + s - 1 = (size - k) + s := by omega
  rw [this, Nat.add_div_right _ hs]

/-- A depthwise kernel as ONNX stores it, `[filters, 1, k, k]`, transposed. -/
theorem rearrange_row (cfg : ConvCfg) (m c : ℕ) (kernel : Ten ℝ) (hm : 0 < m)
    (hk : kernel.shape = [cfg.k, cfg.k, 1, c * m]) :
    ∃ t : Ten ℝ, rearrange cfg m c kernel = some t ∧ t.shape = [cfg.k, cfg.k, c, c * m] ∧
      ∀ a a' r q, a < cfg.k → a' < cfg.k → r < c → q < c * m →
        t.get [a, a', r, q] = if q / m = r then kernel.get [a, a', 0, q] else 0 := by
  have hsame : ∃ k1 : Ten ℝ, (if m > 1 then Tensor.reshape kernel [cfg.k, cfg.k, 1, c * m] else some kernel) = some k1 ∧
      k1.shape = [cfg.k, cfg.k, 1, c * m] ∧ ∀ idx, InShape [cfg.k, cfg.k, 1, c * m] idx → k1.get idx = kernel.get idx := by
    by_cases h1 : m > 1
    · rw [if_pos h1]
      obtain ⟨v, e, hs, hv⟩ := reshape_same kernel
      rw [hk] at e hs
      exact ⟨v, e, hs, fun idx hi => hv idx (by rw [hs]; exact hi)⟩
    · rw [if_neg h1]
      exact ⟨kernel, rfl, hk, fun _ _ => rfl⟩
  obtain ⟨k1, e1, hs1, hg1⟩ := hsame
  have hre : rearrange cfg m c kernel = (if m > 1 then Tensor.reshape kernel [cfg.k, cfg.k, 1, c * m] else some kernel).bind
      fun k => bcastMul k (dwMask cfg m c) := by
    unfold rearrange; split_ifs <;> rfl
  rw [hre, e1, Option.bind_some]
  refine ⟨⟨[cfg.k, cfg.k, c, c * m], fun idx => Ten.bget k1 idx * Ten.bget (dwMask cfg m c) idx⟩, ?_, rfl, ?_⟩
  · unfold bcastMul
    rw [hs1, show bcastShape [cfg.k, cfg.k, 1, c * m] (dwMask cfg m c : Ten ℝ).shape = some [cfg.k, cfg.k, c, c * m] by
      simp [bcastShape, dwMask, bcastDim_one_left, bcastDim_self], Option.map_some]
  · intro a a' r q ha ha' hr hq
    show Ten.bget _ _ * Ten.bget _ _ = _
    rw [bget4 (dwMask cfg m c) cfg.k cfg.k c (c * m) a a' r q rfl, bidx ha, bidx ha', bidx hr, bidx hq,
      dwMask_get cfg m c a a' r q hr hq, bget4 _ cfg.k cfg.k 1 (c * m) a a' r q hs1, bidx ha, bidx ha', bidx hq, if_pos rfl]
    by_cases e : q / m = r
    · rw [if_pos e, if_pos e, mul_one]
      exact hg1 [a, a', 0, q] ⟨ha, ha', Nat.one_pos, hq, trivial⟩
    · rw [if_neg e, if_neg e, mul_zero]

/-- The bias that a convolution adds to filter `q`. -/
def biasOf (b : Option (Ten ℝ)) (q : ℕ) : ℝ := match b with | none => 0 | some t => t.get [q, 0, 0]

/-- The bias of a convolution as the node hands it over, `[1, o, 1, 1]`, becomes `[o, 1, 1]`. -/
theorem bias_expand (b : Option (Ten ℝ)) (o : ℕ) (hb : ∀ t, b = some t → t.shape = [o]) :
    ∃ v, putBias (b.map expandBias) [o, 1, 1] = .ok v ∧ ∀ q, q < o →
      biasOf v q = Onnx.vecAt b q := by
  cases b with
  | none => exact ⟨none, rfl, fun _ _ => rfl⟩
  | some t =>
      have ht := hb t rfl
      have hs : (expandBias t).shape = [1, o, 1, 1] := by simp [expandBias, ht]
      refine ⟨some ⟨[o, 1, 1], fun idx => (expandBias t).get (unflat [1, o, 1, 1] (flat [o, 1, 1] idx))⟩, ?_, ?_⟩
      · show (putWeight (expandBias t) [o, 1, 1]).map some = _
        unfold putWeight Tensor.reshape
        rw [hs, if_pos (by simp)]
        rfl
      · intro q hq
        show (expandBias t).get (unflat [1, o, 1, 1] (flat [o, 1, 1] [q, 0, 0])) = t.get [q]
        have : flat [o, 1, 1] [q, 0, 0] = flat [1, o, 1, 1] [0, q, 0, 0] := by simp [flat]
        have hin : InShape [1, o, 1, 1] [0, q, 0, 0] := ⟨Nat.one_pos, hq, Nat.one_pos, Nat.one_pos, trivial⟩
        rw [this, unflat_flat _ _ hin]
        simp [expandBias, ht]

end Verif.Convert
