import Verif.Convert.NodesProps

/-!
# Gemm with a transposed input and with a matrix as bias (C77)

`tf_encrypted/convert/nodes.py`: `GemmNode` (219-254).
-/

namespace Verif.Convert

open Verif.Tensor Verif.Keras Onnx

/-- The bias is reshaped to a vector. -/
theorem putBias_reshape (C : Ten ℝ) (n : ℕ) (h : n = C.shape.prod) :
    putBias (some C) [n] = .ok (some ⟨[n], fun idx => C.get (unflat C.shape (flat [n] idx))⟩) := by
  show (orShape (Tensor.reshape C [n])).map some = _
  unfold Tensor.reshape
  rw [if_pos (by simpa using h)]
  rfl

/-- A matrix with one row keeps its meaning as bias, and so does a number if a row has one entry. -/
theorem putBias_row (C : Ten ℝ) (n : ℕ) (hC : C.shape = [n] ∨ C.shape = [1, n] ∨ (C.shape = [] ∧ n = 1)) :
    ∃ b, putBias (some C) [n] = .ok (some b) ∧ b.shape = [n] ∧ ∀ i j, j < n → b.get [j] = Ten.bget C [i, j] := by
  rcases hC with hC | hC | ⟨hC, rfl⟩
  · obtain ⟨u, e, hs, hu⟩ := putWeight_same C [n] hC
    refine ⟨u, ?_, hs, fun i j hj => ?_⟩
    · show (putWeight C [n]).map some = _
      rw [e]
      rfl
    · rw [hu [j] ⟨hj, trivial⟩, bget_row C n i j hC hj]
  · refine ⟨_, putBias_reshape C n (by rw [hC]; simp), rfl, fun i j hj => ?_⟩
    · show C.get (unflat C.shape (flat [n] [j])) = _
      unfold Ten.bget
      rw [hC]
      have h0 : j / n = 0 := Nat.div_eq_of_lt hj
      have h1 : j % n = j := Nat.mod_eq_of_lt hj
      by_cases hn : n = 1
      · have : j = 0 := by omega
        simp [unflat, flat, hn, this]
      · simp [unflat, flat, hn, h0, h1]
  · refine ⟨_, putBias_reshape C 1 (by rw [hC]; simp), rfl, fun i j hj => ?_⟩
    show C.get (unflat C.shape (flat [1] [j])) = _
    unfold Ten.bget
    rw [hC]
    simp [unflat]

theorem denseNode_flip (x W C b : Ten ℝ) (flip : Bool) (s : ℤ) (m k n : ℕ)
    (hx : x.shape = if flip then [k, m] else [m, k]) (hW : W.shape = [k, n])
    (e2 : putBias (some C) [n] = .ok (some b)) (hs2 : b.shape = [n]) :
    ∃ nd y, denseNode [s, (k : ℤ)] W (some C) flip = .ok nd ∧ nd.forward [x] = .ok [y] ∧ y.shape = [m, n] ∧
      (∀ i j, i < m → j < n → y.get [i, j] =
        ∑ q ∈ Finset.range k, (if flip then x.get [q, i] else x.get [i, q]) * W.get [q, j] + b.get [j]) ∧
      nd.outShapes = [[s, (n : ℤ)]] := by
  obtain ⟨v, e1, hs1, hv⟩ := putWeight_same W [k, n] hW
  obtain ⟨z, ez, hz, hzg⟩ : ∃ z : Ten ℝ, flipIf flip x = .ok z ∧ z.shape = [m, k] ∧
      ∀ i q, z.get [i, q] = if flip then x.get [q, i] else x.get [i, q] := by
    cases flip with
    | false => exact ⟨x, rfl, hx, fun _ _ => rfl⟩
    | true =>
      refine ⟨⟨[m, k], fun idx => x.get [idx.getD 1 0, idx.getD 0 0]⟩, ?_, rfl, fun _ _ => rfl⟩
      unfold flipIf
      rw [if_pos rfl, transpose_10 x k m hx]
      rfl
  obtain ⟨y, e3, hs3, hy⟩ := denseCall_some v z (some b) m k n hz hs1 (by rintro t ⟨⟩; exact hs2)
  refine ⟨{ outShapes := [[s, (n : ℤ)]],
            forward := fun xs => do
              let x ← argAt xs 0
              let x ← flipIf flip x
              let y ← denseCall v (some b) x
              .ok [y] }, y, ?_, ?_, hs3, ?_, rfl⟩
  · unfold denseNode
    have h1 : W.shape[1]? = some n := by rw [hW]; rfl
    have h2 : denseIn [s, (k : ℤ)] = .ok k := by simp [denseIn, dimAt]
    rw [h1, h2]
    show ((putWeight W [k, n]).bind fun k' => (putBias (some C) [n]).bind _) = _
    rw [e1]
    show ((putBias (some C) [n]).bind _) = _
    rw [e2]
    rfl
  · show ((flipIf flip x).bind fun x => (denseCall v (some b) x).bind _) = _
    rw [ez]
    show ((denseCall v (some b) z).bind _) = _
    rw [e3]
    rfl
  · intro i j hi hj
    rw [hy i j hi hj]
    congr 1
    refine Finset.sum_congr rfl fun q hq => ?_
    rw [hzg, hv [q, j] ⟨Finset.mem_range.1 hq, hj, trivial⟩]

/-- The constant `B`, transposed if asked for. -/
theorem gemm_kernel (tb : ℤ) (W : Ten ℝ) (k n : ℕ) (hW : W.shape = if tb ≠ 0 then [n, k] else [k, n]) :
    ∃ W', flipIf (tb ≠ 0) W = .ok W' ∧ W'.shape = [k, n] ∧
      ∀ i j, W'.get [i, j] = if tb ≠ 0 then W.get [j, i] else W.get [i, j] := by
  by_cases h : tb = 0
  · simp only [h, ne_eq, not_true_eq_false, if_false, decide_false] at hW ⊢
    exact ⟨W, rfl, hW, fun _ _ => rfl⟩
  · simp only [h, ne_eq, not_false_eq_true, if_true, decide_true] at hW ⊢
    refine ⟨⟨[k, n], fun idx => W.get [idx.getD 1 0, idx.getD 0 0]⟩, ?_, rfl, fun _ _ => rfl⟩
    unfold flipIf
    rw [if_pos rfl, transpose_10 W n k hW]
    rfl

theorem gemmNode_eq (ta tb s : ℤ) (d : ℤ) (rest : List Attr) (W W' C : Ten ℝ) (h : flipIf (tb ≠ 0) W = .ok W') :
    gemmNode (⟨"transA", .int ta⟩ :: ⟨"transB", .int tb⟩ :: rest) [.shape [s, d], .real W, .real C] =
      denseNode [s, d] W' (some C) (ta ≠ 0) := by
  unfold gemmNode
  show ((flipIf (tb ≠ 0) W).bind _) = _
  rw [h]
  rfl

/-- **C77 (Gemm).** With `transA` and `transB` as the first attributes and `alpha` and `beta` absent or 1: right for every
input that is not transposed, for square inputs that are, and for a bias that is a vector or one row
(or a number, if a row has one entry). -/
theorem gemm_flip_partial (ta tb : ℤ) (rest : List Attr) (x W C : Ten ℝ) (s : ℤ) (m k n : ℕ)
    (ha : floatAttr (⟨"transA", .int ta⟩ :: ⟨"transB", .int tb⟩ :: rest) "alpha" 1 = 1)
    (hb : floatAttr (⟨"transA", .int ta⟩ :: ⟨"transB", .int tb⟩ :: rest) "beta" 1 = 1)
    (hx : x.shape = [m, k]) (hsq : ta ≠ 0 → m = k) (hW : W.shape = if tb ≠ 0 then [n, k] else [k, n])
    (hC : C.shape = [n] ∨ C.shape = [1, n] ∨ (C.shape = [] ∧ n = 1)) :
    ∃ nd y, gemmNode (⟨"transA", .int ta⟩ :: ⟨"transB", .int tb⟩ :: rest) [.shape [s, (k : ℤ)], .real W, .real C] = .ok nd ∧
      nd.forward [x] = .ok [y] ∧ IsGemm (⟨"transA", .int ta⟩ :: ⟨"transB", .int tb⟩ :: rest) x W C y ∧
      nd.outShapes = [[s, (n : ℤ)]] ∧ y.shape = [m, n] := by
  obtain ⟨W', eW, hW', hg⟩ := gemm_kernel tb W k n hW
  have hx' : x.shape = if (decide (ta ≠ 0) : Bool) then [k, m] else [m, k] := by
    by_cases h : ta = 0
    · simp [h, hx]
    · simp [h, hx, hsq h]
  obtain ⟨b, eb, hbs, hbg⟩ := putBias_row C n hC
  obtain ⟨nd, y, e1, e2, hs, hy, ho⟩ := denseNode_flip x W' C b (ta ≠ 0) s m k n hx' hW' eb hbs
  refine ⟨nd, y, by rw [gemmNode_eq ta tb s k rest W W' C eW, e1], e2, ⟨m, k, n, ?_, ?_, ?_, hs, ?_⟩, ho, hs⟩
  · have hta : intAttr (⟨"transA", .int ta⟩ :: ⟨"transB", .int tb⟩ :: rest) "transA" 0 = ta := by simp [intAttr, attr]
    rw [hta]
    by_cases h : ta = 0
    · exact .inr ⟨by simp [h], hx⟩
    · exact .inl ⟨h, by rw [hx, hsq h]⟩
  · have htb : intAttr (⟨"transA", .int ta⟩ :: ⟨"transB", .int tb⟩ :: rest) "transB" 0 = tb := by simp [intAttr, attr]
    rw [htb]
    by_cases h : tb = 0
    · exact .inr ⟨by simp [h], by rw [hW, if_neg (by simp [h])]⟩
    · exact .inl ⟨h, by rw [hW, if_pos h]⟩
  · rcases hC with hC | hC | ⟨hC, rfl⟩
    · rw [hC]
      exact bcastShape_row' m n
    · rw [hC]
      simp [bcastShape, bcastDim_one_left, bcastDim_self]
    · rw [hC]
      simp [bcastShape, bcastDim_one_left, bcastDim_self]
  · intro i j hi hj
    have hta : intAttr (⟨"transA", .int ta⟩ :: ⟨"transB", .int tb⟩ :: rest) "transA" 0 = ta := by simp [intAttr, attr]
    have htb : intAttr (⟨"transA", .int ta⟩ :: ⟨"transB", .int tb⟩ :: rest) "transB" 0 = tb := by simp [intAttr, attr]
    rw [hta, htb]
    refine ⟨fun l => if ta ≠ 0 then x.get [l, i] else x.get [i, l], fun l => if tb ≠ 0 then W.get [j, l] else W.get [l, j],
      fun h l => if_pos h, fun h l => if_neg h, fun h l => if_pos h, fun h l => if_neg h, ?_⟩
    rw [hy i j hi hj, ha, hb, one_mul, one_mul, hbg i j hj]
    congr 1
    refine Finset.sum_congr rfl fun q _ => ?_
    rw [hg]
    by_cases h : ta = 0 <;> simp [h]

/-- **A transposed input that is not square cannot be converted.** The layer is built for the second declared dimension,
which is not the one that is contracted. -/
theorem gemm_transA_raises_false (ta tb s : ℤ) (rest : List Attr) (W C : Ten ℝ) (m k n : ℕ) (hmk : m ≠ k) (hn : 0 < n)
    (hW : W.shape = if tb ≠ 0 then [n, k] else [k, n]) :
    gemmNode (⟨"transA", .int ta⟩ :: ⟨"transB", .int tb⟩ :: rest) [.shape [s, (m : ℤ)], .real W, .real C] = .error .shape := by
  obtain ⟨W', eW, hW', -⟩ := gemm_kernel tb W k n hW
  rw [gemmNode_eq ta tb s m rest W W' C eW]
  unfold denseNode
  have h1 : W'.shape[1]? = some n := by rw [hW']; rfl
  have h2 : denseIn [s, (m : ℤ)] = .ok m := by simp [denseIn, dimAt]
  rw [h1, h2]
  show ((putWeight W' [m, n]).bind _) = _
  rw [putWeight_fail W' [m, n] (by
    rw [hW']
    simp only [List.prod_cons, List.prod_nil, mul_one]
    intro h
    exact hmk (Nat.eq_of_mul_eq_mul_right hn h))]
  rfl

/-- **A bias with more or fewer entries than a row cannot be converted**, although ONNX broadcasts it: a number, a column
or a full matrix. -/
theorem gemm_bias_size_false (ta tb s : ℤ) (rest : List Attr) (W C : Ten ℝ) (k n : ℕ)
    (hW : W.shape = if tb ≠ 0 then [n, k] else [k, n]) (hC : n ≠ C.shape.prod) :
    gemmNode (⟨"transA", .int ta⟩ :: ⟨"transB", .int tb⟩ :: rest) [.shape [s, (k : ℤ)], .real W, .real C] = .error .shape := by
  obtain ⟨W', eW, hW', -⟩ := gemm_kernel tb W k n hW
  obtain ⟨v, e1, -, -⟩ := putWeight_same W' [k, n] hW'
  rw [gemmNode_eq ta tb s k rest W W' C eW]
  unfold denseNode
  have h1 : W'.shape[1]? = some n := by rw [hW']; rfl
  have h2 : denseIn [s, (k : ℤ)] = .ok k := by simp [denseIn, dimAt]
  rw [h1, h2]
  show ((putWeight W' [k, n]).bind fun k' => (putBias (some C) [n]).bind _) = _
  rw [e1]
  show (((putWeight C [n]).map some).bind _) = _
  rw [putWeight_fail C [n] (by simpa using hC)]
  rfl

/-- **A bias that is a column as long as a row is taken for a row.** -/
theorem gemm_bias_column_false : ∃ (as : List Attr) (x W C y : Ten ℝ) (nd : Built),
    as = [⟨"transA", .int 0⟩, ⟨"transB", .int 0⟩] ∧ C.shape = [2, 1] ∧
    gemmNode as [.shape [-1, 1], .real W, .real C] = .ok nd ∧ x.shape = [2, 1] ∧ nd.forward [x] = .ok [y] ∧ ¬ IsGemm as x W C y := by
  obtain ⟨nd, y, e1, e2, hs, hy, -⟩ := denseNode_flip ⟨[2, 1], fun _ => 0⟩ ⟨[1, 2], fun _ => 0⟩ ⟨[2, 1], fun i => (i.getD 0 0 : ℕ)⟩ _
    false (-1) 2 1 2 rfl rfl (putBias_reshape _ 2 (by simp)) rfl
  have hn := (gemmNode_eq 0 0 (-1) 1 [] ⟨[1, 2], fun _ => 0⟩ ⟨[1, 2], fun _ => 0⟩ ⟨[2, 1], fun i => (i.getD 0 0 : ℕ)⟩ rfl).trans e1
  refine ⟨_, ⟨[2, 1], fun _ => 0⟩, ⟨[1, 2], fun _ => 0⟩, ⟨[2, 1], fun i => (i.getD 0 0 : ℕ)⟩, y, nd, rfl, rfl, hn, rfl, e2, ?_⟩
  rintro ⟨m, k, n, h1, h2, _, hs', h⟩
  rw [hs] at hs'
  injection hs' with hm hn
  injection hn with hn _
  subst hm hn
  obtain ⟨f, g, _, hf, _, hg, hv⟩ := h 0 1 (by decide) (by decide)
  have hf' := hf (by simp [intAttr, attr])
  rw [hy 0 1 (by decide) (by decide)] at hv
  simp [hf', Ten.bget, floatAttr, attr, unflat, flat] at hv

/-- A square input that is transposed, and a bias with one row. -/
example : ∃ nd y, gemmNode [⟨"transA", .int 1⟩, ⟨"transB", .int 0⟩] [.shape [3, (3 : ℕ)], .real ⟨[3, 2], fun i => (i.sum : ℝ)⟩, .real ⟨[1, 2], fun _ => 1⟩] = .ok nd ∧
    nd.forward [⟨[3, 3], fun i => (i.head! : ℝ)⟩] = .ok [y] ∧
    IsGemm [⟨"transA", .int 1⟩, ⟨"transB", .int 0⟩] ⟨[3, 3], fun i => (i.head! : ℝ)⟩ ⟨[3, 2], fun i => (i.sum : ℝ)⟩ ⟨[1, 2], fun _ => 1⟩ y ∧
    nd.outShapes = [[3, ((2 : ℕ) : ℤ)]] ∧ y.shape = [3, 2] :=
  gemm_flip_partial 1 0 [] _ _ _ 3 3 3 2 (by simp [floatAttr, attr]) (by simp [floatAttr, attr]) rfl (fun _ => rfl) rfl (.inr (.inl rfl))

end Verif.Convert
