import Verif.Convert.NodesLemmas

/-!
# The nodes of converted models compute what the ONNX operators do, and where they do not (C77)
-/

namespace Verif.Convert

open Verif.Tensor Verif.Keras Onnx

/-! ## Matrix products -/

theorem denseNode_ok (x W : Ten ℝ) (b : Option (Ten ℝ)) (m k n : ℕ) (hx : x.shape = [m, k]) (hW : W.shape = [k, n])
    (hb : ∀ t, b = some t → t.shape = [n]) :
    ∃ nd y, denseNode [-1, (k : ℤ)] W b false = .ok nd ∧ nd.forward [x] = .ok [y] ∧ y.shape = [m, n] ∧
      (∀ i j, i < m → j < n → y.get [i, j] =
        ∑ q ∈ Finset.range k, x.get [i, q] * W.get [q, j] + vecAt b j) ∧
      nd.outShapes = [[-1, (n : ℤ)]] := by
  obtain ⟨v, e1, hs1, hv⟩ := putWeight_same W [k, n] hW
  have hb' : ∃ b', putBias b [n] = .ok b' ∧ (∀ t, b' = some t → t.shape = [n]) ∧
      ∀ j, j < n → vecAt b' j = vecAt b j := by
    cases b with
    | none => exact ⟨none, rfl, by simp, fun _ _ => rfl⟩
    | some t =>
        obtain ⟨u, e2, hs2, hu⟩ := putWeight_same t [n] (hb t rfl)
        refine ⟨some u, ?_, ?_, ?_⟩
        · show (putWeight t [n]).map some = _; rw [e2]; rfl
        · intro t' h; cases h; exact hs2
        · intro j hj; exact hu [j] ⟨hj, trivial⟩
  obtain ⟨b', e2, hs2, hg2⟩ := hb'
  obtain ⟨y, e3, hs3, hy⟩ := denseCall_some v x b' m k n hx hs1 hs2
  refine ⟨{ outShapes := [[-1, (n : ℤ)]],
            forward := fun xs => do
              let x ← argAt xs 0
              let x ← flipIf false x
              let y ← denseCall v b' x
              .ok [y] }, y, ?_, ?_, hs3, ?_, rfl⟩
  · unfold denseNode
    have h1 : W.shape[1]? = some n := by rw [hW]; rfl
    have h2 : denseIn [-1, (k : ℤ)] = .ok k := by simp [denseIn, dimAt]
    rw [h1, h2]
    show ((putWeight W [k, n]).bind fun k' => (putBias b [n]).bind _) = _
    rw [e1]
    show ((putBias b [n]).bind _) = _
    rw [e2]
    rfl
  · show ((denseCall v b' x).bind fun y => Except.ok [y]) = _
    rw [e3]
    rfl
  · intro i j hi hj
    rw [hy i j hi hj, hg2 j hj]
    congr 1
    refine Finset.sum_congr rfl fun q hq => ?_
    rw [hv [q, j] ⟨Finset.mem_range.1 hq, hj, trivial⟩]

/-- **MatMul** with a constant matrix. -/
theorem matmul_node (x W : Ten ℝ) (m k n : ℕ) (hx : x.shape = [m, k]) (hW : W.shape = [k, n]) :
    ∃ nd y d, matmulNode [.shape [-1, (k : ℤ)], .real W] = .ok nd ∧ nd.forward [x] = .ok [y] ∧ IsMatMul x W y ∧
      nd.outShapes = [d] ∧ Declares d y.shape := by
  obtain ⟨nd, y, e1, e2, hs, hy, ho⟩ := denseNode_ok x W none m k n hx hW (by simp)
  refine ⟨nd, y, _, ?_, e2, ⟨m, k, n, hx, hW, hs, fun i j hi hj => ?_⟩, ho, ⟨m, [n], hs, rfl⟩⟩
  · rw [← e1]; rfl
  · rw [hy i j hi hj]; exact add_zero _

/-- **MatMul of two computed tensors, or with the constant on the left, cannot be converted.** -/
theorem matmul_operands_false (s : List ℤ) (t : Ten ℝ) :
    matmulNode [.shape s, .shape s] = .error .assertion ∧ matmulNode [.real t, .shape s] = .error .assertion := ⟨rfl, rfl⟩

theorem matmul_rank_false (a b c : ℤ) (W : Ten ℝ) (k n : ℕ) (hW : W.shape = [k, n]) :
    matmulNode [.shape [a, b, c], .real W] = .error .notImplemented := by
  show denseNode [a, b, c] W none false = _
  unfold denseNode
  have h1 : W.shape[1]? = some n := by rw [hW]; rfl
  rw [h1]
  rfl

/-- **Gemm**, if the first two attributes happen to be `transA = 0` and `transB`, and `alpha` and `beta` are
absent or 1. -/
theorem gemm_node_partial (tb : ℤ) (rest : List Attr) (x W C : Ten ℝ) (m k n : ℕ)
    (ha : floatAttr (⟨"transA", .int 0⟩ :: ⟨"transB", .int tb⟩ :: rest) "alpha" 1 = 1)
    (hb : floatAttr (⟨"transA", .int 0⟩ :: ⟨"transB", .int tb⟩ :: rest) "beta" 1 = 1)
    (hx : x.shape = [m, k]) (hW : W.shape = if tb ≠ 0 then [n, k] else [k, n]) (hC : C.shape = [n]) :
    ∃ nd y d, gemmNode (⟨"transA", .int 0⟩ :: ⟨"transB", .int tb⟩ :: rest) [.shape [-1, (k : ℤ)], .real W, .real C] = .ok nd ∧
      nd.forward [x] = .ok [y] ∧ IsGemm (⟨"transA", .int 0⟩ :: ⟨"transB", .int tb⟩ :: rest) x W C y ∧
      nd.outShapes = [d] ∧ Declares d y.shape := by
  set as := (⟨"transA", .int 0⟩ :: ⟨"transB", .int tb⟩ :: rest : List Attr) with has
  have hta : intAttr as "transA" 0 = 0 := by simp [has, intAttr, attr]
  have htb : intAttr as "transB" 0 = tb := by simp [has, intAttr, attr]
  by_cases h0 : tb = 0
  · rw [if_neg (by simpa using h0)] at hW
    obtain ⟨nd, y, e1, e2, hs, hy, ho⟩ := denseNode_ok x W (some C) m k n hx hW (by rintro t ⟨⟩; exact hC)
    refine ⟨nd, y, _, ?_, e2, ⟨m, k, n, ?_, ?_, ?_, hs, ?_⟩, ho, ⟨m, [n], hs, rfl⟩⟩
    · rw [← e1, has, h0]
      rfl
    · exact .inr ⟨by simp [hta], hx⟩
    · exact .inr ⟨by simp [htb, h0], hW⟩
    · rw [hC]; exact bcastShape_row' m n
    · intro i j hi hj
      refine ⟨fun l => x.get [i, l], fun l => W.get [l, j], by simp [hta], fun _ _ => rfl, by simp [htb, h0], fun _ _ => rfl, ?_⟩
      rw [hy i j hi hj, ha, hb, bget_row C n i j hC hj, one_mul, one_mul]
      rfl
  · rw [if_pos (by simpa using h0)] at hW
    obtain ⟨nd, y, e1, e2, hs, hy, ho⟩ := denseNode_ok x ⟨[k, n], fun idx => W.get [idx.getD 1 0, idx.getD 0 0]⟩ (some C) m k n hx rfl
      (by rintro t ⟨⟩; exact hC)
    refine ⟨nd, y, _, ?_, e2, ⟨m, k, n, ?_, ?_, ?_, hs, ?_⟩, ho, ⟨m, [n], hs, rfl⟩⟩
    · rw [← e1, has]
      unfold gemmNode
      show ((flipIf (tb ≠ 0) W).bind _) = _
      unfold flipIf
      rw [if_pos (by simpa using h0), transpose_10 W n k hW]
      rfl
    · exact .inr ⟨by simp [hta], hx⟩
    · exact .inl ⟨by rw [htb]; exact h0, hW⟩
    · rw [hC]; exact bcastShape_row' m n
    · intro i j hi hj
      refine ⟨fun l => x.get [i, l], fun l => W.get [j, l], by simp [hta], fun _ _ => rfl, fun _ _ => rfl, by rw [htb]; exact fun h => (h h0).elim, ?_⟩
      rw [hy i j hi hj, ha, hb, bget_row C n i j hC hj, one_mul, one_mul]
      rfl

/-- **The flags of Gemm are read by position.** With the attributes in the usual order, `alpha` and `beta`
first, the node computes `A * B + C` for whatever values `alpha`, `beta`, `transA` and `transB` have… -/
theorem gemm_position (α β : ℝ) (rest : List Attr) (x W C : Ten ℝ) (m k n : ℕ)
    (hx : x.shape = [m, k]) (hW : W.shape = [k, n]) (hC : C.shape = [n]) :
    ∃ nd y, gemmNode (⟨"alpha", .float α⟩ :: ⟨"beta", .float β⟩ :: rest) [.shape [-1, (k : ℤ)], .real W, .real C] = .ok nd ∧
      nd.forward [x] = .ok [y] ∧ y.shape = [m, n] ∧
      ∀ i j, i < m → j < n → y.get [i, j] = ∑ q ∈ Finset.range k, x.get [i, q] * W.get [q, j] + C.get [j] := by
  obtain ⟨nd, y, e1, e2, hs, hy, _⟩ := denseNode_ok x W (some C) m k n hx hW (by rintro t ⟨⟩; exact hC)
  exact ⟨nd, y, by rw [← e1]; rfl, e2, hs, hy⟩

/-- …so the node that PyTorch exports for a linear layer, with `transB = 1`, cannot be built if the kernel
is not square… -/
theorem gemm_transB_raises_false (α β : ℝ) (rest : List Attr) (W C : Ten ℝ) (n k : ℕ) (hW : W.shape = [n, k]) (hC : C.shape = [n])
    (hk : 0 < k) (hn : n ≠ k) :
    gemmNode (⟨"alpha", .float α⟩ :: ⟨"beta", .float β⟩ :: rest) [.shape [-1, (k : ℤ)], .real W, .real C] = .error .shape := by
  show denseNode [-1, (k : ℤ)] W (some C) false = _
  unfold denseNode
  have h1 : W.shape[1]? = some k := by rw [hW]; rfl
  have h2 : denseIn [-1, (k : ℤ)] = .ok k := by simp [denseIn, dimAt]
  rw [h1, h2]
  show ((putWeight W [k, k]).bind _) = _
  rw [putWeight_fail W [k, k] (by
    rw [hW]; simp only [List.prod_cons, List.prod_nil, mul_one]
    intro h; exact hn (Nat.eq_of_mul_eq_mul_right hk h).symm)]
  rfl

/-- …and silently computes something else if it is. -/
theorem gemm_transB_false : ∃ (as : List Attr) (x W C y : Ten ℝ) (nd : Built),
    as = [⟨"alpha", .float 1⟩, ⟨"beta", .float 1⟩, ⟨"transB", .int 1⟩] ∧
    gemmNode as [.shape [-1, 2], .real W, .real C] = .ok nd ∧ x.shape = [1, 2] ∧ nd.forward [x] = .ok [y] ∧ ¬ IsGemm as x W C y := by
  obtain ⟨nd, y, e1, e2, hs, hy⟩ := gemm_position 1 1 [⟨"transB", .int 1⟩]
    ⟨[1, 2], fun idx => if idx = [0, 0] then 1 else 0⟩ ⟨[2, 2], fun idx => if idx = [0, 1] then 1 else 0⟩ ⟨[2], fun _ => 0⟩
    1 2 2 rfl rfl rfl
  refine ⟨_, _, _, _, y, nd, rfl, e1, rfl, e2, ?_⟩
  rintro ⟨m, k, n, h1, h2, _, hs', h⟩
  rw [hs] at hs'
  injection hs' with hm hn
  injection hn with hn _
  subst hm hn
  have hk : k = 2 := by
    rcases h1 with ⟨_, h⟩ | ⟨_, h⟩ <;> simp at h <;> omega
  subst hk
  obtain ⟨f, g, _, hf, hg, _, hv⟩ := h 0 1 (by decide) (by decide)
  have hf' := hf (by simp [intAttr, attr])
  have hg' := hg (by simp [intAttr, attr])
  rw [hy 0 1 (by decide) (by decide)] at hv
  simp [hf', hg', Ten.bget, Finset.sum_range_succ, floatAttr, attr] at hv

/-- **`alpha` is ignored.** -/
theorem gemm_alpha_false : ∃ (as : List Attr) (x W C y : Ten ℝ) (nd : Built),
    as = [⟨"transA", .int 0⟩, ⟨"transB", .int 0⟩, ⟨"alpha", .float 2⟩] ∧
    gemmNode as [.shape [-1, 1], .real W, .real C] = .ok nd ∧ x.shape = [1, 1] ∧ nd.forward [x] = .ok [y] ∧ ¬ IsGemm as x W C y := by
  obtain ⟨nd, y, e1, e2, hs, hy, _⟩ := denseNode_ok ⟨[1, 1], fun _ => 1⟩ ⟨[1, 1], fun _ => 1⟩ (some ⟨[1], fun _ => 0⟩) 1 1 1 rfl rfl
    (by rintro t ⟨⟩; rfl)
  refine ⟨_, ⟨[1, 1], fun _ => 1⟩, ⟨[1, 1], fun _ => 1⟩, ⟨[1], fun _ => 0⟩, y, nd, rfl, by rw [← e1]; rfl, rfl, e2, ?_⟩
  rintro ⟨m, k, n, h1, h2, _, hs', h⟩
  rw [hs] at hs'
  injection hs' with hm hn
  injection hn with hn _
  subst hm hn
  have hk : k = 1 := by
    rcases h1 with ⟨_, h⟩ | ⟨_, h⟩ <;> simp at h <;> omega
  subst hk
  obtain ⟨f, g, _, hf, _, hg, hv⟩ := h 0 0 (by decide) (by decide)
  have hf' := hf (by simp [intAttr, attr])
  have hg' := hg (by simp [intAttr, attr])
  rw [hy 0 0 (by decide) (by decide)] at hv
  simp [hf', hg', Ten.bget, floatAttr, attr, vecAt] at hv

/-- A node with fewer than two attributes (all others at their defaults) cannot be built. -/
theorem gemm_defaults_false (as : List Attr) (h : as.length < 2) (s : List ℤ) (W C : Ten ℝ) :
    gemmNode as [.shape s, .real W, .real C] = .error .index := by
  match as, h with
  | [], _ => rfl
  | [a], _ => rfl

example : ∃ nd y d, gemmNode [⟨"transA", .int 0⟩, ⟨"transB", .int 1⟩] [.shape [-1, (3 : ℕ)], .real ⟨[2, 3], fun i => (i.sum : ℝ)⟩, .real ⟨[2], fun _ => 1⟩] = .ok nd ∧
    nd.forward [⟨[5, 3], fun i => (i.sum : ℝ)⟩] = .ok [y] ∧
    IsGemm [⟨"transA", .int 0⟩, ⟨"transB", .int 1⟩] ⟨[5, 3], fun i => (i.sum : ℝ)⟩ ⟨[2, 3], fun i => (i.sum : ℝ)⟩ ⟨[2], fun _ => 1⟩ y ∧
    nd.outShapes = [d] ∧ Declares d y.shape :=
  gemm_node_partial 1 [] _ _ _ 5 3 2 (by simp [floatAttr, attr]) (by simp [floatAttr, attr]) rfl rfl rfl

end Verif.Convert
