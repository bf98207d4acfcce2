import Verif.Convert.LayerGradLemmas

/-!
# C79: gradients of converted nodes that wrap a layer

`IsGradientOf f xs dys dxs` (`NodeGradSpec.lean`) says that `dxs` are the gradients with respect to the inputs `xs`
of `f`, if `dys` are those with respect to its outputs. For the nodes with weights `f` is a function of the weights
too (`ofWeights`).
-/

namespace Verif.Convert

open Verif.Tensor Verif.Keras Verif.Convert.Onnx
open Verif.Aby3 (logistic)

/-! ## Matrix products -/

section
variable {m k n : ℕ}

theorem flip_none (Z : Ten ℝ) (h : Z.shape = [m, k]) : ∃ z : Ten ℝ, flipIf false Z = .ok z ∧ z.shape = [m, k] ∧
    ∀ i : Fin m × Fin k, z.get [(i.1 : ℕ), (i.2 : ℕ)] = Z.get ((num2 m k).at_ i) := ⟨Z, rfl, h, fun _ => rfl⟩

theorem flip_some (Z : Ten ℝ) (h : Z.shape = [k, m]) : ∃ z : Ten ℝ, flipIf true Z = .ok z ∧ z.shape = [m, k] ∧
    ∀ i j : ℕ, z.get [i, j] = Z.get [j, i] := by
  refine ⟨⟨[m, k], fun idx => Z.get [idx.getD 1 0, idx.getD 0 0]⟩, ?_, rfl, fun _ _ => rfl⟩
  unfold flipIf
  rw [if_pos rfl, transpose_10 Z k m h]
  rfl

theorem denseForward_ok (flip : Bool) {sX : List ℕ} (eι : Numbered sX (Fin m × Fin k))
    (hflip : ∀ Z : Ten ℝ, Z.shape = sX → ∃ z : Ten ℝ, flipIf flip Z = .ok z ∧ z.shape = [m, k] ∧
      ∀ i : Fin m × Fin k, z.get [(i.1 : ℕ), (i.2 : ℕ)] = Z.get (eι.at_ i))
    (bias : Bool) (K B Z : Ten ℝ) (hK : K.shape = [k, n]) (hB : bias = true → B.shape = [n]) (hZ : Z.shape = sX) :
    ∃ Y : Ten ℝ, denseForward flip K (if bias then some B else none) [Z] = .ok [Y] ∧ Y.shape = [m, n] ∧
      ∀ j, Y.get ((num2 m n).at_ j) = affine bias (readWeights (num2 k n) (num1 n) bias K B) (eι.read Z) j := by
  obtain ⟨z, e1, hz, hg⟩ := hflip Z hZ
  obtain ⟨Y, e2, hY, hv⟩ := denseCall_some K z (if bias then some B else none) m k n hz hK (by
    intro t ht
    cases bias with
    | false => cases ht
    | true => cases ht; exact hB rfl)
  refine ⟨Y, ?_, hY, fun j => ?_⟩
  · show ((flipIf flip Z).bind _) = _
    rw [e1]
    show ((denseCall K _ z).bind _) = _
    rw [e2]; rfl
  · refine (hv j.1 j.2 j.1.2 j.2.2).trans ?_
    unfold affine
    rw [Finset.sum_range]
    refine congrArg₂ (· + ·) (Finset.sum_congr rfl fun q _ => ?_) ?_
    · rw [hg (j.1, q)]; rfl
    · cases bias <;> rfl

theorem denseBack_ok (flip : Bool) {sX : List ℕ} (eι : Numbered sX (Fin m × Fin k))
    (hflip : ∀ Z : Ten ℝ, Z.shape = sX → ∃ z : Ten ℝ, flipIf flip Z = .ok z ∧ z.shape = [m, k] ∧
      ∀ i : Fin m × Fin k, z.get [(i.1 : ℕ), (i.2 : ℕ)] = Z.get (eι.at_ i))
    (hback : ∀ Z : Ten ℝ, Z.shape = [m, k] → ∃ z : Ten ℝ, flipIf flip Z = .ok z ∧ z.shape = sX ∧
      ∀ i : Fin m × Fin k, z.get (eι.at_ i) = Z.get [(i.1 : ℕ), (i.2 : ℕ)])
    (bias : Bool) (K B X dY : Ten ℝ) (hK : K.shape = [k, n]) (hX : X.shape = sX) (hd : dY.shape = [m, n]) :
    ∃ dK dB dX : Ten ℝ, denseBack flip K bias X [dY] = .ok (dK :: (if bias then [dB] else []), [dX]) ∧ dK.shape = [k, n] ∧
      dB.shape = [n] ∧ dX.shape = sX ∧
      readWeights (num2 k n) (num1 n) bias dK dB = (affineBack bias false (readWeights (num2 k n) (num1 n) bias K B)
        (eι.read X) ((num2 m n).read dY)).1 ∧
      eι.read dX = (affineBack bias false (readWeights (num2 k n) (num1 n) bias K B) (eι.read X) ((num2 m n).read dY)).2 := by
  obtain ⟨x, e1, hx, hxg⟩ := hflip X hX
  obtain ⟨kt, e2, hkt, hktg⟩ := flip_some K hK
  obtain ⟨dx, e3, hdx, hdxg⟩ := matmul_some dY kt m n k hd hkt
  obtain ⟨xt, e4, hxt, hxtg⟩ := flip_some x hx
  obtain ⟨dk, e5, hdk, hdkg⟩ := matmul_some xt dY k m n hxt hd
  obtain ⟨dX, e6, hdX, hdXg⟩ := hback dx hdx
  refine ⟨dk, ⟨[n], fun i => ∑ b ∈ Finset.range m, dY.get (b :: i)⟩, dX, ?_, hdk, rfl, hdX, ?_, ?_⟩
  · have hb : biasGrads bias dY = .ok (if bias then [⟨[n], fun i => ∑ b ∈ Finset.range m, dY.get (b :: i)⟩] else []) := by
      unfold biasGrads sumBatch
      rw [hd]
      cases bias <;> rfl
    have hr : denseBackward K bias x dY = .ok (dk :: (if bias then [⟨[n], fun i => ∑ b ∈ Finset.range m, dY.get (b :: i)⟩] else []), dx) := by
      unfold denseBackward
      rw [e2]
      show ((orShape (Tensor.matmul dY kt)).bind _) = _
      rw [e3]
      show ((flipIf true x).bind _) = _
      rw [e4]
      show ((orShape (Tensor.matmul xt dY)).bind _) = _
      rw [e5]
      show ((biasGrads bias dY).bind _) = _
      rw [hb]; rfl
    show ((flipIf flip X).bind _) = _
    rw [e1]
    show ((denseBackward K bias x dY).bind _) = _
    rw [hr]
    show ((flipIf flip dx).bind _) = _
    rw [e6]; rfl
  · funext i
    cases i with
    | inl p =>
        obtain ⟨p, q⟩ := p
        refine (hdkg p q).trans ?_
        simp only [affineBack, Bool.false_eq_true, if_false, div_one]
        rw [Finset.sum_range]
        refine Finset.sum_congr rfl fun b _ => ?_
        rw [hxtg, hxg (b, p)]; rfl
    | inr q =>
        obtain ⟨q, hq⟩ := q
        simp only [affineBack, Bool.false_eq_true, if_false, div_one]
        show ∑ b ∈ Finset.range m, dY.get [b, (q : ℕ)] = _
        rw [Finset.sum_range]; rfl
  · funext i
    show dX.get (eι.at_ i) = _
    rw [hdXg i, hdxg, Finset.sum_range]
    refine Finset.sum_congr rfl fun q _ => ?_
    rw [hktg]; rfl

theorem dense_gradient_core (flip : Bool) {sX : List ℕ} (eι : Numbered sX (Fin m × Fin k))
    (hflip : ∀ Z : Ten ℝ, Z.shape = sX → ∃ z : Ten ℝ, flipIf flip Z = .ok z ∧ z.shape = [m, k] ∧
      ∀ i : Fin m × Fin k, z.get [(i.1 : ℕ), (i.2 : ℕ)] = Z.get (eι.at_ i))
    (hback : ∀ Z : Ten ℝ, Z.shape = [m, k] → ∃ z : Ten ℝ, flipIf flip Z = .ok z ∧ z.shape = sX ∧
      ∀ i : Fin m × Fin k, z.get (eι.at_ i) = Z.get [(i.1 : ℕ), (i.2 : ℕ)])
    (K X dY : Ten ℝ) (b : Option (Ten ℝ)) (hK : K.shape = [k, n]) (hb : ∀ t, b = some t → t.shape = [n]) (hX : X.shape = sX)
    (hd : dY.shape = [m, n]) :
    ∃ dK dbs dX, denseBack flip K b.isSome X [dY] = .ok (dK :: dbs, [dX]) ∧
      IsGradientOf (ofWeights (denseForward flip) b.isSome) (K :: b.toList ++ [X]) [dY] (dK :: dbs ++ [dX]) := by
  cases b with
  | none =>
      obtain ⟨dK, dB, dX, e, hdK, hdB, hdX, h1, h2⟩ := denseBack_ok flip eι hflip hback false K K X dY hK hX hd
      refine ⟨dK, [], dX, e, ?_⟩
      refine gradient_kernel (num2 k n) (num1 n) eι (num2 m n) (denseForward flip) (affine false) K K X dY dK dB dX hK hX hd
        hdK hdX (fun K' Z hK' hZ => denseForward_ok flip eι hflip false K' K Z hK' (by simp) hZ) ?_
      rw [h1, h2]
      exact fun γ v χ u t a1 a2 a3 a4 => affine_exact false _ _ _ γ v χ u t a1 a2 a3 a4
  | some B =>
      obtain ⟨dK, dB, dX, e, hdK, hdB, hdX, h1, h2⟩ := denseBack_ok flip eι hflip hback true K B X dY hK hX hd
      refine ⟨dK, [dB], dX, e, ?_⟩
      refine gradient_bias (num2 k n) (num1 n) eι (num2 m n) (denseForward flip) (affine true) K B X dY dK dB dX hK (hb B rfl) hX hd
        hdK hdB hdX (fun K' B' Z hK' hB' hZ => denseForward_ok flip eι hflip true K' B' Z hK' (fun _ => hB') hZ) ?_
      rw [h1, h2]
      exact fun γ v χ u t a1 a2 a3 a4 => affine_exact true _ _ _ γ v χ u t a1 a2 a3 a4

end

/-- **C79 (matrix products).** For all weights of the layer of `MatmulNode` and `GemmNode` and all inputs that fit, also
transposed ones, `backward` returns the gradients of the kernel, of the bias if there is one, and of the input. -/
theorem dense_gradient (flip : Bool) (K X dY : Ten ℝ) (b : Option (Ten ℝ)) (m k n : ℕ) (hK : K.shape = [k, n])
    (hb : ∀ t, b = some t → t.shape = [n]) (hX : X.shape = if flip then [k, m] else [m, k]) (hd : dY.shape = [m, n]) :
    ∃ dK dbs dX, denseBack flip K b.isSome X [dY] = .ok (dK :: dbs, [dX]) ∧
      IsGradientOf (ofWeights (denseForward flip) b.isSome) (K :: b.toList ++ [X]) [dY] (dK :: dbs ++ [dX]) := by
  cases flip with
  | false => exact dense_gradient_core false (num2 m k) (fun Z hZ => flip_none Z hZ) (fun Z hZ => ⟨Z, rfl, hZ, fun _ => rfl⟩) K X dY b hK hb hX hd
  | true =>
      refine dense_gradient_core true (num2' m k) (fun Z hZ => ?_) (fun Z hZ => ?_) K X dY b hK hb hX hd
      · obtain ⟨z, e, hz, hg⟩ := flip_some Z hZ
        exact ⟨z, e, hz, fun i => hg _ _⟩
      · obtain ⟨z, e, hz, hg⟩ := flip_some Z hZ
        exact ⟨z, e, hz, fun i => hg _ _⟩

/-- The layer that `denseNode` builds. -/
theorem denseNode_layer (W : Ten ℝ) (b : Option (Ten ℝ)) (flip : Bool) (k n : ℕ) (hW : W.shape = [k, n])
    (hb : ∀ t, b = some t → t.shape = [n]) :
    ∃ nd K b', denseNode [-1, (k : ℤ)] W b flip = .ok nd ∧ nd.forward = denseForward flip K b' ∧ K.shape = [k, n] ∧
      (∀ i j, i < k → j < n → K.get [i, j] = W.get [i, j]) ∧ (∀ t, b' = some t → t.shape = [n]) ∧ b'.isSome = b.isSome ∧
      ∀ j, j < n → vecAt b' j = vecAt b j := by
  obtain ⟨v, e1, hs1, hv⟩ := putWeight_same W [k, n] hW
  have hb' : ∃ b', putBias b [n] = .ok b' ∧ (∀ t, b' = some t → t.shape = [n]) ∧ b'.isSome = b.isSome ∧
      ∀ j, j < n → vecAt b' j = vecAt b j := by
    cases b with
    | none => exact ⟨none, rfl, by simp, rfl, fun _ _ => rfl⟩
    | some t =>
        obtain ⟨u, e2, hs2, hu⟩ := putWeight_same t [n] (hb t rfl)
        refine ⟨some u, ?_, ?_, rfl, ?_⟩
        · show (putWeight t [n]).map some = _; rw [e2]; rfl
        · intro t' h; cases h; exact hs2
        · intro j hj; exact hu [j] ⟨hj, trivial⟩
  obtain ⟨b', e2, hs2, hi, hg2⟩ := hb'
  refine ⟨⟨[[-1, (n : ℤ)]], denseForward flip v b'⟩, v, b', ?_, rfl, hs1,
    fun i j h1 h2 => hv [i, j] ⟨h1, h2, trivial⟩, hs2, hi, hg2⟩
  unfold denseNode
  have h1 : W.shape[1]? = some n := by rw [hW]; rfl
  have h2 : denseIn [-1, (k : ℤ)] = .ok k := by simp [denseIn, dimAt]
  rw [h1, h2]
  show ((putWeight W [k, n]).bind fun k' => (putBias b [n]).bind _) = _
  rw [e1]
  show ((putBias b [n]).bind _) = _
  rw [e2]
  rfl

/-- **C79 (MatMul).** The node has a weight `K` with the entries of the constant, and `backward` returns the gradients
of `K` and of the input. -/
theorem matmul_gradient (W X dY : Ten ℝ) (m k n : ℕ) (hW : W.shape = [k, n]) (hX : X.shape = [m, k]) (hd : dY.shape = [m, n]) :
    ∃ nd K dK dX, matmulNode [.shape [-1, (k : ℤ)], .real W] = .ok nd ∧ nd.forward = denseForward false K none ∧
      (∀ i j, i < k → j < n → K.get [i, j] = W.get [i, j]) ∧ denseBack false K false X [dY] = .ok ([dK], [dX]) ∧
      IsGradientOf (ofWeights (denseForward false) false) [K, X] [dY] [dK, dX] ∧ IsGradientOf nd.forward [X] [dY] [dX] := by
  obtain ⟨nd, K, b', e1, e2, hK, hg, hb, hi, -⟩ := denseNode_layer W none false k n hW (by simp)
  obtain rfl : b' = none := by cases b' with | none => rfl | some _ => simp at hi
  obtain ⟨dK, dbs, dX, e3, h⟩ := dense_gradient false K X dY none m k n hK (by simp) hX hd
  obtain ⟨dK', _, dX', e4, _⟩ := denseBack_ok (m := m) false (num2 m k) (fun Z hZ => flip_none Z hZ) (fun Z hZ => ⟨Z, rfl, hZ, fun _ => rfl⟩)
    false K K X dY hK hX hd
  have e5 := e3.symm.trans e4
  simp only [Bool.false_eq_true, if_false, Except.ok.injEq, Prod.mk.injEq, List.cons.injEq, and_true] at e5
  obtain ⟨⟨rfl, rfl⟩, rfl⟩ := e5
  exact ⟨nd, K, dK, dX, e1, e2, hg, e3, h, by rw [e2]; exact IsGradientOf.kernel_input h⟩

/-- **C79 (Gemm).** With the attributes `transA` and `transB` first, as the node reads them, and a vector as bias. A
transposed input has to be square: the kernel is built for the declared shape. -/
theorem gemm_gradient (ta tb : ℤ) (rest : List Attr) (W C X dY : Ten ℝ) (m k n : ℕ)
    (hW : W.shape = if tb ≠ 0 then [n, k] else [k, n]) (hC : C.shape = [n]) (hX : X.shape = [m, k]) (ha : ta ≠ 0 → m = k)
    (hd : dY.shape = [m, n]) :
    ∃ nd K B dK dB dX, gemmNode (⟨"transA", .int ta⟩ :: ⟨"transB", .int tb⟩ :: rest) [.shape [-1, (k : ℤ)], .real W, .real C] = .ok nd ∧
      nd.forward = denseForward (ta ≠ 0) K (some B) ∧
      (∀ i j, i < k → j < n → K.get [i, j] = if tb ≠ 0 then W.get [j, i] else W.get [i, j]) ∧
      (∀ j, j < n → B.get [j] = C.get [j]) ∧
      denseBack (ta ≠ 0) K true X [dY] = .ok ([dK, dB], [dX]) ∧
      IsGradientOf (ofWeights (denseForward (ta ≠ 0)) true) [K, B, X] [dY] [dK, dB, dX] ∧
      IsGradientOf nd.forward [X] [dY] [dX] := by
  obtain ⟨W', eW, hW', hg'⟩ : ∃ W' : Ten ℝ, flipIf (tb ≠ 0) W = .ok W' ∧ W'.shape = [k, n] ∧
      ∀ i j, W'.get [i, j] = if tb ≠ 0 then W.get [j, i] else W.get [i, j] := by
    by_cases h : tb = 0
    · simp only [h, ne_eq, not_true_eq_false, if_false, decide_false] at hW ⊢
      exact ⟨W, rfl, hW, fun _ _ => rfl⟩
    · simp only [h, ne_eq, not_false_eq_true, if_true, decide_true] at hW ⊢
      exact flip_some W hW
  obtain ⟨nd, K, b', e1, e2, hK, hg, hb, hi, hv⟩ := denseNode_layer W' (some C) (ta ≠ 0) k n hW' (by rintro t ⟨⟩; exact hC)
  obtain ⟨B, rfl⟩ : ∃ B, b' = some B := by cases b' with | none => simp at hi | some B => exact ⟨B, rfl⟩
  have hX' : X.shape = if (decide (ta ≠ 0) : Bool) then [k, m] else [m, k] := by
    by_cases h : ta = 0
    · simp [h, hX]
    · simp [h, hX, ha h]
  obtain ⟨dK, dbs, dX, e3, h⟩ := dense_gradient (ta ≠ 0) K X dY (some B) m k n hK hb hX' hd
  obtain ⟨dB, rfl⟩ : ∃ dB, dbs = [dB] := by
    have := h.1
    simp only [Option.toList_some, List.cons_append, List.nil_append] at this
    match dbs, this with
    | [], .cons _ (.cons _ h) => cases h
    | [dB], _ => exact ⟨dB, rfl⟩
    | _ :: _ :: [], .cons _ (.cons _ (.cons _ h)) => cases h
    | _ :: _ :: _ :: _, .cons _ (.cons _ (.cons _ h)) => cases h
  refine ⟨nd, K, B, dK, dB, dX, ?_, e2, fun i j h1 h2 => by rw [hg i j h1 h2, hg'], hv, e3, h, ?_⟩
  · rw [← e1]
    unfold gemmNode
    show ((flipIf (tb ≠ 0) W).bind _) = _
    rw [eW]
    rfl
  · rw [e2]
    exact IsGradientOf.bias_input h

/-- Two samples of three features with a bias, the weight stored transposed. -/
example : ∃ nd K B dK dB dX, gemmNode [⟨"transA", .int 0⟩, ⟨"transB", .int 1⟩]
      [.shape [-1, 3], .real ⟨[2, 3], fun i => i.sum + 1⟩, .real ⟨[2], fun _ => 5⟩] = .ok nd ∧
    nd.forward = denseForward false K (some B) ∧ denseBack false K true ⟨[2, 3], fun i => i.sum⟩ [⟨[2, 2], fun _ => 1⟩] = .ok ([dK, dB], [dX]) ∧
    IsGradientOf nd.forward [⟨[2, 3], fun i => i.sum⟩] [⟨[2, 2], fun _ => 1⟩] [dX] := by
  obtain ⟨nd, K, B, dK, dB, dX, e1, e2, -, -, e3, -, e4⟩ := gemm_gradient 0 1 [] ⟨[2, 3], fun i => i.sum + 1⟩ ⟨[2], fun _ => 5⟩
    ⟨[2, 3], fun i => i.sum⟩ ⟨[2, 2], fun _ => 1⟩ 2 3 2 rfl rfl rfl (by simp) rfl
  exact ⟨nd, K, B, dK, dB, dX, e1, e2, e3, e4⟩

/-- A matrix product. -/
example : ∃ nd K dK dX, matmulNode [.shape [-1, 3], .real ⟨[3, 2], fun i => i.sum⟩] = .ok nd ∧
    denseBack false K false ⟨[4, 3], fun i => i.sum⟩ [⟨[4, 2], fun _ => 1⟩] = .ok ([dK], [dX]) ∧
    IsGradientOf nd.forward [⟨[4, 3], fun i => i.sum⟩] [⟨[4, 2], fun _ => 1⟩] [dX] := by
  obtain ⟨nd, K, dK, dX, e1, -, -, e2, -, e3⟩ := matmul_gradient ⟨[3, 2], fun i => i.sum⟩ ⟨[4, 3], fun i => i.sum⟩ ⟨[4, 2], fun _ => 1⟩ 4 3 2
    rfl rfl rfl
  exact ⟨nd, K, dK, dX, e1, e2, e3⟩

/-- A transposed input. -/
example : ∃ dK dbs dX, denseBack true ⟨[3, 2], fun i => i.sum⟩ true ⟨[3, 4], fun i => i.sum⟩ [⟨[4, 2], fun _ => 1⟩] = .ok (dK :: dbs, [dX]) := by
  obtain ⟨dK, dbs, dX, e, -⟩ := dense_gradient true ⟨[3, 2], fun i => i.sum⟩ ⟨[3, 4], fun i => i.sum⟩ ⟨[4, 2], fun _ => 1⟩
    (some ⟨[2], fun _ => 5⟩) 4 3 2 rfl (by rintro t ⟨⟩; rfl) rfl rfl
  exact ⟨dK, dbs, dX, e⟩

end Verif.Convert
