import Verif.Convert.NodeGradProps

/-!
# C79: gradients of Add, Sub, Mul, Neg, Concat, Split and Pad; nodes without gradients
-/

namespace Verif.Convert

open Verif.Tensor Verif.Keras Verif.Convert.Onnx

/-! ## Arithmetic -/

theorem zip_under : ∀ {r i : List ℕ}, InShape r i → List.zipWith (fun d q => if d = 1 then 0 else q) r i = i
  | [], [], _ => rfl
  | d :: r, q :: i, h => by
      rw [List.zipWith_cons_cons, zip_under h.2]
      have := h.1
      congr 1
      split_ifs <;> omega
  | [], _ :: _, h => h.elim
  | _ :: _, [], h => h.elim

theorem under_self {s i : List ℕ} (h : InShape s i) : under s i = i := by
  unfold under
  rw [(inShape_iff.1 h).1, Nat.sub_self, List.drop_zero, zip_under h]

theorem under_tail {s i : List ℕ} (h : InShape s i) (b : ℕ) : under s (b :: i) = i := by
  unfold under
  rw [List.length_cons, (inShape_iff.1 h).1, Nat.add_sub_cancel_left, List.drop_one, List.tail_cons, zip_under h]

/-- An operation on every pair of entries, on tensors of the same shape. -/
theorem gradient_both (g ga gb : ℝ → ℝ → ℝ) (A B dY dA dB : Ten ℝ) (hB : B.shape = A.shape) (hd : dY.shape = A.shape)
    (hg : ∀ (α β : ℝ → ℝ) (a b t : ℝ), HasDerivAt α a t → HasDerivAt β b t →
      HasDerivAt (fun s => g (α s) (β s)) (ga (α t) (β t) * a + gb (α t) (β t) * b) t)
    (hAs : dA.shape = A.shape) (hBs : dB.shape = A.shape)
    (hA : ∀ i, InShape A.shape i → dA.get i = ga (A.get i) (B.get i) * dY.get i)
    (hBd : ∀ i, InShape A.shape i → dB.get i = gb (A.get i) (B.get i) * dY.get i) :
    IsGradientOf (pointBoth g) [A, B] [dY] [dA, dB] := by
  refine ⟨.cons hAs (.cons (hBs.trans hB.symm) .nil), ?_⟩
  intro χs vs t hχ hm
  obtain ⟨α, β, rfl⟩ : ∃ α β, χs = [α, β] := by
    match χs, hχ with
    | [α, β], _ => exact ⟨α, β, rfl⟩
  cases hm with
  | @cons _ V _ _ hV h2 =>
  cases h2 with
  | @cons _ W _ _ hW h3 =>
  cases h3
  simp only [List.map_cons, List.map_nil, List.cons.injEq, and_true] at hχ
  obtain ⟨rfl, rfl⟩ := hχ
  have hVs : V.shape = (α t).shape := (hV.1 t).symm
  have hWs : W.shape = (α t).shape := by rw [← hW.1 t, hB]
  have hαs : ∀ s, (α s).shape = (α t).shape := fun s => (hV.1 s).trans hVs
  have hβs : ∀ s, (β s).shape = (α t).shape := fun s => (hW.1 s).trans hWs
  choose Y hY hYs hP using fun s => pointBoth_ok g (α s) (β s) (α t).shape (by
    rw [hαs s, hβs s]; exact broadcast_self _)
  have hYg : ∀ s i, InShape (α t).shape i → (Y s).get i = g ((α s).get i) ((β s).get i) := fun s i hi => by
    rw [(hP s).2 i (by rw [hYs s]; exact hi), hαs s, hβs s, under_self hi]
  refine ⟨[Y], [⟨(α t).shape, fun i => ga ((α t).get i) ((β t).get i) * V.get i + gb ((α t).get i) ((β t).get i) * W.get i⟩],
    hY, .cons ⟨hYs, fun i hi => ?_⟩ .nil, .cons hd .nil, ?_⟩
  · have e : (fun s => (Y s).get i) = fun s => g ((α s).get i) ((β s).get i) := by funext s; exact hYg s i hi
    rw [e]
    exact hg _ _ _ _ t (hV.2 i (by rw [hVs]; exact hi)) (hW.2 i (by rw [hWs]; exact hi))
  · simp only [List.zipWith_cons_cons, List.zipWith_nil_left, List.sum_cons, List.sum_nil, add_zero, Onnx.inner]
    rw [hd, hAs, hBs, ← Finset.sum_add_distrib]
    refine Finset.sum_congr rfl fun i hi => ?_
    rw [mem_indices] at hi
    rw [hA i hi, hBd i hi]; ring

/-- **C79 (Add).** Two computed tensors of the same shape. -/
theorem add_gradient_partial (s s' : List ℤ) (A B dY : Ten ℝ) (hB : B.shape = A.shape) (hd : dY.shape = A.shape) :
    ∃ nd dA dB, addNode [.shape s, .shape s'] = .ok nd ∧ addBack [dY] = .ok [dA, dB] ∧
      IsGradientOf nd.forward [A, B] [dY] [dA, dB] := by
  refine ⟨⟨[s], pointBoth (· + ·)⟩, dY, dY, rfl, rfl, ?_⟩
  refine gradient_both _ (fun _ _ => 1) (fun _ _ => 1) A B dY _ _ hB hd ?_ hd hd (fun i _ => by ring) (fun i _ => by ring)
  intro α β a b t h1 h2
  exact (h1.fun_add h2).congr_deriv (by ring)

/-- **C79 (Sub).** -/
theorem sub_gradient_partial (s s' : List ℤ) (A B dY : Ten ℝ) (hB : B.shape = A.shape) (hd : dY.shape = A.shape) :
    ∃ nd dA dB, binNode (· - ·) [.shape s, .shape s'] = .ok nd ∧ subBack [dY] = .ok [dA, dB] ∧
      IsGradientOf nd.forward [A, B] [dY] [dA, dB] := by
  refine ⟨⟨[s], pointBoth (· - ·)⟩, dY, negT dY, rfl, rfl, ?_⟩
  refine gradient_both _ (fun _ _ => 1) (fun _ _ => -1) A B dY _ _ hB hd ?_ hd hd (fun i _ => by ring)
    (fun i _ => by simp [negT])
  intro α β a b t h1 h2
  exact (h1.fun_sub h2).congr_deriv (by ring)

/-- **C79 (Mul).** -/
theorem mul_gradient_partial (s s' : List ℤ) (A B dY : Ten ℝ) (hB : B.shape = A.shape) (hd : dY.shape = A.shape) :
    ∃ nd dA dB, binNode (· * ·) [.shape s, .shape s'] = .ok nd ∧ mulBack A B [dY] = .ok [dA, dB] ∧
      IsGradientOf nd.forward [A, B] [dY] [dA, dB] := by
  obtain ⟨dA, e1, h1, hA⟩ := bcastOp_pointwise (· * ·) B dY A.shape (by rw [hB, hd]; exact broadcast_self _)
  obtain ⟨dB, e2, h2, hB'⟩ := bcastOp_pointwise (· * ·) A dY A.shape (by rw [hd]; exact broadcast_self _)
  refine ⟨⟨[s], pointBoth (· * ·)⟩, dA, dB, rfl, ?_, ?_⟩
  · show (orShape (bcastOp (· * ·) B dY).toOption).bind (fun da => (orShape (bcastOp (· * ·) A dY).toOption).bind
      fun db => Except.ok [da, db]) = _
    rw [e1, e2]; rfl
  refine gradient_both _ (fun _ b => b) (fun a _ => a) A B dY _ _ hB hd ?_ h1 h2 (fun i hi => ?_) (fun i hi => ?_)
  · intro α β a b t h1 h2
    exact (h1.fun_mul h2).congr_deriv (by ring)
  · rw [hA.2 i (by rw [h1]; exact hi), hB, hd, under_self hi]
  · rw [hB'.2 i (by rw [h2]; exact hi), hd, under_self hi]

/-- **C79 (Neg).** -/
theorem neg_gradient (s : List ℤ) (X dY : Ten ℝ) (hd : dY.shape = X.shape) :
    ∃ nd dX, mapNode (fun x => -x) [.shape s] = .ok nd ∧ negBack [dY] = .ok [dX] ∧ IsGradientOf nd.forward [X] [dY] [dX] := by
  refine ⟨⟨[s], fun xs => (argAt xs 0).map fun x => [⟨x.shape, fun i => -x.get i⟩]⟩, negT dY, rfl, rfl, .cons hd .nil, ?_⟩
  intro χs vs t hχ hm
  obtain ⟨χ, rfl⟩ : ∃ χ, χs = [χ] := by
    match χs, hχ with
    | [χ], _ => exact ⟨χ, rfl⟩
  cases hm with
  | @cons _ V _ _ hm h2 =>
  cases h2
  simp only [List.map_cons, List.map_nil, List.cons.injEq, and_true] at hχ
  subst hχ
  refine ⟨[fun s => negT (χ s)], [negT V], fun s => rfl, .cons ⟨hm.1, fun i hi => (hm.2 i hi).neg⟩ .nil,
    .cons (by rw [hd]; exact hm.1 t) .nil, ?_⟩
  simp [Onnx.inner, negT]

example : (⟨[3, 2], fun i => (i.sum : ℝ)⟩ : Ten ℝ).shape = (⟨[3, 2], fun _ => 1⟩ : Ten ℝ).shape := rfl

/-- If an operand was broadcast, its gradient has the shape of the sum: it is not summed up, and is not a gradient. -/
theorem add_gradient_broadcast_false (f : List (Ten ℝ) → Except NErr (List (Ten ℝ))) (A B dY : Ten ℝ)
    (h : dY.shape ≠ A.shape ∨ dY.shape ≠ B.shape) :
    addBack [dY] = .ok [dY, dY] ∧ ¬IsGradientOf f [A, B] [dY] [dY, dY] := by
  refine ⟨rfl, fun hg => ?_⟩
  cases hg.1 with
  | cons h1 h2 =>
  cases h2 with
  | cons h2 _ => exact h.elim (fun h => h h1) (fun h => h h2)

/-- The same for products: for the factors 3 × 2 and 2, the second gradient is 3 × 2. -/
theorem mul_gradient_broadcast_false : ∃ dA dB, mulBack ⟨[3, 2], fun _ => 1⟩ ⟨[2], fun _ => 1⟩ [⟨[3, 2], fun _ => 1⟩] = .ok [dA, dB] ∧
    dB.shape = [3, 2] ∧ ∀ f, ¬IsGradientOf f [⟨[3, 2], fun _ => 1⟩, ⟨[2], fun _ => 1⟩] [⟨[3, 2], fun _ => 1⟩] [dA, dB] := by
  obtain ⟨dA, e1, -⟩ := bcastOp_pointwise (· * ·) ⟨[2], fun _ => 1⟩ ⟨[3, 2], fun _ => 1⟩ [3, 2] (bcastShape_iff.1 (by decide))
  obtain ⟨dB, e2, h2, -⟩ := bcastOp_pointwise (· * ·) ⟨[3, 2], fun _ => 1⟩ ⟨[3, 2], fun _ => 1⟩ [3, 2] (bcastShape_iff.1 (by decide))
  refine ⟨dA, dB, ?_, h2, fun f hg => ?_⟩
  · show (orShape (bcastOp (· * ·) ⟨[2], fun _ => 1⟩ ⟨[3, 2], fun _ => 1⟩).toOption).bind (fun da =>
      (orShape (bcastOp (· * ·) ⟨[3, 2], fun _ => 1⟩ ⟨[3, 2], fun _ => 1⟩).toOption).bind fun db => Except.ok [da, db]) = _
    rw [e1, e2]; rfl
  · cases hg.1 with
    | cons _ h3 =>
    cases h3 with
    | cons h3 _ => rw [h2] at h3; simp at h3

/-! ## Add with a constant -/

theorem sumBatch_cons (d : Ten ℝ) (n : ℕ) (r : List ℕ) (h : d.shape = n :: r) :
    sumBatch d = .ok ⟨r, fun i => ∑ b ∈ Finset.range n, d.get (b :: i)⟩ := by
  unfold sumBatch; rw [h]

theorem addBiasBack_ok (d : Ten ℝ) (n : ℕ) (r : List ℕ) (h : d.shape = n :: r) (hn : n ≠ 0) :
    addBiasBack [d] = .ok ([⟨r, fun i => (∑ b ∈ Finset.range n, d.get (b :: i)) / (n : ℝ)⟩], [d]) := by
  show (sumBatch d).bind (fun b => if d.shape.headD 0 = 0 then Except.error NErr.zeroDiv
    else .ok ([(⟨b.shape, fun i => b.get i / (d.shape.headD 0 : ℝ)⟩ : Ten ℝ)], [d])) = _
  rw [sumBatch_cons d n r h, h]
  show (if n = 0 then Except.error NErr.zeroDiv else _) = _
  rw [if_neg hn]; rfl

/-- **C79 (Add with a constant).** The gradient is passed on; and for a constant of the shape of one sample, the
gradient of the constant, which is what training subtracts, is the average over the batch of the gradients of the
samples: times the size of the batch it is the gradient. -/
theorem add_bias_gradient_partial (s : List ℤ) (X B dY : Ten ℝ) (n : ℕ) (hX : X.shape = n :: B.shape) (hn : n ≠ 0)
    (hd : dY.shape = X.shape) :
    ∃ nd dB dX, addNode [.shape s, .real B] = .ok nd ∧ addBiasBack [dY] = .ok ([dB], [dX]) ∧
      IsGradientOf nd.forward [X] [dY] [dX] ∧
      IsGradientOf (fun bs => pointBoth (· + ·) (X :: bs)) [B] [dY] [⟨dB.shape, fun i => (n : ℝ) * dB.get i⟩] := by
  have hb : Broadcast X.shape B.shape X.shape := by
    rw [hX, ← bcastShape_iff]
    unfold bcastShape
    have hz : ∀ l : List ℕ, (l.zip l).mapM (fun (d : ℕ × ℕ) => bcastDim d.1 d.2) = some l := by
      intro l
      rw [mapM_zip bcastDim _ _ _ rfl]
      exact ⟨rfl, fun k _ => by simp [bcastDim]⟩
    have h1 : bcastDim n 1 = some n := by unfold bcastDim; split_ifs <;> simp_all
    rw [List.length_cons, show max (B.shape.length + 1) B.shape.length = B.shape.length + 1 by omega]
    dsimp only
    rw [Nat.sub_self,
      Nat.add_sub_cancel_left]
    show ((n, 1) :: B.shape.zip B.shape).mapM (fun (d : ℕ × ℕ) => bcastDim d.1 d.2) = _
    rw [List.mapM_cons, hz]
    simp only [h1]
    rfl
  have hfw : ∀ A C : Ten ℝ, A.shape = X.shape → C.shape = B.shape → ∃ Y, pointBoth (· + ·) [A, C] = .ok [Y] ∧ Y.shape = X.shape ∧
      ∀ b i, InShape X.shape (b :: i) → Y.get (b :: i) = A.get (b :: i) + C.get i := by
    intro A C hA hC
    obtain ⟨Y, e, hY, hP⟩ := pointBoth_ok (· + ·) A C X.shape (by rw [hA, hC]; exact hb)
    refine ⟨Y, e, hY, fun b i hi => ?_⟩
    rw [hP.2 _ (by rw [hY]; exact hi), hA, under_self hi, hC, under_tail]
    rw [hX] at hi; exact hi.2
  have hn' : (n : ℝ) ≠ 0 := by exact_mod_cast hn
  refine ⟨⟨[s], fun xs => (argAt xs 0).bind fun a => pointCall (· + ·) a B⟩,
    ⟨B.shape, fun i => (∑ b ∈ Finset.range n, dY.get (b :: i)) / (n : ℝ)⟩, dY, rfl, ?_, ⟨.cons hd .nil, ?_⟩, ⟨.cons rfl .nil, ?_⟩⟩
  · exact addBiasBack_ok dY n B.shape (hd.trans hX) hn
  · intro χs vs t hχ hm
    obtain ⟨χ, rfl⟩ : ∃ χ, χs = [χ] := by
      match χs, hχ with
      | [χ], _ => exact ⟨χ, rfl⟩
    cases hm with
    | @cons _ V _ _ hm h2 =>
    cases h2
    simp only [List.map_cons, List.map_nil, List.cons.injEq, and_true] at hχ
    have hV : V.shape = X.shape := by rw [← hm.1 t, hχ]
    choose Y hY hYs hP using fun s => hfw (χ s) B ((hm.1 s).trans hV) rfl
    refine ⟨[Y], [V], hY, .cons ⟨fun s => (hYs s).trans hV.symm, fun i hi => ?_⟩ .nil, .cons (hd.trans hV.symm) .nil, rfl⟩
    obtain ⟨b, i, rfl⟩ : ∃ b j, i = b :: j := by
      match i, hi with
      | [], h => rw [hV, hX] at h; exact h.elim
      | b :: j, _ => exact ⟨b, j, rfl⟩
    have e : (fun s => (Y s).get (b :: i)) = fun s => (χ s).get (b :: i) + B.get i := by
      funext s; exact hP s b i (by rw [← hV]; exact hi)
    rw [e]; exact (hm.2 _ hi).add_const _
  · intro χs vs t hχ hm
    obtain ⟨χ, rfl⟩ : ∃ χ, χs = [χ] := by
      match χs, hχ with
      | [χ], _ => exact ⟨χ, rfl⟩
    cases hm with
    | @cons _ V _ _ hm h2 =>
    cases h2
    simp only [List.map_cons, List.map_nil, List.cons.injEq, and_true] at hχ
    have hV : V.shape = B.shape := by rw [← hm.1 t, hχ]
    choose Y hY hYs hP using fun s => hfw X (χ s) rfl ((hm.1 s).trans hV)
    refine ⟨[Y], [⟨X.shape, fun i => V.get i.tail⟩], hY, .cons ⟨hYs, fun i hi => ?_⟩ .nil, .cons hd .nil, ?_⟩
    · obtain ⟨b, i, rfl⟩ : ∃ b j, i = b :: j := by
        match i, hi with
        | [], h => rw [hX] at h; exact h.elim
        | b :: j, _ => exact ⟨b, j, rfl⟩
      have e : (fun s => (Y s).get (b :: i)) = fun s => X.get (b :: i) + (χ s).get i := by
        funext s; exact hP s b i hi
      rw [e]
      refine (hm.2 i ?_).const_add _
      rw [hV]
      have hi' : InShape X.shape (b :: i) := hi
      rw [hX] at hi'; exact hi'.2
    · simp only [List.zipWith_cons_cons, List.zipWith_nil_left, List.sum_cons, List.sum_nil, add_zero, Onnx.inner]
      rw [hd, hX, sum_indices_cons, Finset.sum_comm]
      refine Finset.sum_congr rfl fun i _ => ?_
      rw [mul_div_cancel₀ _ hn', Finset.sum_mul]
      rfl

example : (⟨[4, 3], fun _ => 1⟩ : Ten ℝ).shape = 4 :: (⟨[3], fun i => (i.sum : ℝ)⟩ : Ten ℝ).shape := rfl

/-- The gradient of the constant always has the shape of one sample: for any other constant (for example one number
for every channel of an image) it is not a gradient, and training cannot subtract it. -/
theorem add_bias_shape_false (dY dB dX : Ten ℝ) (h : addBiasBack [dY] = .ok ([dB], [dX])) : dB.shape = dY.shape.tail := by
  cases hs : dY.shape with
  | nil =>
      have : addBiasBack [dY] = .error .shape := by
        show (sumBatch dY).bind _ = _
        unfold sumBatch; rw [hs]; rfl
      rw [this] at h; simp at h
  | cons n r =>
      have h' : (sumBatch dY).bind (fun b => if dY.shape.headD 0 = 0 then Except.error NErr.zeroDiv
        else .ok ([⟨b.shape, fun i => b.get i / (dY.shape.headD 0 : ℝ)⟩], [dY])) = .ok ([dB], [dX]) := h
      rw [sumBatch_cons dY n r hs, hs] at h'
      have h2 : (if n = 0 then Except.error NErr.zeroDiv
        else Except.ok ([(⟨r, fun i => (∑ b ∈ Finset.range n, dY.get (b :: i)) / (n : ℝ)⟩ : Ten ℝ)], [dY])) = .ok ([dB], [dX]) := h'
      split_ifs at h2
      simp only [Except.ok.injEq, Prod.mk.injEq, List.cons.injEq, and_true] at h2
      rw [← h2.1]; rfl

theorem add_bias_channels_false : ∃ nd dB dX, addNode [.shape [-1, 3, 2, 2], .real ⟨[3, 1, 1], fun _ => 1⟩] = .ok nd ∧
    addBiasBack [⟨[5, 3, 2, 2], fun _ => 1⟩] = .ok ([dB], [dX]) ∧ dB.shape = [3, 2, 2] := by
  refine ⟨⟨[[-1, 3, 2, 2]], fun xs => (argAt xs 0).bind fun a => pointCall (· + ·) a ⟨[3, 1, 1], fun _ => 1⟩⟩,
    ⟨[3, 2, 2], fun _ => (∑ b ∈ Finset.range 5, 1) / ((5 : ℕ) : ℝ)⟩, ⟨[5, 3, 2, 2], fun _ => 1⟩, rfl,
    addBiasBack_ok ⟨[5, 3, 2, 2], fun _ => 1⟩ 5 [3, 2, 2] rfl (by decide), rfl⟩

/-! ## Concat and Split -/

/-- The products of parts with parts. -/
theorem sum_parts (sh : List ℕ) (k : ℕ) (hk : k < sh.length) (G : Ten ℝ) (hG : G.shape.set k 0 = sh.set k 0) :
    ∀ (ds : List (Ten ℝ)) (o : ℕ), (∀ d ∈ ds, d.shape.set k 0 = sh.set k 0) →
    (List.zipWith Onnx.inner ds (splitParts k G o (ds.map fun d => d.shape.getD k 0))).sum =
      (∑ i ∈ indices (sh.set k (ds.map fun d => d.shape.getD k 0).sum), concatGet k ds i * G.get (i.set k (o + i.getD k 0))) ∧
    (List.zipWith Onnx.inner (splitParts k G o (ds.map fun d => d.shape.getD k 0)) ds).sum =
      ∑ i ∈ indices (sh.set k (ds.map fun d => d.shape.getD k 0).sum), concatGet k ds i * G.get (i.set k (o + i.getD k 0))
  | [], o, _ => by simp [splitParts, concatGet]
  | d :: ds, o, h => by
      have hds := h d (by simp)
      have hdsh : d.shape = sh.set k (d.shape.getD k 0) := by
        have := congrArg (fun l => l.set k (d.shape.getD k 0)) hds
        simpa only [List.set_set, set_getD] using this
      have hGsh : G.shape.set k (d.shape.getD k 0) = sh.set k (d.shape.getD k 0) := by
        have := congrArg (fun l => l.set k (d.shape.getD k 0)) hG
        simpa only [List.set_set] using this
      set n := d.shape.getD k 0 with hn
      obtain ⟨ih1, ih2⟩ := sum_parts sh k hk G hG ds (o + n) fun d' hd' => h d' (by simp [hd'])
      have e1 : ∑ i ∈ indices (sh.set k n), concatGet k (d :: ds) i * G.get (i.set k (o + i.getD k 0)) =
          ∑ i ∈ indices (sh.set k n), d.get i * G.get (i.set k (o + i.getD k 0)) := by
        refine Finset.sum_congr rfl fun i hi => ?_
        have h1 := (inShape_iff.1 (mem_indices.1 hi)).2 k (by simpa using hk)
        rw [getD_set_self _ _ _ _ hk] at h1
        rw [concatGet, if_pos h1]
      have e2 : ∀ m, ∑ i ∈ indices (sh.set k m), concatGet k (d :: ds) (i.set k (n + i.getD k 0)) *
            G.get ((i.set k (n + i.getD k 0)).set k (o + (i.set k (n + i.getD k 0)).getD k 0)) =
          ∑ i ∈ indices (sh.set k m), concatGet k ds i * G.get (i.set k (o + n + i.getD k 0)) := by
        intro m
        refine Finset.sum_congr rfl fun i hi => ?_
        have hil : k < i.length := by rw [(inShape_iff.1 (mem_indices.1 hi)).1]; simpa using hk
        rw [concatGet, getD_set_self _ _ _ _ hil, if_neg (by omega), List.set_set, List.set_set,
          show n + i.getD k 0 - d.shape.getD k 0 = i.getD k 0 by omega, set_getD, Nat.add_assoc]
      have e3 : ∀ m, ∑ i ∈ indices (sh.set k (n + m)), concatGet k (d :: ds) i * G.get (i.set k (o + i.getD k 0)) =
          ∑ i ∈ indices (sh.set k n), d.get i * G.get (i.set k (o + i.getD k 0)) +
          ∑ i ∈ indices (sh.set k m), concatGet k ds i * G.get (i.set k (o + n + i.getD k 0)) := by
        intro m
        rw [sum_indices_add n m sh k hk, e1, e2]
      simp only [List.map_cons, ← hn, splitParts, List.zipWith_cons_cons, List.sum_cons]
      rw [e3, ih1, ih2]
      constructor
      · congr 1
        unfold Onnx.inner
        rw [← hdsh]
      · congr 1
        unfold Onnx.inner
        rw [hGsh]
        exact Finset.sum_congr rfl fun i _ => mul_comm _ _

theorem concatT_ok (a : ℤ) (k : ℕ) (sh : List ℕ) (ha : IsAxis sh.length a k) (Xs : List (Ten ℝ)) (hne : Xs ≠ [])
    (hsh : ∀ X ∈ Xs, X.shape.set k 0 = sh.set k 0) :
    concatT a Xs = some ⟨sh.set k (Xs.map fun X => X.shape.getD k 0).sum, concatGet k Xs⟩ := by
  match Xs, hne with
  | X :: r, _ =>
    have h1 := hsh X (by simp)
    have hl : X.shape.length = sh.length := by
      have := congrArg List.length h1; simpa using this
    have e : axisOf X.shape.length a = some k := by rw [hl]; exact axisOf_iff.2 ha
    unfold concatT
    dsimp only
    rw [e]
    dsimp only
    rw [if_pos fun y hy => (hsh y (by simp [hy])).trans h1.symm]
    congr 2
    have := congrArg (fun l => l.set k ((X :: r).map fun X => X.shape.getD k 0).sum) h1
    simpa only [List.set_set] using this

/-- A concatenation of moving tensors moves. -/
theorem concatGet_moves (sh : List ℕ) (k : ℕ) (hk : k < sh.length) (t : ℝ) : ∀ (χs : List (ℝ → Ten ℝ)) (vs : List (Ten ℝ)),
    List.Forall₂ (fun χ V => TenMoves χ V t) χs vs → (∀ V ∈ vs, V.shape.set k 0 = sh.set k 0) →
    ∀ i, InShape (sh.set k (vs.map fun V => V.shape.getD k 0).sum) i →
      HasDerivAt (fun s => concatGet k (χs.map fun χ => χ s) i) (concatGet k vs i) t
  | _, _, .nil, _, i, _ => by simpa only [concatGet, List.map_nil] using hasDerivAt_const t (0 : ℝ)
  | χ :: χs, V :: vs, .cons h hs, hsh, i, hi => by
      have hVs : V.shape = sh.set k (V.shape.getD k 0) := by
        have := congrArg (fun l => l.set k (V.shape.getD k 0)) (hsh V (by simp))
        simpa only [List.set_set, set_getD] using this
      obtain ⟨h1, h2⟩ := inShape_iff.1 hi
      rw [List.length_set] at h1 h2
      have h3 := h2 k hk
      rw [getD_set_self _ _ _ _ hk, List.map_cons, List.sum_cons] at h3
      have e : ∀ s, concatGet k ((χ :: χs).map fun χ => χ s) i = if i.getD k 0 < V.shape.getD k 0 then (χ s).get i
          else concatGet k (χs.map fun χ => χ s) (i.set k (i.getD k 0 - V.shape.getD k 0)) := fun s => by
        rw [List.map_cons, concatGet, h.1 s]
      simp only [e, concatGet]
      by_cases hlt : i.getD k 0 < V.shape.getD k 0
      · simp only [if_pos hlt]
        apply h.2
        rw [hVs, inShape_iff, List.length_set]
        refine ⟨h1, fun j hj => ?_⟩
        by_cases ej : j = k
        · subst ej; rw [getD_set_self _ _ _ _ hk]; exact hlt
        · have := h2 j hj
          rw [getD_set_ne _ _ _ _ _ ej] at this ⊢
          exact this
      · simp only [if_neg hlt]
        apply concatGet_moves sh k hk t χs vs hs fun V' hV' => hsh V' (by simp [hV'])
        rw [inShape_iff, List.length_set, List.length_set]
        refine ⟨h1, fun j hj => ?_⟩
        by_cases ej : j = k
        · subst ej
          rw [getD_set_self _ _ _ _ hk, getD_set_self _ _ _ _ (by rw [h1]; exact hk)]
          omega
        · have := h2 j hj
          rw [getD_set_ne _ _ _ _ _ ej] at this
          rw [getD_set_ne _ _ _ _ _ ej, getD_set_ne _ _ _ _ _ ej]
          exact this

theorem splitParts_shapes (k : ℕ) (G : Ten ℝ) (sh : List ℕ) (hG : G.shape.set k 0 = sh.set k 0) :
    ∀ (Xs : List (Ten ℝ)) (o : ℕ), (∀ X ∈ Xs, X.shape.set k 0 = sh.set k 0) →
    List.Forall₂ (fun (X D : Ten ℝ) => D.shape = X.shape) Xs (splitParts k G o (Xs.map fun X => X.shape.getD k 0))
  | [], _, _ => .nil
  | X :: Xs, o, h => by
      refine .cons ?_ (splitParts_shapes k G sh hG Xs _ fun X' h' => h X' (by simp [h']))
      have := congrArg (fun l => l.set k (X.shape.getD k 0)) (hG.trans (h X (by simp)).symm)
      simpa only [List.set_set, set_getD] using this

theorem same_shapes (k : ℕ) (sh : List ℕ) {Ls Rs : List (Ten ℝ)} (h : List.Forall₂ (fun (X Y : Ten ℝ) => X.shape = Y.shape) Ls Rs)
    (hsh : ∀ X ∈ Rs, X.shape.set k 0 = sh.set k 0) :
    (∀ X ∈ Ls, X.shape.set k 0 = sh.set k 0) ∧ (Ls.map fun X => X.shape.getD k 0) = Rs.map fun X => X.shape.getD k 0 := by
  induction h with
  | nil => simp
  | @cons V X vs Xs h _ ih =>
      obtain ⟨i1, i2⟩ := ih fun X hX => hsh X (by simp [hX])
      refine ⟨fun V' hV' => ?_, by rw [List.map_cons, List.map_cons, i2, h]⟩
      rcases List.mem_cons.1 hV' with rfl | hV'
      · rw [h]; exact hsh X (by simp)
      · exact i1 V' hV'

theorem concatBack_dims (a : ℤ) (k r : ℕ) (ha : IsAxis r a k) : ∀ (ss : List (List ℤ)), (∀ s ∈ ss, s.length = r) →
    (ss.mapM fun s => (axisAt s.length a).map fun k => s.getD k 0 : Except NErr (List ℤ)) = .ok (ss.map fun s => s.getD k 0)
  | [], _ => rfl
  | s :: ss, h => by
      have h1 : axisAt s.length a = .ok k := by
        unfold axisAt; rw [h s (by simp), axisOf_iff.2 ha]
      rw [List.mapM_cons, h1, concatBack_dims a k r ha ss fun s hs => h s (by simp [hs])]; rfl

/-- **C79 (Concat).** If the sizes of the inputs along the axis are declared. -/
theorem concat_gradient_partial (rest : List Attr) (a : ℤ) (k : ℕ) (ss : List (List ℤ)) (Xs : List (Ten ℝ)) (sh : List ℕ) (dY : Ten ℝ)
    (hne : Xs ≠ []) (hs : List.Forall₂ (fun s (X : Ten ℝ) => Agrees s X.shape ∧ s.getD k 0 = X.shape.getD k 0) ss Xs)
    (ha : IsAxis sh.length a k) (hsh : ∀ X ∈ Xs, X.shape.set k 0 = sh.set k 0)
    (hd : dY.shape = sh.set k (Xs.map fun X => X.shape.getD k 0).sum) :
    ∃ nd dXs, concatNode (⟨"axis", .int a⟩ :: rest) (ss.map Inp.shape) = .ok nd ∧ concatBack a ss [dY] = .ok dXs ∧
      IsGradientOf nd.forward Xs [dY] dXs := by
  have hlen : ∀ X ∈ Xs, X.shape.length = sh.length := fun X hX => by
    have := congrArg List.length (hsh X hX); simpa using this
  have hsl : (∀ s ∈ ss, s.length = sh.length) ∧
      (ss.map fun s => s.getD k 0) = Xs.map fun X => (X.shape.getD k 0 : ℤ) := by
    clear hne hd hsh
    induction hs with
    | nil => simp
    | @cons s X ss Xs h _ ih =>
        obtain ⟨i1, i2⟩ := ih fun X hX => hlen X (by simp [hX])
        refine ⟨fun s' hs' => ?_, by rw [List.map_cons, List.map_cons, i2, h.2]⟩
        rcases List.mem_cons.1 hs' with rfl | hs'
        · rw [(agrees_iff.1 h.1).1]; exact hlen X (by simp)
        · exact i1 s' hs'
  obtain ⟨nd, -, -, e1, -⟩ := concat_node_partial rest a k ss Xs sh hne hs ha hsh
  have hfw : nd.forward = fun xs => (orShape (concatT a xs)).map fun y => [y] := by
    match ss, hs with
    | s :: ss', hs =>
      have hal : axisAt s.length a = .ok k := by
        unfold axisAt; rw [hsl.1 s (by simp), axisOf_iff.2 ha]
      have e3 : (axisAt s.length a).bind (fun k => (shapesOf ((s :: ss').map Inp.shape)).bind fun ss => (sumDims a ss).bind fun d =>
          Except.ok ⟨[s.set k d], fun xs => (orShape (concatT a xs)).map fun y => [y]⟩) = .ok nd := e1
      rw [hal, shapesOf_ok] at e3
      have e4 : (sumDims a (s :: ss')).bind (fun d =>
          Except.ok (⟨[s.set k d], fun xs => (orShape (concatT a xs)).map fun y => [y]⟩ : Built)) = .ok nd := e3
      rw [sumDims_ok a k sh.length ha _ hsl.1] at e4
      rw [← Except.ok.inj e4]
    | [], hs => cases hs; exact absurd rfl hne
  have hdl : dY.shape.length = sh.length := by rw [hd, List.length_set]
  have hG : dY.shape.set k 0 = sh.set k 0 := by rw [hd, List.set_set]
  have hsize : (((ss.map fun s => s.getD k 0).map Int.toNat)) = Xs.map fun X => X.shape.getD k 0 := by
    rw [hsl.2, List.map_map]
    exact List.map_congr_left fun X _ => by simp
  refine ⟨nd, splitParts k dY 0 (Xs.map fun X => X.shape.getD k 0), e1, ?_, ?_⟩
  · show (ss.mapM fun s => (axisAt s.length a).map fun k => s.getD k 0 : Except NErr (List ℤ)).bind
      (fun dims => orShape (splitT a dims dY)) = _
    rw [concatBack_dims a k sh.length ha ss hsl.1]
    show orShape (splitT a (ss.map fun s => s.getD k 0) dY) = _
    unfold splitT
    rw [hdl, axisOf_iff.2 ha]
    dsimp only
    rw [hsize, if_pos]
    · rfl
    · refine ⟨by rw [hsl.2]; simp, ?_⟩
      rw [hd, getD_set_self _ _ _ _ ha.1]
  rw [hfw]
  refine ⟨splitParts_shapes k dY sh hG Xs 0 hsh, ?_⟩
  intro χs vs t hχ hm
  have hVX : List.Forall₂ (fun (V X : Ten ℝ) => V.shape = X.shape) vs Xs := by
    rw [← hχ]
    clear hχ
    induction hm with
    | nil => exact .nil
    | cons h _ ih => exact .cons (h.1 t).symm ih
  have hvs := same_shapes k sh hVX hsh
  have hcur : ∀ s, ((χs.map fun χ => χ s) ≠ []) ∧ (∀ X ∈ χs.map fun χ => χ s, X.shape.set k 0 = sh.set k 0) ∧
      ((χs.map fun χ => χ s).map fun X => X.shape.getD k 0) = Xs.map fun X => X.shape.getD k 0 := by
    intro s
    have h1 : List.Forall₂ (fun (X V : Ten ℝ) => X.shape = V.shape) (χs.map fun χ => χ s) vs := by
      clear hχ hVX hvs
      induction hm with
      | nil => exact .nil
      | cons h _ ih => exact .cons (h.1 s) ih
    have h2 := same_shapes k sh h1 hvs.1
    refine ⟨?_, h2.1, h2.2.trans hvs.2⟩
    intro e
    apply hne
    rw [← hχ]
    simpa using e
  refine ⟨[fun s => ⟨sh.set k (Xs.map fun X => X.shape.getD k 0).sum, concatGet k (χs.map fun χ => χ s)⟩],
    [⟨sh.set k (Xs.map fun X => X.shape.getD k 0).sum, concatGet k vs⟩], fun s => ?_, .cons ⟨fun s => rfl, fun i hi => ?_⟩ .nil,
    .cons hd .nil, ?_⟩
  · obtain ⟨h1, h2, h3⟩ := hcur s
    beta_reduce
    rw [concatT_ok a k sh ha _ h1 h2, h3]; rfl
  · exact concatGet_moves sh k ha.1 t χs vs hm hvs.1 i (by rw [hvs.2]; exact hi)
  · rw [← hvs.2, (sum_parts sh k ha.1 dY hG vs 0 hvs.1).2]
    simp only [List.zipWith_cons_cons, List.zipWith_nil_left, List.sum_cons, List.sum_nil, add_zero, Onnx.inner]
    rw [hd, hvs.2]
    refine Finset.sum_congr rfl fun i _ => ?_
    rw [Nat.zero_add, set_getD, mul_comm]

example : ∃ nd dXs, concatNode [⟨"axis", .int 1⟩] ([[-1, 2], [-1, 3]].map Inp.shape) = .ok nd ∧
    concatBack 1 [[-1, 2], [-1, 3]] [⟨[4, 5], fun i => (i.sum : ℝ)⟩] = .ok dXs ∧
    IsGradientOf nd.forward [⟨[4, 2], fun _ => 1⟩, ⟨[4, 3], fun _ => 2⟩] [⟨[4, 5], fun i => (i.sum : ℝ)⟩] dXs :=
  concat_gradient_partial [] 1 1 _ _ [4, 0] _ (by simp)
    (.cons ⟨by simp [Agrees], rfl⟩ (.cons ⟨by simp [Agrees], rfl⟩ .nil)) ⟨by decide, .inl rfl⟩ (by simp) rfl

/-- Tensors that are joined along the batch have no gradient: two sizes are unknown. -/
theorem concat_gradient_batch_false (dY : Ten ℝ) : concatBack 0 [[-1, 3], [-1, 3]] [dY] = .error .shape := by
  show orShape (splitT 0 [-1, -1] dY) = _
  unfold splitT
  split
  · rfl
  · rw [if_neg (by simp)]; rfl

/-- Parts of a moving tensor move. -/
theorem splitParts_moves (k : ℕ) (χ : ℝ → Ten ℝ) (V : Ten ℝ) (t : ℝ) (hm : TenMoves χ V t) (hk : k < V.shape.length) :
    ∀ (ns : List ℕ) (o : ℕ), o + ns.sum ≤ V.shape.getD k 0 → ∃ Ys : List (ℝ → Ten ℝ),
      (∀ s, splitParts k (χ s) o ns = Ys.map fun Y => Y s) ∧ List.Forall₂ (fun Y U => TenMoves Y U t) Ys (splitParts k V o ns)
  | [], _, _ => ⟨[], fun _ => rfl, .nil⟩
  | n :: ns, o, h => by
      rw [List.sum_cons] at h
      obtain ⟨Ys, h1, h2⟩ := splitParts_moves k χ V t hm hk ns (o + n) (by omega)
      refine ⟨(fun s => ⟨(χ s).shape.set k n, fun i => (χ s).get (i.set k (o + i.getD k 0))⟩) :: Ys, fun s => ?_,
        .cons ⟨fun s => by beta_reduce; rw [hm.1 s], fun i hi => ?_⟩ h2⟩
      · rw [splitParts, h1 s]; rfl
      · apply hm.2
        obtain ⟨h3, h4⟩ := inShape_iff.1 hi
        rw [List.length_set] at h3 h4
        rw [inShape_iff, List.length_set]
        refine ⟨h3, fun j hj => ?_⟩
        have h5 := h4 j hj
        by_cases e : j = k
        · subst e
          rw [getD_set_self _ _ _ _ hk] at h5
          rw [getD_set_self _ _ _ _ (by rw [h3]; exact hk)]
          omega
        · rw [getD_set_ne _ _ _ _ _ e] at h5 ⊢
          exact h5

theorem split_gradient (f : List (Ten ℝ) → Except NErr (List (Ten ℝ))) (a : ℤ) (k : ℕ) (X : Ten ℝ) (ns : List ℕ) (dYs : List (Ten ℝ))
    (ha : IsAxis X.shape.length a k) (hn : ns.sum = X.shape.getD k 0) (hne : ns ≠ [])
    (hf : ∀ Z : Ten ℝ, Z.shape = X.shape → f [Z] = .ok (splitParts k Z 0 ns))
    (hd : dYs.map (·.shape) = ns.map fun n => X.shape.set k n) :
    ∃ dX, splitBack a dYs = .ok [dX] ∧ IsGradientOf f [X] dYs [dX] := by
  have hk : k < X.shape.length := ha.1
  have hmem : ∀ D ∈ dYs, ∃ n, D.shape = X.shape.set k n := fun D hD => by
    have : D.shape ∈ dYs.map (·.shape) := List.mem_map_of_mem hD
    rw [hd] at this
    obtain ⟨n, -, h⟩ := List.mem_map.1 this
    exact ⟨n, h.symm⟩
  have hsh : ∀ D ∈ dYs, D.shape.set k 0 = X.shape.set k 0 := fun D hD => by
    obtain ⟨n, h⟩ := hmem D hD
    rw [h, List.set_set]
  have hns : (dYs.map fun D => D.shape.getD k 0) = ns := by
    have h1 := congrArg (List.map fun l : List ℕ => l.getD k 0) hd
    rw [List.map_map, List.map_map] at h1
    refine h1.trans ?_
    conv_rhs => rw [← List.map_id ns]
    exact List.map_congr_left fun n _ => by simp only [Function.comp, id]; exact getD_set_self _ _ _ _ hk
  have hnd : dYs ≠ [] := fun e => hne (by rw [← hns, e]; rfl)
  have hshape : X.shape.set k (dYs.map fun D => D.shape.getD k 0).sum = X.shape := by
    rw [hns, hn, set_getD]
  refine ⟨⟨X.shape, concatGet k dYs⟩, ?_, .cons rfl .nil, ?_⟩
  · unfold splitBack
    rw [concatT_ok a k X.shape ha dYs hnd hsh, hshape]; rfl
  intro χs vs t hχ hm
  obtain ⟨χ, rfl⟩ : ∃ χ, χs = [χ] := by
    match χs, hχ with
    | [χ], _ => exact ⟨χ, rfl⟩
  cases hm with
  | @cons _ V _ _ hm h2 =>
  cases h2
  simp only [List.map_cons, List.map_nil, List.cons.injEq, and_true] at hχ
  have hV : V.shape = X.shape := by rw [← hm.1 t, hχ]
  obtain ⟨Ys, hY, hYm⟩ := splitParts_moves k χ V t hm (by rw [hV]; exact hk) ns 0 (by rw [hV, hn]; omega)
  refine ⟨Ys, splitParts k V 0 ns, fun s => ?_, hYm, ?_, ?_⟩
  · rw [List.map_cons, List.map_nil, hf _ ((hm.1 s).trans hV), hY s]
  · have := splitParts_shapes k V X.shape (by rw [hV]) dYs 0 hsh
    rw [hns] at this
    exact this.imp fun _ _ h => h.symm
  · have := (sum_parts X.shape k hk V (by rw [hV]) dYs 0 hsh).1
    rw [hns] at this
    rw [this, hn, set_getD]
    simp only [List.zipWith_cons_cons, List.zipWith_nil_left, List.sum_cons, List.sum_nil, add_zero, Onnx.inner]
    refine Finset.sum_congr rfl fun i _ => ?_
    rw [Nat.zero_add, set_getD]

/-- **C79 (Split).** With the sizes as the second input: the gradients of the parts are joined. -/
theorem split_gradient_partial (rest : List Attr) (a : ℤ) (k outs : ℕ) (s : List ℤ) (X : Ten ℝ) (ns dims : List ℕ) (dYs : List (Ten ℝ))
    (hs : Agrees s X.shape) (ha : IsAxis X.shape.length a k) (hn : ns.sum = X.shape.getD k 0) (hne : ns ≠ [])
    (hd : dYs.map (·.shape) = ns.map fun n => X.shape.set k n) :
    ∃ nd dX, splitNode (⟨"axis", .int a⟩ :: rest) outs [.shape s, .nums dims (ns.map fun n : ℕ => (n : ℤ))] = .ok nd ∧
      splitBack a dYs = .ok [dX] ∧ IsGradientOf nd.forward [X] dYs [dX] := by
  obtain ⟨hl, -⟩ := agrees_iff.1 hs
  have e1 : splitNode (⟨"axis", .int a⟩ :: rest) outs [.shape s, .nums dims (ns.map fun n : ℕ => (n : ℤ))] =
      .ok ⟨(ns.map fun n : ℕ => (n : ℤ)).map fun d => s.set k d,
        fun xs => (argAt xs 0).bind fun x => orShape (splitT a (ns.map fun n : ℕ => (n : ℤ)) x)⟩ := by
    show splitSized s a (ns.map fun n : ℕ => (n : ℤ)) = _
    unfold splitSized
    rw [hl, axisOf_iff.2 ha]
  have e2 : (ns.map fun n : ℕ => (n : ℤ)).map Int.toNat = ns := by
    rw [List.map_map]
    conv_rhs => rw [← List.map_id ns]
    exact List.map_congr_left fun n _ => by simp
  obtain ⟨dX, e3, h⟩ := split_gradient (fun xs => (argAt xs 0).bind fun x => orShape (splitT a (ns.map fun n : ℕ => (n : ℤ)) x))
    a k X ns dYs ha hn hne (fun Z hZ => by
      show orShape (splitT a (ns.map fun n : ℕ => (n : ℤ)) Z) = _
      unfold splitT
      rw [hZ, axisOf_iff.2 ha]
      dsimp only
      rw [if_pos ⟨by simp, by rw [e2, hn]⟩, e2]; rfl) hd
  exact ⟨_, dX, e1, e3, h⟩

/-- **C79 (Split).** Into equal parts. -/
theorem split_even_gradient_partial (rest : List Attr) (a : ℤ) (k outs : ℕ) (s : List ℤ) (X : Ten ℝ) (dYs : List (Ten ℝ))
    (hs : Agrees s X.shape) (ha : IsAxis X.shape.length a k) (ho : outs ≠ 0) (hdv : outs ∣ X.shape.getD k 0)
    (hk : s.getD k 0 = X.shape.getD k 0) (hl : dYs.length = outs) (hd : ∀ D ∈ dYs, D.shape = X.shape.set k (X.shape.getD k 0 / outs)) :
    ∃ nd dX, splitNode (⟨"axis", .int a⟩ :: rest) outs [.shape s] = .ok nd ∧
      splitBack a dYs = .ok [dX] ∧ IsGradientOf nd.forward [X] dYs [dX] := by
  obtain ⟨hl', -⟩ := agrees_iff.1 hs
  have e1 : splitNode (⟨"axis", .int a⟩ :: rest) outs [.shape s] =
      .ok ⟨List.replicate outs (s.set k (s.getD k 0 / outs)), fun xs => (argAt xs 0).bind fun x => orShape (splitEven a outs x)⟩ := by
    show splitEqual s a outs = _
    unfold splitEqual
    rw [hl', axisOf_iff.2 ha]
    dsimp only
    rw [if_neg ho, if_neg]
    rw [hk]
    simp only [ne_eq, not_not]
    exact Int.emod_eq_zero_of_dvd (by exact_mod_cast hdv)
  obtain ⟨dX, e3, h⟩ := split_gradient (fun xs => (argAt xs 0).bind fun x => orShape (splitEven a outs x))
    a k X (List.replicate outs (X.shape.getD k 0 / outs)) dYs ha (by
      rw [List.sum_replicate, smul_eq_mul, Nat.mul_div_cancel' hdv]) (by simpa using ho) (fun Z hZ => by
      show orShape (splitEven a outs Z) = _
      unfold splitEven
      rw [hZ, axisOf_iff.2 ha]
      dsimp only
      rw [if_neg]
      · rfl
      · rintro (h | h)
        · exact ho h
        · exact h (Nat.mod_eq_zero_of_dvd hdv)) (by
      rw [List.map_replicate, List.eq_replicate_iff]
      refine ⟨by simpa using hl, fun S hS => ?_⟩
      obtain ⟨D, hD, rfl⟩ := List.mem_map.1 hS
      exact hd D hD)
  exact ⟨_, dX, e1, e3, h⟩

example : IsAxis (⟨[5, 4], fun _ => 0⟩ : Ten ℝ).shape.length (-1) 1 ∧ [1, 3].sum = (⟨[5, 4], fun _ => 0⟩ : Ten ℝ).shape.getD 1 0 ∧
    ([⟨[5, 1], fun _ => 1⟩, ⟨[5, 3], fun i => (i.sum : ℝ)⟩] : List (Ten ℝ)).map (·.shape) = [1, 3].map fun n => [5, 4].set 1 n :=
  ⟨⟨by decide, .inr (by decide)⟩, rfl, rfl⟩

/-! ## Pad -/

theorem sliceDim_crop (b c n : ℕ) : sliceDim (n + b + c) (b : ℤ) (((n + b + c : ℕ) : ℤ) - c) 1 = some ((b : ℤ), n) := by
  unfold sliceDim
  dsimp only
  rw [if_neg (by decide : ¬(1 : ℤ) = 0), if_pos (by decide : (0 : ℤ) < 1), if_neg (by omega : ¬(b : ℤ) < 0),
    if_neg (by omega : ¬((n + b + c : ℕ) : ℤ) - c < 0)]
  simp only [Option.some.injEq, Prod.mk.injEq]
  constructor
  · omega
  · rw [Int.ediv_one]; omega

theorem sliceDims_crop (n b c : ℕ → ℕ) : ∀ l : List ℕ,
    sliceDims (l.map fun k => n k + b k + c k) (l.map fun k => (b k : ℤ)) (l.map fun k => ((n k + b k + c k : ℕ) : ℤ) - c k)
      (List.replicate l.length 1) = some (l.map fun k => ((b k : ℤ), n k, (1 : ℤ)))
  | [] => rfl
  | k :: l => by
      simp only [List.map_cons, List.length_cons, List.replicate_succ, sliceDims]
      rw [sliceDim_crop, sliceDims_crop n b c l]
      rfl

/-- **C79 (Pad).** In the mode `constant`, by zeros: the gradient is cropped. -/
theorem pad_gradient_partial (as : List Attr) (hm : strAttr as "mode" "constant" = "constant") (s : List ℤ) (X dY : Ten ℝ)
    (hs : Agrees s X.shape) (pads dims : List ℕ) (rest : List Inp) (hp : pads.length = 2 * X.shape.length)
    (hu : ∀ k, k < X.shape.length → s.getD k 0 = -1 → pads.getD k 0 = 0 ∧ pads.getD (k + X.shape.length) 0 = 0)
    (hd : dY.shape = (List.range X.shape.length).map fun k => X.shape.getD k 0 + pads.getD k 0 + pads.getD (k + X.shape.length) 0) :
    ∃ nd dX, padNode as (.shape s :: .nums dims (pads.map fun n : ℕ => (n : ℤ)) :: rest) = .ok nd ∧
      padBack (pads.map fun n : ℕ => (n : ℤ)) [dY] = .ok [dX] ∧ IsGradientOf nd.forward [X] [dY] [dX] := by
  have hg : ∀ k, (pads.map fun n : ℕ => (n : ℤ)).getD k 0 = (pads.getD k 0 : ℤ) := fun k => by
    by_cases h : k < pads.length
    · rw [List.getD_eq_getElem _ _ (by simpa using h), List.getD_eq_getElem _ _ h, List.getElem_map]
    · rw [List.getD_eq_default _ _ (by simpa using h), List.getD_eq_default _ _ (by omega)]; rfl
  have hhalf : (pads.map fun n : ℕ => (n : ℤ)).length / 2 = X.shape.length := by rw [List.length_map, hp]; omega
  obtain ⟨nd, -, -, e1, -⟩ := pad_node_partial as hm none rfl s X hs pads dims rest hp hu
  have key : padBack (pads.map fun n : ℕ => (n : ℤ)) [dY] = .ok [⟨X.shape, fun i => dY.get
      ((List.zipWith (fun (p : ℤ × ℕ × ℤ) (q : ℕ) => (p.1 + q * p.2.2).toNat)
        ((List.range X.shape.length).map fun k => ((pads.getD k 0 : ℤ), X.shape.getD k 0, (1 : ℤ))) i))⟩] := by
    show (if dY.shape.length < (pads.map fun n : ℕ => (n : ℤ)).length / 2 then Except.error NErr.index else
      (orShape (sliceT ((List.range ((pads.map fun n : ℕ => (n : ℤ)).length / 2)).map fun k => (pads.map fun n : ℕ => (n : ℤ)).getD k 0)
        ((List.range ((pads.map fun n : ℕ => (n : ℤ)).length / 2)).map fun k => (dY.shape.getD k 0 : ℤ) -
          (pads.map fun n : ℕ => (n : ℤ)).getD (k + (pads.map fun n : ℕ => (n : ℤ)).length / 2) 0)
        (List.replicate ((pads.map fun n : ℕ => (n : ℤ)).length / 2) 1) dY)).map fun y => [y]) = _
    rw [hhalf, if_neg (by rw [hd]; simp)]
    simp only [hg]
    have h1 : ((List.range X.shape.length).map fun k => (dY.shape.getD k 0 : ℤ) - (pads.getD (k + X.shape.length) 0 : ℤ)) =
        (List.range X.shape.length).map fun k => ((X.shape.getD k 0 + pads.getD k 0 + pads.getD (k + X.shape.length) 0 : ℕ) : ℤ) -
          (pads.getD (k + X.shape.length) 0 : ℤ) := by
      apply List.map_congr_left
      intro k hk
      rw [hd, getD_map_range _ _ _ (List.mem_range.1 hk)]
    rw [h1]
    unfold sliceT
    rw [hd]
    have h2 := sliceDims_crop (fun k => X.shape.getD k 0) (fun k => pads.getD k 0) (fun k => pads.getD (k + X.shape.length) 0)
      (List.range X.shape.length)
    rw [List.length_range] at h2
    rw [h2]
    have h3 : (((List.range X.shape.length).map fun k => ((pads.getD k 0 : ℤ), X.shape.getD k 0, (1 : ℤ))).map fun p => p.2.1) =
        X.shape := by
      rw [List.map_map]; exact range_getD X.shape
    rw [Option.map_some, h3]; rfl
  have hplace : ∀ i : List ℕ, i.length = X.shape.length → (List.zipWith (fun (p : ℤ × ℕ × ℤ) (q : ℕ) => (p.1 + q * p.2.2).toNat)
        ((List.range X.shape.length).map fun k => ((pads.getD k 0 : ℤ), X.shape.getD k 0, (1 : ℤ))) i) =
      (List.range X.shape.length).map fun k => i.getD k 0 + pads.getD k 0 := by
    intro i hi
    have h1 := range_getD i
    rw [hi] at h1
    conv_lhs => rw [← h1]
    rw [List.zipWith_map, List.zipWith_self]
    apply List.map_congr_left
    intro k _
    simp only [mul_one]
    omega
  refine ⟨nd, _, e1, key, ?_⟩
  refine gradient_place _ X dY _ _ (fun i => (List.range X.shape.length).map fun k => i.getD k 0 + pads.getD k 0) ?_ ?_ ?_ hd rfl ?_
  · intro Z hZ
    obtain ⟨nd', Y, -, e2, e3, ⟨-, hY, hget⟩, -⟩ := pad_node_partial as hm none rfl s Z (by rw [hZ]; exact hs) pads dims rest
      (by rw [hZ]; exact hp) (by rw [hZ]; exact hu)
    obtain rfl : nd = nd' := by rw [e1] at e2; exact Except.ok.inj e2
    rw [hZ] at hY
    refine ⟨Y, e3, hY, fun i hi => ?_, fun j hj hn => ?_⟩
    · obtain ⟨hi1, hi2⟩ := inShape_iff.1 hi
      have hin : InShape Y.shape ((List.range X.shape.length).map fun k => i.getD k 0 + pads.getD k 0) := by
        rw [hY, inShape_iff]
        refine ⟨by simp, fun k hk => ?_⟩
        rw [List.length_map, List.length_range] at hk
        rw [getD_map_range _ _ _ hk, getD_map_range _ _ _ hk]
        have := hi2 k hk
        omega
      have h1 := hget _ hin
      rw [hm] at h1
      rcases h1 with ⟨-, h1⟩ | ⟨⟨k, hk, h1⟩, -⟩
      · rw [h1, hZ]
        congr 1
        have h2 := range_getD i
        rw [hi1] at h2
        conv_rhs => rw [← h2]
        apply List.map_congr_left
        intro k hk
        rw [getD_map_range _ _ _ (List.mem_range.1 hk)]
        omega
      · exfalso
        rw [hZ] at hk h1
        rw [getD_map_range _ _ _ hk] at h1
        have := hi2 k hk
        omega
    · have hjY : InShape Y.shape j := by rw [hY]; exact hj
      have h1 := hget j hjY
      rw [hm] at h1
      rcases h1 with ⟨h1, -⟩ | ⟨-, h1⟩
      · exfalso
        rw [hZ] at h1
        have hjl : j.length = X.shape.length := by rw [(inShape_iff.1 hj).1]; simp
        refine hn ((List.range X.shape.length).map fun k => j.getD k 0 - pads.getD k 0) ?_ ?_
        · rw [inShape_iff]
          refine ⟨by simp, fun k hk => ?_⟩
          rw [getD_map_range _ _ _ hk]
          have := h1 k hk
          omega
        · have h2 := range_getD j
          rw [hjl] at h2
          conv_rhs => rw [← h2]
          apply List.map_congr_left
          intro k hk
          rw [getD_map_range _ _ _ (List.mem_range.1 hk)]
          have := h1 k (List.mem_range.1 hk)
          omega
      · exact h1
  · intro i hi
    obtain ⟨hi1, hi2⟩ := inShape_iff.1 hi
    rw [inShape_iff]
    refine ⟨by simp, fun k hk => ?_⟩
    rw [List.length_map, List.length_range] at hk
    rw [getD_map_range _ _ _ hk, getD_map_range _ _ _ hk]
    have := hi2 k hk
    omega
  · intro i j hi hj h
    beta_reduce at h
    have hil := (inShape_iff.1 hi).1
    apply ext_getD (hil.trans (inShape_iff.1 hj).1.symm)
    intro k hk
    rw [hil] at hk
    have h1 := congrArg (fun l : List ℕ => l.getD k 0) h
    beta_reduce at h1
    rw [getD_map_range _ _ _ hk, getD_map_range _ _ _ hk] at h1
    omega
  · intro i hi
    show dY.get _ = _
    rw [hplace i (inShape_iff.1 hi).1]

/-! ## Nodes without gradients -/

/-- `Stack` uses a keyword that does not exist; `Slice` and `Gather` are not implemented. -/
theorem missing_gradients_false (dys : List (Ten ℝ)) :
    stackBack dys = .error .type ∧ sliceBack dys = .error .notImplemented := ⟨rfl, rfl⟩

end Verif.Convert
