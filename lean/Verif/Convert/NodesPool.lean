import Verif.Convert.NodesConv

/-!
# Pooling and batch normalisation in converted models, and convolutions that are not converted correctly (C77)
-/

namespace Verif.Convert

open Verif.Tensor Verif.Keras Onnx

/-! ## Convolutions that go wrong -/

/-- Two numbers as attributes. -/
def sampleConv (p : List ℤ) : List Attr := [⟨"group", .int 1⟩, ⟨"pads", .ints p⟩, ⟨"strides", .ints [1, 1]⟩]

theorem sampleConv_attrs (a b c d : ℕ) : ConvAttrs (sampleConv [a, b, c, d]) 1 1 1 (some ⟨a, b, c, d⟩) := by
  constructor <;> simp [sampleConv, attr]

/-- A 1 × 1 image and a 1 × 1 kernel. -/
def dot (v : ℝ) : Ten ℝ := ⟨[1, 1, 1, 1], fun _ => v⟩

/-- A row is added above instead of below the image. -/
theorem conv_pads_false : ∃ as s x W nd y, convNode as [.shape s, .real W] = .ok nd ∧ nd.forward [x] = .ok [y] ∧
    (∃ z, IsConv as x W none z) ∧ ¬ IsConv as x W none y := by
  have H := sampleConv_attrs 0 0 1 0
  have H' := sampleConv_attrs 1 0 0 0
  obtain ⟨nd, y, _, e1, e2, e3, _⟩ := conv_node_swapped (n := 1) (c := 1) (h := 1) (w := 1) (o := 1) (k := 1) H H' (by decide) (by decide) (by decide) (by decide)
    (by decide) (by decide) (by decide) (by decide) (dot 1) (dot 1) none rfl rfl (by simp)
  obtain ⟨nd', z, _, _, _, e3', _⟩ := conv_node_swapped (n := 1) (c := 1) (h := 1) (w := 1) (o := 1) (k := 1) H' H (by decide) (by decide) (by decide) (by decide)
    (by decide) (by decide) (by decide) (by decide) (dot 1) (dot 1) none rfl rfl (by simp)
  refine ⟨_, [-1, (1 : ℕ), (1 : ℕ), (1 : ℕ)], dot 1, dot 1, nd, y, e1, e2, ⟨z, e3'⟩, ?_⟩
  rintro ⟨n, c, h, w, o, ci, kh, kw, hx, hW, -, -, -, hy, hv⟩
  obtain ⟨n', c', h', w', o', ci', kh', kw', hx', hW', -, -, -, hy', hv'⟩ := e3
  simp only [dot, List.cons.injEq, and_true] at hx hW hx' hW'
  obtain ⟨rfl, rfl, rfl, rfl⟩ := hx
  obtain ⟨rfl, rfl, rfl, rfl⟩ := hW
  obtain ⟨rfl, rfl, rfl, rfl⟩ := hx'
  obtain ⟨rfl, rfl, rfl, rfl⟩ := hW'
  have d0 : outDim (sampleConv [(0 : ℕ), (0 : ℕ), (1 : ℕ), (0 : ℕ)]) 0 1 1 = 2 := by
    rw [H.outDim0 1 1 (by decide) (by decide) (by decide)]; decide
  have d1 : outDim (sampleConv [(0 : ℕ), (0 : ℕ), (1 : ℕ), (0 : ℕ)]) 1 1 1 = 1 := by
    rw [H.outDim1 1 1 (by decide) (by decide) (by decide)]; decide
  have d0' : outDim (sampleConv [(1 : ℕ), (0 : ℕ), (0 : ℕ), (0 : ℕ)]) 0 1 1 = 2 := by
    rw [H'.outDim0 1 1 (by decide) (by decide) (by decide)]; decide
  have d1' : outDim (sampleConv [(1 : ℕ), (0 : ℕ), (0 : ℕ), (0 : ℕ)]) 1 1 1 = 1 := by
    rw [H'.outDim1 1 1 (by decide) (by decide) (by decide)]; decide
  have v := hv 0 0 0 0 (by decide) (by decide) (by rw [d0]; decide) (by rw [d1]; decide)
  have v' := hv' 0 0 0 0 (by decide) (by decide) (by rw [d0']; decide) (by rw [d1']; decide)
  rw [v'] at v
  simp only [(H.pixel0 _ _ _ _).1, (H.pixel0 _ _ _ _).2, (H'.pixel0 _ _ _ _).1, (H'.pixel0 _ _ _ _).2, Finset.sum_range_one] at v
  simp [padded, extend, dot] at v

/-- Without `strides`, or without `group`, the node cannot be built, although both have defaults. -/
theorem conv_defaults_false (as : List Attr) (hu : (as.map Attr.name).Nodup) (s : List ℤ) (W : Ten ℝ) (b : Option (Ten ℝ))
    (hW : W.shape.length = 4) (h : attr as "strides" = none ∨ attr as "group" = none) :
    convNode as (.shape s :: .real W :: biasInput b) = .error .key := by
  obtain ⟨o, c, k, k', hW⟩ : ∃ o c k k', W.shape = [o, c, k, k'] := by
    match hs : W.shape, hW with
    | [o, c, k, k'], _ => exact ⟨o, c, k, k', rfl⟩
  have hm : ∀ name, attr as name = none → attrKey as name = .error .key := by
    intro name h
    unfold attrKey
    rw [attrOf_none hu h]
  have hk : ∀ name e, attrKey as name = .error e → e = .key := by
    intro name e h
    unfold attrKey at h
    split at h
    · exact absurd h (by simp)
    · injection h with h; exact h.symm
  unfold convNode
  show ((orShape (Tensor.transpose W [2, 3, 1, 0])).bind _) = _
  rw [transpose_2310 W o c k k' hW]
  show ((thirdInput (.shape s :: .real W :: biasInput b)).bind _) = _
  rw [thirdInput_bias]
  show ((attrKey as "strides").bind _) = _
  rcases h with h | h
  · rw [hm _ h]; rfl
  · cases hst : attrKey as "strides" with
    | error e => rw [hk _ _ hst]; rfl
    | ok st =>
        show ((attrKey as "group").bind _) = _
        rw [hm _ h]; rfl

/-- Kernels that are not square cannot be converted, whatever the other attributes. -/
theorem conv_square_false {as : List Attr} {g : ℤ} {s0 s1 c h w o ci kh kw : ℕ} {p : Option Pads} (H : ConvAttrs as g s0 s1 p)
    (W : Ten ℝ) (b : Option (Ten ℝ)) (hW : W.shape = [o, ci, kh, kw]) (hk : kh ≠ kw) :
    convNode as (.shape [-1, (c : ℤ), (h : ℤ), (w : ℤ)] :: .real W :: biasInput b) = .error .notImplemented := by
  obtain ⟨ps, ep, ed⟩ := padded_dims c h w p
  obtain ⟨st, est, hst⟩ := attrKey_ints H.unique H.strides
  obtain ⟨gr, egr, hgr⟩ := attrKey_int H.unique H.group
  unfold convNode
  show ((orShape (Tensor.transpose W [2, 3, 1, 0])).bind _) = _
  rw [transpose_2310 W o ci kh kw hW]
  show ((thirdInput (.shape [-1, (c : ℤ), (h : ℤ), (w : ℤ)] :: .real W :: biasInput b)).bind _) = _
  rw [thirdInput_bias]
  show ((attrKey as "strides").bind _) = _
  rw [est]
  show ((attrKey as "group").bind _) = _
  rw [egr]
  show ((Convert.padsOf as).bind _) = _
  rw [H.padsOf]
  show ((paddedDims [-1, (c : ℤ), (h : ℤ), (w : ℤ)] p).bind _) = _
  rw [ep]
  show ((pairOf st.ints).bind _) = _
  rw [hst, show pairOf [(s0 : ℤ), (s1 : ℤ)] = .ok (s0, s1) by simp [pairOf]]
  show (if kw ≠ kh then _ else ((imageDims ps).bind _)) = _
  rw [if_pos (fun e => hk e.symm)]

/-- An attribute that the converter does not read changes nothing. -/
theorem conv_ignores (as : List Attr) (a : Attr) (h1 : a.name ≠ "strides") (h2 : a.name ≠ "group") (h3 : a.name ≠ "pads") (ins : List Inp) :
    convNode (a :: as) ins = convNode as ins := by
  have hf : ∀ name, a.name ≠ name → attrOf (a :: as) name = attrOf as name := by
    intro name h
    unfold attrOf
    rw [List.reverse_cons, List.find?_append, List.find?_cons_of_neg (by simpa using h)]
    simp
  unfold convNode attrKey padsOf
  rw [hf _ h1, hf _ h2, hf _ h3]

/-- A 2 × 2 image of ones. -/
def square2 : Ten ℝ := ⟨[1, 1, 2, 2], fun _ => 1⟩

/-- A 2 × 2 kernel on a 3 × 3 image with dilation 2: one output in ONNX, four from the node. -/
theorem conv_dilations_false : ∃ as s x W nd y, convNode as [.shape s, .real W] = .ok nd ∧ nd.forward [x] = .ok [y] ∧
    (∃ z, IsConv as x W none z) ∧ ¬ IsConv as x W none y := by
  set x : Ten ℝ := ⟨[1, 1, 3, 3], fun _ => 1⟩ with hxd
  have H := sampleConv_attrs 0 0 0 0
  obtain ⟨nd, y, _, e1, e2, e3, _⟩ := conv_node_partial (n := 1) (c := 1) (h := 3) (w := 3) (o := 1) (k := 2) H rfl (by decide) (by decide)
    (by decide) (by decide) (by decide) (by decide) (by decide) (by decide) x square2 none rfl rfl (by simp)
  set as : List Attr := ⟨"dilations", .ints [2, 2]⟩ :: sampleConv [(0 : ℕ), (0 : ℕ), (0 : ℕ), (0 : ℕ)] with has
  have d0 : outDim as 0 3 2 = 1 := by
    simp [outDim, span, extent, dilation, before, after, stride, intAttr, intsAttr, strAttr, attr, has, sampleConv]
  have d1 : outDim as 1 3 2 = 1 := by
    simp [outDim, span, extent, dilation, before, after, stride, intAttr, intsAttr, strAttr, attr, has, sampleConv]
  refine ⟨as, [-1, (1 : ℕ), (3 : ℕ), (3 : ℕ)], x, square2, nd, y, ?_, e2, ?_, ?_⟩
  · rw [has, conv_ignores _ _ (by decide) (by decide) (by decide)]
    exact e1
  · have hg : (intAttr as "group" 1).toNat = 1 := by simp [intAttr, attr, has, sampleConv]
    refine ⟨⟨[1, 1, 1, 1], fun idx => (∑ r ∈ Finset.range 1, ∑ a ∈ Finset.range 2, ∑ a' ∈ Finset.range 2,
        extend 3 3 (fun y v => x.get [idx.getD 0 0, idx.getD 1 0 / (1 / 1) * 1 + r, y, v]) (pixel as 0 3 2 (idx.getD 2 0) a)
          (pixel as 1 3 2 (idx.getD 3 0) a') * square2.get [idx.getD 1 0, r, a, a']) + vecAt none (idx.getD 1 0)⟩,
      1, 1, 3, 3, 1, 1, 2, 2, rfl, rfl, by rw [hg], by rw [hg], by simp, by rw [d0, d1], ?_⟩
    intro b q i j _ _ _ _
    rw [hg]
    rfl
  · rintro ⟨n, c, h, w, o, ci, kh, kw, hx, hW, -, -, -, hy, -⟩
    obtain ⟨n', c', h', w', o', ci', kh', kw', hx', hW', -, -, -, hy', -⟩ := e3
    simp only [hxd, square2, List.cons.injEq, and_true] at hx hW hx' hW'
    obtain ⟨rfl, rfl, rfl, rfl⟩ := hx
    obtain ⟨rfl, rfl, rfl, rfl⟩ := hW
    obtain ⟨rfl, rfl, rfl, rfl⟩ := hx'
    obtain ⟨rfl, rfl, rfl, rfl⟩ := hW'
    rw [hy, d0, d1] at hy'
    have d0' : outDim (sampleConv [(0 : ℕ), (0 : ℕ), (0 : ℕ), (0 : ℕ)]) 0 3 2 = 2 := by
      rw [H.outDim0 3 2 (by decide) (by decide) (by decide)]; decide
    rw [d0'] at hy'
    simp at hy'

/-! ## Pooling -/

/-- The attributes of a pooling that the theorems are about: the size of the window and the strides are given,
and nothing is padded, dilated or rounded up. -/
structure PoolAttrs (as : List Attr) (ph pw s0 s1 : ℕ) : Prop where
  unique : (as.map Attr.name).Nodup
  kernel : attr as "kernel_shape" = some (.ints [(ph : ℤ), (pw : ℤ)])
  strides : attr as "strides" = some (.ints [(s0 : ℤ), (s1 : ℤ)])
  dilations : attr as "dilations" = none ∨ attr as "dilations" = some (.ints [1, 1])
  auto : attr as "auto_pad" = none ∨ attr as "auto_pad" = some (.other "NOTSET")
  ceil : attr as "ceil_mode" = none ∨ attr as "ceil_mode" = some (.int 0)
  pads : attr as "pads" = none ∨ attr as "pads" = some (.ints [0, 0, 0, 0])

section
variable {as : List Attr} {ph pw s0 s1 : ℕ}

theorem PoolAttrs.dilation0 (H : PoolAttrs as ph pw s0 s1) (d : ℕ) (hd : d < 2) : dilation as d = 1 := by
  unfold dilation intsAttr
  rcases H.dilations with h | h <;> rw [h] <;> (rcases d with _ | _ | d <;> first | rfl | omega)

theorem PoolAttrs.stride0 (H : PoolAttrs as ph pw s0 s1) : stride as 0 = s0 ∧ stride as 1 = s1 := by
  unfold stride intsAttr
  rw [H.strides]
  exact ⟨rfl, rfl⟩

theorem PoolAttrs.kernel0 (H : PoolAttrs as ph pw s0 s1) :
    ((intsAttr as "kernel_shape" []).getD 0 0).toNat = ph ∧ ((intsAttr as "kernel_shape" []).getD 1 0).toNat = pw := by
  unfold intsAttr
  rw [H.kernel]
  exact ⟨rfl, rfl⟩

theorem PoolAttrs.autoPad (H : PoolAttrs as ph pw s0 s1) : strAttr as "auto_pad" "NOTSET" = "NOTSET" := by
  unfold strAttr
  rcases H.auto with h | h <;> rw [h]

theorem PoolAttrs.before0 (H : PoolAttrs as ph pw s0 s1) (d : ℕ) (hd : d < 2) (size k : ℕ) :
    before as d size k = 0 ∧ after as d size k = 0 := by
  unfold before after intsAttr
  rw [H.autoPad]
  rcases H.pads with h | h <;> rw [h] <;> (rcases d with _ | _ | d <;> first | exact ⟨rfl, rfl⟩ | omega)

theorem PoolAttrs.outDim0 (H : PoolAttrs as ph pw s0 s1) (d : ℕ) (hd : d < 2) (size k : ℕ) (hs : 0 < stride as d) (hk : 0 < k)
    (hv : k ≤ size) : outDim as d size k = outputs size k (stride as d) .valid := by
  rw [outputs_span _ _ _ hs hk hv]
  unfold outDim span
  have hc : intAttr as "ceil_mode" 0 = 0 := by
    unfold intAttr
    rcases H.ceil with h | h <;> rw [h]
  rw [hc, if_pos rfl, (H.before0 d hd size k).1, (H.before0 d hd size k).2]
  unfold extent
  rw [H.dilation0 d hd]
  have : (size : ℤ) + (0 : ℕ) + (0 : ℕ) - ((k - 1) * 1 + 1 : ℕ) = ((size - k : ℕ) : ℤ) := by omega
  rw [this]
  norm_cast

theorem PoolAttrs.pixel0 (H : PoolAttrs as ph pw s0 s1) (d : ℕ) (hd : d < 2) (size k i a : ℕ) :
    pixel as d size k i a = ((i * stride as d + a : ℕ) : ℤ) := by
  unfold pixel
  rw [(H.before0 d hd size k).1, H.dilation0 d hd]
  simp

/-- Every tap of a window is in the image. -/
theorem PoolAttrs.inside (H : PoolAttrs as ph pw s0 s1) {h w i j a a' : ℕ} (hs0 : 0 < s0) (hs1 : 0 < s1) (hp : 0 < ph) (hq : 0 < pw)
    (hh : ph ≤ h) (hw : pw ≤ w) (hi : i < outputs h ph s0 .valid) (hj : j < outputs w pw s1 .valid) (ha : a < ph) (ha' : a' < pw) :
    Inside as h w ph pw i j a a' ∧ i * s0 + a < h ∧ j * s1 + a' < w := by
  have key : ∀ {size k s i a : ℕ}, 0 < s → 0 < k → k ≤ size → i < outputs size k s .valid → a < k → i * s + a < size := by
    intro size k s i a hs hk hv hi ha
    rw [outputs_span _ _ _ hs hk hv] at hi
    have h1 : i ≤ (size - k) / s := by omega
    have h2 : i * s ≤ size - k := le_trans (Nat.mul_le_mul_right _ h1) (Nat.div_mul_le_self _ _)
    omega
  have k1 := key hs0 hp hh hi ha
  have k2 := key hs1 hq hw hj ha'
  refine ⟨?_, k1, k2⟩
  unfold Inside
  rw [H.pixel0 0 (by decide), H.pixel0 1 (by decide), H.stride0.1, H.stride0.2]
  refine ⟨by omega, by exact_mod_cast k1, by omega, by exact_mod_cast k2⟩

/-- What both nodes read. -/
theorem PoolAttrs.args (H : PoolAttrs as ph pw s0 s1) : poolArgs as = .ok ⟨ph, pw, s0, s1, .valid, false⟩ := by
  obtain ⟨a, e1, h1⟩ := attrKey_ints H.unique H.kernel
  obtain ⟨b, e2, h2⟩ := attrKey_ints H.unique H.strides
  unfold poolArgs
  rw [e1, e2]
  show ((pairOf a.ints).bind fun _ => (pairOf b.ints).bind _) = _
  rw [h1, h2, show ∀ u v : ℕ, pairOf [(u : ℤ), (v : ℤ)] = .ok (u, v) by intro u v; simp [pairOf],
    show ∀ u v : ℕ, pairOf [(u : ℤ), (v : ℤ)] = .ok (u, v) by intro u v; simp [pairOf]]
  rfl

end

theorem ok_bind {α β : Type} (a : α) (f : α → Except NErr β) : (Except.ok a : Except NErr α).bind f = f a := rfl

theorem imageDims_nat (c h w : ℕ) : imageDims [-1, (c : ℤ), (h : ℤ), (w : ℤ)] = .ok (-1, c, h, w) := by
  simp [imageDims, dimAt]
  rfl

/-- The declared shape of a pooling. -/
theorem pool_declares {ph pw s0 s1 c h w : ℕ} (hs0 : 0 < s0) (hs1 : 0 < s1) (hp : 0 < ph) (hq : 0 < pw) (hh : ph ≤ h) (hw : pw ≤ w) :
    declare (-1) (poolShape ⟨ph, pw, s0, s1, .valid, false⟩ [0, c, h, w]) =
      .ok [[-1, (c : ℤ), (outputs h ph s0 .valid : ℤ), (outputs w pw s1 .valid : ℤ)]] := by
  have o1 := outSize_eq h ph s0 hs0 hp .valid (by simp) (fun _ => hh)
  have o2 := outSize_eq w pw s1 hs1 hq .valid (by simp) (fun _ => hw)
  have : poolShape ⟨ph, pw, s0, s1, .valid, false⟩ [0, c, h, w] = some [0, c, outputs h ph s0 .valid, outputs w pw s1 .valid] := by
    simp [poolShape, o1, o2]
  rw [this]
  rfl

/-- **AveragePool**, partial: for windows that are not padded. -/
theorem avg_node_partial {as : List Attr} {ph pw s0 s1 n c h w : ℕ} (H : PoolAttrs as ph pw s0 s1) (hs0 : 0 < s0) (hs1 : 0 < s1)
    (hp : 0 < ph) (hq : 0 < pw) (hn : 0 < n) (hc : 0 < c) (hh : ph ≤ h) (hw : pw ≤ w) (x : Ten ℝ) (hx : x.shape = [n, c, h, w]) :
    ∃ nd y d, avgNode as [.shape [-1, (c : ℤ), (h : ℤ), (w : ℤ)]] = .ok nd ∧ nd.forward [x] = .ok [y] ∧ IsAveragePool as x y ∧
      nd.outShapes = [d] ∧ Declares d y.shape := by
  have hF : (⟨ph, pw, s0, s1, .valid, false⟩ : PoolCfg).Fits n c h w :=
    ⟨hp, hq, hs0, hs1, hn, hc, by omega, by omega, .inr ⟨rfl, hh, hw⟩⟩
  obtain ⟨y, ey, hys, hyv⟩ := avg_forward ⟨ph, pw, s0, s1, .valid, false⟩ x n c h w hF hx
  have hys' : y.shape = [n, c, outputs h ph s0 .valid, outputs w pw s1 .valid] := hys
  refine ⟨{ outShapes := [[-1, (c : ℤ), (outputs h ph s0 .valid : ℤ), (outputs w pw s1 .valid : ℤ)]]
            forward := fun xs => do
              let x ← argAt xs 0
              let y ← orShape (avgForward ⟨ph, pw, s0, s1, .valid, false⟩ x)
              .ok [y] }, y, _, ?_, ?_, ?_, rfl, ⟨n, [c, outputs h ph s0 .valid, outputs w pw s1 .valid], hys', rfl⟩⟩
  · unfold avgNode
    show ((poolArgs as).bind _) = _
    rw [H.args, ok_bind]
    show ((imageDims [-1, (c : ℤ), (h : ℤ), (w : ℤ)]).bind _) = _
    rw [imageDims_nat, ok_bind]
    show ((declare (-1) (poolShape ⟨ph, pw, s0, s1, .valid, false⟩ [0, c, h, w])).bind _) = _
    rw [pool_declares hs0 hs1 hp hq hh hw]
    rfl
  · show ((orShape (avgForward ⟨ph, pw, s0, s1, .valid, false⟩ x)).bind _) = _
    rw [ey]
    rfl
  · have e0 : outDim as 0 h ph = outputs h ph s0 .valid := by
      rw [H.outDim0 0 (by decide) h ph (by rw [H.stride0.1]; exact hs0) hp hh, H.stride0.1]
    have e1 : outDim as 1 w pw = outputs w pw s1 .valid := by
      rw [H.outDim0 1 (by decide) w pw (by rw [H.stride0.2]; exact hs1) hq hw, H.stride0.2]
    unfold IsAveragePool
    simp only [H.kernel0.1, H.kernel0.2]
    refine ⟨n, c, h, w, hx, by rw [e0, e1]; exact hys', ?_⟩
    rw [e0, e1]
    intro b r i j hb hr hi hj
    have := hyv b r i j hb hr hi hj
    rw [show (PoolCfg.fmt ⟨ph, pw, s0, s1, .valid, false⟩).entry y b r i j = y.get [b, r, i, j] from rfl] at this
    rw [this]
    congr 1
    · refine Finset.sum_congr rfl fun a _ => Finset.sum_congr rfl fun a' _ => ?_
      rw [H.pixel0 0 (by decide), H.pixel0 1 (by decide), H.stride0.1, H.stride0.2]
      simp only [frontPad, sub_zero]
      push_cast
      rfl
    · have : ∀ a ∈ Finset.range ph, (∑ a' ∈ Finset.range pw,
          if intAttr as "count_include_pad" 0 ≠ 0 ∨ Inside as h w ph pw i j a a' then (1 : ℝ) else 0) = (pw : ℝ) := by
        intro a ha
        rw [Finset.sum_congr rfl (g := fun _ => (1 : ℝ)) (fun a' ha' => if_pos (.inr
          (H.inside hs0 hs1 hp hq hh hw hi hj (Finset.mem_range.1 ha) (Finset.mem_range.1 ha')).1))]
        simp
      rw [Finset.sum_congr rfl this]
      simp

/-- **MaxPool**, partial: for windows that are not padded. -/
theorem max_node_partial {as : List Attr} {ph pw s0 s1 n c h w : ℕ} (H : PoolAttrs as ph pw s0 s1) (hs0 : 0 < s0) (hs1 : 0 < s1)
    (hp : 0 < ph) (hq : 0 < pw) (hn : 0 < n) (hc : 0 < c) (hh : ph ≤ h) (hw : pw ≤ w) (x : Ten ℝ) (hx : x.shape = [n, c, h, w]) :
    ∃ nd y d, maxNode as [.shape [-1, (c : ℤ), (h : ℤ), (w : ℤ)]] = .ok nd ∧ nd.forward [x] = .ok [y] ∧ IsMaxPool as x y ∧
      nd.outShapes = [d] ∧ Declares d y.shape := by
  have hF : (⟨ph, pw, s0, s1, .valid, false⟩ : PoolCfg).Fits n c h w :=
    ⟨hp, hq, hs0, hs1, hn, hc, by omega, by omega, .inr ⟨rfl, hh, hw⟩⟩
  obtain ⟨y, ar, x1, ey, _, hx1, hys, _, hyv⟩ := max_forward ⟨ph, pw, s0, s1, .valid, false⟩ x n c h w hF hx
  have hys' : y.shape = [n, c, outputs h ph s0 .valid, outputs w pw s1 .valid] := hys
  refine ⟨{ outShapes := [[-1, (c : ℤ), (outputs h ph s0 .valid : ℤ), (outputs w pw s1 .valid : ℤ)]]
            forward := fun xs => do
              let x ← argAt xs 0
              let y ← orShape (maxForward ⟨ph, pw, s0, s1, .valid, false⟩ x)
              .ok [y.1] }, y, _, ?_, ?_, ?_, rfl, ⟨n, [c, outputs h ph s0 .valid, outputs w pw s1 .valid], hys', rfl⟩⟩
  · unfold maxNode
    show ((poolArgs as).bind _) = _
    rw [H.args, ok_bind]
    show ((imageDims [-1, (c : ℤ), (h : ℤ), (w : ℤ)]).bind _) = _
    rw [imageDims_nat, ok_bind]
    show ((declare (-1) (poolShape ⟨ph, pw, s0, s1, .valid, false⟩ [0, c, h, w])).bind _) = _
    rw [pool_declares hs0 hs1 hp hq hh hw]
    rfl
  · show ((orShape (maxForward ⟨ph, pw, s0, s1, .valid, false⟩ x)).bind _) = _
    rw [ey]
    rfl
  · have e0 : outDim as 0 h ph = outputs h ph s0 .valid := by
      rw [H.outDim0 0 (by decide) h ph (by rw [H.stride0.1]; exact hs0) hp hh, H.stride0.1]
    have e1 : outDim as 1 w pw = outputs w pw s1 .valid := by
      rw [H.outDim0 1 (by decide) w pw (by rw [H.stride0.2]; exact hs1) hq hw, H.stride0.2]
    unfold IsMaxPool
    simp only [H.kernel0.1, H.kernel0.2]
    refine ⟨n, c, h, w, hx, by rw [e0, e1]; exact hys', ?_⟩
    rw [e0, e1]
    intro b r i j hb hr hi hj
    have hval := hyv b r i j hb hr hi hj
    rw [show (PoolCfg.fmt ⟨ph, pw, s0, s1, .valid, false⟩).entry y b r i j = y.get [b, r, i, j] from rfl] at hval
    rw [hval]
    have hwin : ∀ a a', a < ph → a' < pw → windowEntry x1 h w ph pw s0 s1 .valid b r i j a a' =
        x.get [b, r, (pixel as 0 h ph i a).toNat, (pixel as 1 w pw j a').toNat] := by
      intro a a' ha ha'
      obtain ⟨_, k1, k2⟩ := H.inside hs0 hs1 hp hq hh hw hi hj ha ha'
      rw [H.pixel0 0 (by decide), H.pixel0 1 (by decide), H.stride0.1, H.stride0.2, Int.toNat_natCast, Int.toNat_natCast]
      unfold windowEntry extend
      simp only [frontPad, sub_zero]
      rw [if_pos ⟨by positivity, by exact_mod_cast k1, by positivity, by exact_mod_cast k2⟩, hx1]
      show x.get [b, r, _, _] = _
      congr 4 <;> omega
    constructor
    · obtain ⟨q, hql, hqe⟩ := maxUpTo_mem (windowAt ⟨ph, pw, s0, s1, .valid, false⟩ x1 h w b r i j) (ph * pw - 1)
      have hq' : q < ph * pw := by have := Nat.mul_pos hp hq; omega
      have ha : q / pw < ph := Nat.div_lt_of_lt_mul (by rw [Nat.mul_comm]; exact hq')
      have ha' : q % pw < pw := Nat.mod_lt _ hq
      exact ⟨q / pw, q % pw, ha, ha', (H.inside hs0 hs1 hp hq hh hw hi hj ha ha').1, hqe.trans (hwin _ _ ha ha')⟩
    · rintro v ⟨a, a', ha, ha', -, rfl⟩
      rw [← hwin a a' ha ha']
      have hlt : a * pw + a' < ph * pw := by nlinarith
      have := le_maxUpTo (windowAt ⟨ph, pw, s0, s1, .valid, false⟩ x1 h w b r i j) (ph * pw - 1) (a * pw + a') (by omega)
      refine le_trans (le_of_eq ?_) this
      unfold windowAt
      simp only []
      rw [div_block _ 0 _ _ ha', mod_block _ _ _ ha']

/-- Without `strides` (in ONNX they default to 1) the nodes cannot be built. -/
theorem pool_defaults_false (as : List Attr) (hu : (as.map Attr.name).Nodup) (h : attr as "strides" = none) (s : List ℤ) :
    avgNode as [.shape s] = .error .key ∧ maxNode as [.shape s] = .error .key := by
  have : poolArgs as = .error .key := by
    unfold poolArgs
    cases hk : attrKey as "kernel_shape" with
    | error e =>
        unfold attrKey at hk
        split at hk
        · exact absurd hk (by simp)
        · injection hk with hk; rw [← hk]; rfl
    | ok a =>
        show ((attrKey as "strides").bind _) = _
        rw [show attrKey as "strides" = .error .key by unfold attrKey; rw [attrOf_none hu h]]
        rfl
  constructor
  · unfold avgNode
    show ((poolArgs as).bind _) = _
    rw [this]; rfl
  · unfold maxNode
    show ((poolArgs as).bind _) = _
    rw [this]; rfl

/-- An attribute that the converter does not read changes nothing. -/
theorem pool_ignores (as : List Attr) (a : Attr) (h1 : a.name ≠ "strides") (h2 : a.name ≠ "kernel_shape") (ins : List Inp) :
    avgNode (a :: as) ins = avgNode as ins ∧ maxNode (a :: as) ins = maxNode as ins := by
  have hf : ∀ name, a.name ≠ name → attrOf (a :: as) name = attrOf as name := by
    intro name h
    unfold attrOf
    rw [List.reverse_cons, List.find?_append, List.find?_cons_of_neg (by simpa using h)]
    simp
  unfold avgNode maxNode poolArgs attrKey
  rw [hf _ h1, hf _ h2]
  exact ⟨rfl, rfl⟩

/-- A 2 × 2 window with the given stride. -/
def samplePool (s : ℕ) : List Attr := [⟨"kernel_shape", .ints [(2 : ℕ), (2 : ℕ)]⟩, ⟨"strides", .ints [(s : ℤ), (s : ℤ)]⟩]

theorem samplePool_attrs (s : ℕ) : PoolAttrs (samplePool s) 2 2 s s := by
  constructor <;> simp [samplePool, attr]

/-- An image of ones. -/
def ones (k : ℕ) : Ten ℝ := ⟨[1, 1, k, k], fun _ => 1⟩

/-- For an image of ones, every attribute list has a result, provided that every window has a pixel. -/
theorem ones_pooled (as : List Attr) (k d : ℕ) (hk : intsAttr as "kernel_shape" [] = [2, 2]) (h0 : outDim as 0 k 2 = d) (h1 : outDim as 1 k 2 = d)
    (hin : ∀ i j, i < d → j < d → ∃ a a', a < 2 ∧ a' < 2 ∧ Inside as k k 2 2 i j a a') :
    (∃ z, IsAveragePool as (ones k) z) ∧ ∃ z, IsMaxPool as (ones k) z := by
  constructor
  · refine ⟨⟨[1, 1, d, d], fun idx => (∑ a ∈ Finset.range 2, ∑ a' ∈ Finset.range 2,
          extend k k (fun y x => (ones k).get [idx.getD 0 0, idx.getD 1 0, y, x]) (pixel as 0 k 2 (idx.getD 2 0) a) (pixel as 1 k 2 (idx.getD 3 0) a')) /
        (∑ a ∈ Finset.range 2, ∑ a' ∈ Finset.range 2,
          if intAttr as "count_include_pad" 0 ≠ 0 ∨ Inside as k k 2 2 (idx.getD 2 0) (idx.getD 3 0) a a' then (1 : ℝ) else 0)⟩, ?_⟩
    unfold IsAveragePool
    rw [hk]
    refine ⟨1, 1, k, k, rfl, by rw [show (([2, 2] : List ℤ).getD 0 0).toNat = 2 from rfl, show (([2, 2] : List ℤ).getD 1 0).toNat = 2 from rfl, h0, h1], ?_⟩
    intro b r i j _ _ _ _
    rfl
  · refine ⟨⟨[1, 1, d, d], fun _ => 1⟩, ?_⟩
    unfold IsMaxPool
    rw [hk]
    refine ⟨1, 1, k, k, rfl, by rw [show (([2, 2] : List ℤ).getD 0 0).toNat = 2 from rfl, show (([2, 2] : List ℤ).getD 1 0).toNat = 2 from rfl, h0, h1], ?_⟩
    intro b r i j _ _ hi hj
    rw [show (([2, 2] : List ℤ).getD 0 0).toNat = 2 from rfl, h0] at hi
    rw [show (([2, 2] : List ℤ).getD 1 0).toNat = 2 from rfl, h1] at hj
    obtain ⟨a, a', ha, ha', hio⟩ := hin i j hi hj
    exact ⟨⟨a, a', ha, ha', hio, rfl⟩, by rintro v ⟨_, _, _, _, _, rfl⟩; exact le_refl _⟩

/-- The attribute `a` is ignored although it changes the number of outputs. -/
theorem pool_ignored_false (a : Attr) (s k d d' : ℕ) (hs : 0 < s) (hk : 2 ≤ k) (h1 : a.name ≠ "strides") (h2 : a.name ≠ "kernel_shape")
    (hd : outputs k 2 s .valid = d) (hne : d ≠ d') (h0 : outDim (a :: samplePool s) 0 k 2 = d') (h0' : outDim (a :: samplePool s) 1 k 2 = d')
    (hin : ∀ i j, i < d' → j < d' → ∃ u u', u < 2 ∧ u' < 2 ∧ Inside (a :: samplePool s) k k 2 2 i j u u') :
    (∃ nd y, avgNode (a :: samplePool s) [.shape [-1, (1 : ℕ), (k : ℤ), (k : ℤ)]] = .ok nd ∧ nd.forward [ones k] = .ok [y] ∧
      (∃ z, IsAveragePool (a :: samplePool s) (ones k) z) ∧ ¬ IsAveragePool (a :: samplePool s) (ones k) y) ∧
    ∃ nd y, maxNode (a :: samplePool s) [.shape [-1, (1 : ℕ), (k : ℤ), (k : ℤ)]] = .ok nd ∧ nd.forward [ones k] = .ok [y] ∧
      (∃ z, IsMaxPool (a :: samplePool s) (ones k) z) ∧ ¬ IsMaxPool (a :: samplePool s) (ones k) y := by
  have H := samplePool_attrs s
  have e0 : outDim (samplePool s) 0 k 2 = d := by
    rw [H.outDim0 0 (by decide) k 2 (by rw [H.stride0.1]; exact hs) (by decide) hk, H.stride0.1, hd]
  have hks : intsAttr (a :: samplePool s) "kernel_shape" [] = [2, 2] := by
    unfold intsAttr attr
    rw [List.find?_cons_of_neg (by simpa using h2)]
    rfl
  have hks' : intsAttr (samplePool s) "kernel_shape" [] = [2, 2] := rfl
  obtain ⟨z1, z2⟩ := ones_pooled (a :: samplePool s) k d' hks h0 h0' hin
  constructor
  · obtain ⟨nd, y, _, e1, e2, ⟨n, c, h, w, hx, hy, _⟩, _⟩ := avg_node_partial (n := 1) (c := 1) H hs hs (by decide) (by decide) (by decide) (by decide) hk hk
      (ones k) rfl
    refine ⟨nd, y, by rw [(pool_ignores _ _ h1 h2 _).1]; exact e1, e2, z1, ?_⟩
    rintro ⟨n', c', h', w', hx', hy', _⟩
    simp only [ones, List.cons.injEq, and_true] at hx hx'
    obtain ⟨_, _, rfl, rfl⟩ := hx
    obtain ⟨_, _, rfl, rfl⟩ := hx'
    rw [hy, hks, hks'] at hy'
    simp only [List.cons.injEq] at hy'
    exact hne (e0.symm.trans (hy'.2.2.1.trans h0))
  · obtain ⟨nd, y, _, e1, e2, ⟨n, c, h, w, hx, hy, _⟩, _⟩ := max_node_partial (n := 1) (c := 1) H hs hs (by decide) (by decide) (by decide) (by decide) hk hk
      (ones k) rfl
    refine ⟨nd, y, by rw [(pool_ignores _ _ h1 h2 _).2]; exact e1, e2, z2, ?_⟩
    rintro ⟨n', c', h', w', hx', hy', _⟩
    simp only [ones, List.cons.injEq, and_true] at hx hx'
    obtain ⟨_, _, rfl, rfl⟩ := hx
    obtain ⟨_, _, rfl, rfl⟩ := hx'
    rw [hy, hks, hks'] at hy'
    simp only [List.cons.injEq] at hy'
    exact hne (e0.symm.trans (hy'.2.2.1.trans h0))

/-- Paddings are ignored: a 2 × 2 image padded by 1 on all sides has nine windows, the nodes look at one. -/
theorem pool_pads_false : ∃ as s x,
    (∃ nd y, avgNode as [.shape s] = .ok nd ∧ nd.forward [x] = .ok [y] ∧ (∃ z, IsAveragePool as x z) ∧ ¬ IsAveragePool as x y) ∧
    ∃ nd y, maxNode as [.shape s] = .ok nd ∧ nd.forward [x] = .ok [y] ∧ (∃ z, IsMaxPool as x z) ∧ ¬ IsMaxPool as x y := by
  have hp : ∀ d, d < 2 → ∀ i a, pixel (⟨"pads", .ints [1, 1, 1, 1]⟩ :: samplePool 1) d 2 2 i a = (i + a : ℤ) - 1 := by
    intro d hd i a
    rcases d with _ | _ | d
    · simp [pixel, before, stride, dilation, intsAttr, strAttr, attr, samplePool]
    · simp [pixel, before, stride, dilation, intsAttr, strAttr, attr, samplePool]
    · omega
  refine ⟨_, _, _, pool_ignored_false ⟨"pads", .ints [1, 1, 1, 1]⟩ 1 2 1 3 (by decide) (by decide) (by decide) (by decide) (by decide) (by decide) ?_ ?_ ?_⟩
  · simp [outDim, span, extent, dilation, before, after, stride, intAttr, intsAttr, strAttr, attr, samplePool]
  · simp [outDim, span, extent, dilation, before, after, stride, intAttr, intsAttr, strAttr, attr, samplePool]
  · intro i j hi hj
    have key : ∀ i : ℕ, i < 3 → ∃ a : ℕ, a < 2 ∧ 0 ≤ (i + a : ℤ) - 1 ∧ (i + a : ℤ) - 1 < (2 : ℕ) := by
      intro i hi
      by_cases h : i = 0
      · exact ⟨1, by decide, by omega, by omega⟩
      · exact ⟨0, by decide, by omega, by omega⟩
    obtain ⟨a, ha, h1, h2⟩ := key i hi
    obtain ⟨a', ha', h3, h4⟩ := key j hj
    refine ⟨a, a', ha, ha', ?_⟩
    unfold Inside
    rw [hp 0 (by decide), hp 1 (by decide)]
    exact ⟨h1, h2, h3, h4⟩

/-- `ceil_mode` is ignored: 2 × 2 windows with stride 2 on a 3 × 3 image. -/
theorem pool_ceil_false : ∃ as s x,
    (∃ nd y, avgNode as [.shape s] = .ok nd ∧ nd.forward [x] = .ok [y] ∧ (∃ z, IsAveragePool as x z) ∧ ¬ IsAveragePool as x y) ∧
    ∃ nd y, maxNode as [.shape s] = .ok nd ∧ nd.forward [x] = .ok [y] ∧ (∃ z, IsMaxPool as x z) ∧ ¬ IsMaxPool as x y := by
  have hp : ∀ d, d < 2 → ∀ i a, pixel (⟨"ceil_mode", .int 1⟩ :: samplePool 2) d 3 2 i a = (i * 2 + a : ℤ) := by
    intro d hd i a
    rcases d with _ | _ | d
    · simp [pixel, before, stride, dilation, intsAttr, strAttr, attr, samplePool]
    · simp [pixel, before, stride, dilation, intsAttr, strAttr, attr, samplePool]
    · omega
  refine ⟨_, _, _, pool_ignored_false ⟨"ceil_mode", .int 1⟩ 2 3 1 2 (by decide) (by decide) (by decide) (by decide) (by decide) (by decide) ?_ ?_ ?_⟩
  · simp [outDim, span, extent, dilation, before, after, stride, intAttr, intsAttr, strAttr, attr, samplePool]
  · simp [outDim, span, extent, dilation, before, after, stride, intAttr, intsAttr, strAttr, attr, samplePool]
  · intro i j hi hj
    refine ⟨0, 0, by decide, by decide, ?_⟩
    unfold Inside
    rw [hp 0 (by decide), hp 1 (by decide)]
    push_cast
    omega

/-! ## Batch normalisation -/

/-- The entry of a channel is that of the vector. -/
theorem constantInit_place {s : List ℕ} {c : ℕ} (hc : Channels s 1 c) (t : Ten ℝ) (ht : t.shape = [c]) (k : ℕ) :
    (constantInit t ((List.replicate s.length 1).set 1 c)).get (place s 1 k) = t.get [k] := by
  unfold constantInit
  simp only []
  rw [flat_place hc, ht]
  congr 1
  simp [unflat]

theorem checkInit_ok {s : List ℕ} {c : ℕ} (hc : Channels s 1 c) (t : Ten ℝ) (ht : t.shape = [c]) :
    checkInit t ((List.replicate s.length 1).set 1 c) = .ok () := by
  unfold checkInit
  rw [if_pos]
  rw [ht]
  cases hc <;> simp

/-- **BatchNormalization**, partial: for matrices and images, if `epsilon` is the first attribute. -/
theorem norm_node_partial {s : List ℕ} {n c : ℕ} {r : List ℕ} (hc : Channels s 1 c) (hs : s = n :: c :: r) (ε : ℝ) (rest : List Attr)
    (x γ β μ v : Ten ℝ) (hx : x.shape = s) (hγ : γ.shape = [c]) (hβ : β.shape = [c]) (hμ : μ.shape = [c]) (hv : v.shape = [c]) :
    ∃ nd y d, normNode (⟨"epsilon", .float ε⟩ :: rest)
        [.shape (-1 :: (c :: r).map fun k : ℕ => (k : ℤ)), .real γ, .real β, .real μ, .real v] = .ok nd ∧
      nd.forward [x] = .ok [y] ∧ IsBatchNorm (⟨"epsilon", .float ε⟩ :: rest) x γ β μ v y ∧ nd.outShapes = [d] ∧ Declares d y.shape := by
  have hnat : natShape (-1 :: (c :: r).map fun k : ℕ => (k : ℤ)) = 0 :: c :: r := by
    simp [natShape, Function.comp_def]
  have hpar : normParam 1 (0 :: c :: r) = .ok ((List.replicate s.length 1).set 1 c) := by
    rw [← normParam_channels hc, hs]
    rfl
  obtain ⟨st, est, hh⟩ := norm_build hc ε (some (constantInit γ)) (some (constantInit β)) (constantInit μ) (constantInit v)
    (by rintro g h; injection h with h; subst h; intro s; rfl) (by rintro g h; injection h with h; subst h; intro s; rfl)
    (fun s => rfl) (fun s => rfl)
  have est' : normBuild 1 ε (some (constantInit γ)) (some (constantInit β)) (constantInit μ) (constantInit v) (0 :: c :: r) = .ok st := by
    rw [← est]
    unfold normBuild
    rw [hpar, normParam_channels hc]
  obtain ⟨y, ey, hys, hyv⟩ := norm_call hc hh x hx
  refine ⟨{ outShapes := [-1 :: (c :: r).map fun k : ℕ => (k : ℤ)]
            forward := fun xs => do
              let x ← argAt xs 0
              let y ← ofNorm (normCall st x)
              .ok [y] }, y, _, ?_, ?_, ?_, rfl, ⟨n, c :: r, by rw [hys, hx]; exact hs, rfl⟩⟩
  · unfold normNode
    show ((ofNorm (normParam 1 (natShape (-1 :: (c :: r).map fun k : ℕ => (k : ℤ))))).bind _) = _
    rw [hnat, hpar]
    show ((checkInit γ ((List.replicate s.length 1).set 1 c)).bind _) = _
    rw [checkInit_ok hc γ hγ]
    show ((checkInit β ((List.replicate s.length 1).set 1 c)).bind _) = _
    rw [checkInit_ok hc β hβ]
    show ((checkInit μ ((List.replicate s.length 1).set 1 c)).bind _) = _
    rw [checkInit_ok hc μ hμ]
    show ((checkInit v ((List.replicate s.length 1).set 1 c)).bind _) = _
    rw [checkInit_ok hc v hv]
    show ((ofNorm (normBuild 1 ε (some (constantInit γ)) (some (constantInit β)) (constantInit μ) (constantInit v) (0 :: c :: r))).bind _) = _
    rw [est']
    rfl
  · show ((ofNorm (normCall st x)).bind _) = _
    rw [ey]
    rfl
  · refine ⟨n, c, r, by rw [hx, hs], hγ, hβ, hμ, hv, by rw [hys]; rfl, ?_⟩
    intro b q p hi
    rw [← hs] at hi
    rw [hyv _ hi]
    unfold normalised
    simp only [Option.map_some, Option.getD_some, List.getD_cons_succ, List.getD_cons_zero]
    rw [constantInit_place hc γ hγ, constantInit_place hc β hβ, constantInit_place hc μ hμ, constantInit_place hc v hv]
    rw [show floatAttr (⟨"epsilon", .float ε⟩ :: rest) "epsilon" (1 / 100000) = ε by simp [floatAttr, attr]]
    ring

/-- The node reads the value of the first attribute, whatever it is called; an attribute without a real value counts
as 0. -/
theorem norm_first_attribute (a b : Attr) (rest : List Attr) (h : a.f = b.f) (ins : List Inp) :
    normNode (a :: rest) ins = normNode [b] ins := by
  unfold normNode
  show ((shapeAt ins 0).bind fun s => _) = ((shapeAt ins 0).bind fun s => _)
  simp only [attrAt, List.getElem?_cons_zero]
  congr 1
  funext s
  show ((tensorAt ins 1).bind fun γ => _) = ((tensorAt ins 1).bind fun γ => _)
  simp only [h]

/-- With `momentum` in front of `epsilon`, the momentum is used in its place. -/
theorem norm_epsilon_false : ∃ as s x γ β μ v nd y, normNode as [.shape s, .real γ, .real β, .real μ, .real v] = .ok nd ∧ nd.forward [x] = .ok [y] ∧
    (∃ z, IsBatchNorm as x γ β μ v z) ∧ ¬ IsBatchNorm as x γ β μ v y := by
  set t : ℝ → Ten ℝ := fun a => ⟨[1], fun _ => a⟩ with ht
  set x : Ten ℝ := ⟨[1, 1], fun _ => 1⟩ with hx
  set as : List Attr := [⟨"momentum", .float 3⟩, ⟨"epsilon", .float 0⟩] with has
  have hc : Channels [1, 1] 1 1 := .matrix 1 1
  obtain ⟨nd, y, _, e1, e2, e3, _⟩ := norm_node_partial hc rfl 3 [] x (t 1) (t 0) (t 0) (t 1) rfl rfl rfl rfl rfl
  obtain ⟨_, z, _, _, _, e3', _⟩ := norm_node_partial hc rfl 0 [⟨"momentum", .float 3⟩] x (t 1) (t 0) (t 0) (t 1) rfl rfl rfl rfl rfl
  have hz : ∀ z, IsBatchNorm [⟨"epsilon", .float 0⟩, ⟨"momentum", .float 3⟩] x (t 1) (t 0) (t 0) (t 1) z ↔ IsBatchNorm as x (t 1) (t 0) (t 0) (t 1) z := by
    intro z
    unfold IsBatchNorm
    rw [show floatAttr [⟨"epsilon", .float 0⟩, ⟨"momentum", .float 3⟩] "epsilon" (1 / 100000) = floatAttr as "epsilon" (1 / 100000) by
      simp [floatAttr, attr, has]]
  refine ⟨as, [-1, (1 : ℕ)], x, t 1, t 0, t 0, t 1, nd, y, ?_, e2, ⟨z, (hz z).1 e3'⟩, ?_⟩
  · rw [has, norm_first_attribute ⟨"momentum", .float 3⟩ ⟨"epsilon", .float 3⟩ _ rfl]
    exact e1
  · rintro ⟨n, c, r, hs, -, -, -, -, -, hv⟩
    obtain ⟨n', c', r', hs', -, -, -, -, -, hv'⟩ := e3
    simp only [hx, List.cons.injEq] at hs hs'
    obtain ⟨rfl, rfl, rfl⟩ := hs
    obtain ⟨rfl, rfl, rfl⟩ := hs'
    have hi : InShape [1, 1] [0, 0] := ⟨by decide, by decide, trivial⟩
    have v1 := hv 0 0 [] hi
    have v2 := hv' 0 0 [] hi
    rw [v2] at v1
    have s4 : Real.sqrt (1 + 3) = 2 := by
      rw [show (1 + 3 : ℝ) = 2 ^ 2 by norm_num]; exact Real.sqrt_sq (by norm_num)
    simp [ht, hx, has, floatAttr, attr, s4] at v1

end Verif.Convert
