import Verif.Convert.NodesLemmas

/-!
# Convolutions in converted models (C77)
-/

namespace Verif.Convert

open Verif.Tensor Verif.Keras Onnx

/-! ## Convolutions -/

/-- The attributes of a convolution that the theorems are about: a stride, a group and perhaps paddings are
given; dilations, if given, are 1, and `auto_pad`, if given, is `NOTSET`. -/
structure ConvAttrs (as : List Attr) (g : ℤ) (s0 s1 : ℕ) (p : Option Pads) : Prop where
  unique : (as.map Attr.name).Nodup
  strides : attr as "strides" = some (.ints [(s0 : ℤ), (s1 : ℤ)])
  group : attr as "group" = some (.int g)
  dilations : attr as "dilations" = none ∨ attr as "dilations" = some (.ints [1, 1])
  auto : attr as "auto_pad" = none ∨ attr as "auto_pad" = some (.other "NOTSET")
  ceil : attr as "ceil_mode" = none
  pads : attr as "pads" = p.map fun p => .ints [(p.p0 : ℤ), (p.p1 : ℤ), (p.p2 : ℤ), (p.p3 : ℤ)]

/-- Top and bottom exchanged. -/
def Pads.swap (p : Pads) : Pads := ⟨p.p2, p.p1, p.p0, p.p3⟩

/-- The paddings, none if there are none. -/
def padded (p : Option Pads) : Pads := p.getD ⟨0, 0, 0, 0⟩

section
variable {as : List Attr} {g : ℤ} {s0 s1 : ℕ} {p : Option Pads}

theorem ConvAttrs.dilation0 (H : ConvAttrs as g s0 s1 p) (d : ℕ) (hd : d < 2) : dilation as d = 1 := by
  unfold dilation intsAttr
  rcases H.dilations with h | h <;> rw [h] <;> (rcases d with _ | _ | d <;> first | rfl | omega)

theorem ConvAttrs.extent (H : ConvAttrs as g s0 s1 p) (d : ℕ) (hd : d < 2) (k : ℕ) (hk : 0 < k) : extent as d k = k := by
  unfold Onnx.extent
  rw [H.dilation0 d hd]
  omega

theorem ConvAttrs.stride0 (H : ConvAttrs as g s0 s1 p) : stride as 0 = s0 ∧ stride as 1 = s1 := by
  unfold stride intsAttr
  rw [H.strides]
  exact ⟨rfl, rfl⟩

theorem ConvAttrs.autoPad (H : ConvAttrs as g s0 s1 p) : strAttr as "auto_pad" "NOTSET" = "NOTSET" := by
  unfold strAttr
  rcases H.auto with h | h <;> rw [h]

theorem ConvAttrs.pads_eq (H : ConvAttrs as g s0 s1 p) : intsAttr as "pads" [0, 0, 0, 0] =
    [((padded p).p0 : ℤ), ((padded p).p1 : ℤ), ((padded p).p2 : ℤ), ((padded p).p3 : ℤ)] := by
  unfold intsAttr
  rw [H.pads]
  cases p <;> rfl

theorem ConvAttrs.before0 (H : ConvAttrs as g s0 s1 p) (size k : ℕ) :
    before as 0 size k = (padded p).p0 ∧ before as 1 size k = (padded p).p1 := by
  unfold before
  rw [H.autoPad, H.pads_eq]
  exact ⟨rfl, rfl⟩

theorem ConvAttrs.after0 (H : ConvAttrs as g s0 s1 p) (size k : ℕ) :
    after as 0 size k = (padded p).p2 ∧ after as 1 size k = (padded p).p3 := by
  unfold after
  rw [H.autoPad, H.pads_eq]
  exact ⟨rfl, rfl⟩

theorem ConvAttrs.outDim0 (H : ConvAttrs as g s0 s1 p) (size k : ℕ) (hs : 0 < s0) (hk : 0 < k)
    (hv : k ≤ (padded p).p0 + size + (padded p).p2) :
    outDim as 0 size k = outputs ((padded p).p0 + size + (padded p).p2) k s0 .valid := by
  rw [outputs_span _ _ _ hs hk hv]
  unfold outDim span intAttr
  rw [H.ceil, if_pos rfl, H.extent 0 (by decide) k hk, (H.before0 size k).1, (H.after0 size k).1, H.stride0.1]
  have : (size : ℤ) + (padded p).p0 + (padded p).p2 - k = (((padded p).p0 + size + (padded p).p2 - k : ℕ) : ℤ) := by omega
  rw [this]
  norm_cast

theorem ConvAttrs.outDim1 (H : ConvAttrs as g s0 s1 p) (size k : ℕ) (hs : 0 < s1) (hk : 0 < k)
    (hv : k ≤ (padded p).p1 + size + (padded p).p3) :
    outDim as 1 size k = outputs ((padded p).p1 + size + (padded p).p3) k s1 .valid := by
  rw [outputs_span _ _ _ hs hk hv]
  unfold outDim span intAttr
  rw [H.ceil, if_pos rfl, H.extent 1 (by decide) k hk, (H.before0 size k).2, (H.after0 size k).2, H.stride0.2]
  have : (size : ℤ) + (padded p).p1 + (padded p).p3 - k = (((padded p).p1 + size + (padded p).p3 - k : ℕ) : ℤ) := by omega
  rw [this]
  norm_cast

theorem ConvAttrs.pixel0 (H : ConvAttrs as g s0 s1 p) (size k i a : ℕ) :
    pixel as 0 size k i a = (i * s0 + a : ℤ) - (padded p).p0 ∧ pixel as 1 size k i a = (i * s1 + a : ℤ) - (padded p).p1 := by
  unfold pixel
  rw [(H.before0 size k).1, (H.before0 size k).2, H.stride0.1, H.stride0.2, H.dilation0 0 (by decide), H.dilation0 1 (by decide)]
  push_cast
  constructor <;> ring

/-- What the node reads. -/
theorem ConvAttrs.padsOf (H : ConvAttrs as g s0 s1 p) : padsOf as = .ok p := by
  unfold Convert.padsOf
  cases p with
  | none => rw [attrOf_none H.unique H.pads]
  | some p =>
      obtain ⟨a, e, hv⟩ := attrOf_some H.unique H.pads
      have hi : a.ints = [(p.p0 : ℤ), (p.p1 : ℤ), (p.p2 : ℤ), (p.p3 : ℤ)] := by unfold Attr.ints; rw [hv]
      rw [e]
      simp [hi]

end

/-- The declared shape of the padded image. -/
theorem padded_dims (c h w : ℕ) (p : Option Pads) : ∃ s, paddedDims [-1, (c : ℤ), (h : ℤ), (w : ℤ)] p = .ok s ∧
    imageDims s = .ok (-1, c, (padded p).p0 + h + (padded p).p2, (padded p).p1 + w + (padded p).p3) := by
  cases p with
  | none =>
      refine ⟨_, rfl, ?_⟩
      simp [imageDims, dimAt, padded]
      rfl
  | some p =>
      refine ⟨[-1, (c : ℤ), (h : ℤ) + p.p0 + p.p2, (w : ℤ) + p.p1 + p.p3], rfl, ?_⟩
      have h1 : dimAt [-1, (c : ℤ), (h : ℤ) + p.p0 + p.p2, (w : ℤ) + p.p1 + p.p3] 2 = .ok (p.p0 + h + p.p2) := by
        show (if (h : ℤ) + p.p0 + p.p2 < 0 then Except.error NErr.value else Except.ok ((h : ℤ) + p.p0 + p.p2).toNat) = _
        rw [if_neg (by omega)]; congr 1; omega
      have h2 : dimAt [-1, (c : ℤ), (h : ℤ) + p.p0 + p.p2, (w : ℤ) + p.p1 + p.p3] 3 = .ok (p.p1 + w + p.p3) := by
        show (if (w : ℤ) + p.p1 + p.p3 < 0 then Except.error NErr.value else Except.ok ((w : ℤ) + p.p1 + p.p3).toNat) = _
        rw [if_neg (by omega)]; congr 1; omega
      unfold imageDims
      rw [h1, h2]
      rfl

/-- The image as the layer gets it: top and bottom are exchanged. -/
theorem padImage_some (p : Option Pads) (x : Ten ℝ) (n c h w : ℕ) (hx : x.shape = [n, c, h, w]) :
    ∃ z, padImage p x = .ok z ∧
      z.shape = [n, c, (padded p).p2 + h + (padded p).p0, (padded p).p1 + w + (padded p).p3] ∧
      ∀ b q, b < n → q < c → ∀ i j, i < (padded p).p2 + h + (padded p).p0 → j < (padded p).p1 + w + (padded p).p3 →
        z.get [b, q, i, j] = if (padded p).p2 ≤ i ∧ i < (padded p).p2 + h ∧ (padded p).p1 ≤ j ∧ j < (padded p).p1 + w
          then x.get [b, q, i - (padded p).p2, j - (padded p).p1] else 0 := by
  cases p with
  | none =>
      refine ⟨x, rfl, by simpa [padded] using hx, ?_⟩
      intro b q _ _ i j hi hj
      simp only [padded, Option.getD_none, zero_add, add_zero] at hi hj ⊢
      rw [if_pos ⟨Nat.zero_le _, hi, Nat.zero_le _, hj⟩]
      rfl
  | some p =>
      obtain ⟨z, e, hs, hz⟩ := pad_back x n c h w p.p2 p.p0 p.p1 p.p3 hx
      refine ⟨z, ?_, hs, fun b q hb hq i j hi hj => hz b q i j hb hq hi hj⟩
      show orShape _ = _
      rw [e]
      rfl

/-- A convolution of the padded image in terms of the image. -/
theorem conv_padded (p : Option Pads) (x kk : Ten ℝ) (b : Option (Ten ℝ)) (n c h w o k s0 s1 : ℕ)
    (H : (⟨k, s0, s1, .valid, false⟩ : ConvCfg).Fits n c ((padded p).p2 + h + (padded p).p0) ((padded p).p1 + w + (padded p).p3) o)
    (hx : x.shape = [n, c, h, w]) (hk : kk.shape = [k, k, c, o]) :
    ∃ z y, padImage p x = .ok z ∧ convForward ⟨k, s0, s1, .valid, false⟩ z kk b = some y ∧
      y.shape = [n, o, outputs ((padded p).p2 + h + (padded p).p0) k s0 .valid, outputs ((padded p).p1 + w + (padded p).p3) k s1 .valid] ∧
      ∀ b' q i j, b' < n → q < o → i < outputs ((padded p).p2 + h + (padded p).p0) k s0 .valid →
        j < outputs ((padded p).p1 + w + (padded p).p3) k s1 .valid →
        y.get [b', q, i, j] = (∑ r ∈ Finset.range c, ∑ a ∈ Finset.range k, ∑ a' ∈ Finset.range k,
          extend h w (fun y x' => x.get [b', r, y, x']) ((i * s0 + a : ℤ) - (padded p).p2) ((j * s1 + a' : ℤ) - (padded p).p1) *
            kk.get [a, a', r, q]) + biasOf b q := by
  obtain ⟨z, e1, hs1, hz⟩ := padImage_some p x n c h w hx
  obtain ⟨y, e2, hs2, hy⟩ := conv_forward ⟨k, s0, s1, .valid, false⟩ z kk b n c _ _ o H hs1 hk
  refine ⟨z, y, e1, e2, hs2, ?_⟩
  intro b' q i j hb hq hi hj
  have := hy b' q i j hb hq hi hj
  rw [show (⟨k, s0, s1, .valid, false⟩ : ConvCfg).entry y b' q i j = y.get [b', q, i, j] from rfl] at this
  rw [this]
  refine congrArg₂ (· + ·) ?_ (by cases b <;> rfl)
  unfold correlation
  conv_rhs => rw [Finset.sum_comm]
  refine Finset.sum_congr rfl fun a _ => ?_
  conv_rhs => rw [Finset.sum_comm]
  refine Finset.sum_congr rfl fun a' _ => Finset.sum_congr rfl fun r hr => ?_
  rw [mul_comm]
  congr 1
  have := extend_pad h w (padded p).p2 (padded p).p0 (padded p).p1 (padded p).p3 (fun y x' => x.get [b', r, y, x'])
    (fun y x' => z.get [b', r, y, x']) (fun i j hi hj => hz b' r hb (Finset.mem_range.1 hr) i j hi hj)
    ((i * s0 + a : ℤ)) ((j * s1 + a' : ℤ))
  rw [← this]
  simp only [frontPad, sub_zero]
  rfl

/-- What the layer of a convolution without groups, or with one channel per group, computes. -/
theorem isConv_of {as : List Attr} {g s0 s1 n c h w o k ci : ℕ} {p : Option Pads} (H : ConvAttrs as g s0 s1 p) (hs0 : 0 < s0)
    (hs1 : 0 < s1) (hk0 : 0 < k) (hh : k ≤ (padded p).p0 + h + (padded p).p2) (hw : k ≤ (padded p).p1 + w + (padded p).p3)
    (x W : Ten ℝ) (b : Option (Ten ℝ)) (y : Ten ℝ) (hx : x.shape = [n, c, h, w]) (hW : W.shape = [o, ci, k, k]) (hg : g * ci = c)
    (hgo : g ∣ o) (hb : ∀ t, b = some t → t.shape = [o])
    (hy : y.shape = [n, o, outputs ((padded p).p0 + h + (padded p).p2) k s0 .valid, outputs ((padded p).p1 + w + (padded p).p3) k s1 .valid])
    (hv : ∀ b' q i j, b' < n → q < o → i < outputs ((padded p).p0 + h + (padded p).p2) k s0 .valid →
        j < outputs ((padded p).p1 + w + (padded p).p3) k s1 .valid →
        y.get [b', q, i, j] = (∑ r ∈ Finset.range ci, ∑ a ∈ Finset.range k, ∑ a' ∈ Finset.range k,
          extend h w (fun y x' => x.get [b', q / (o / g) * ci + r, y, x']) ((i * s0 + a : ℤ) - (padded p).p0)
            ((j * s1 + a' : ℤ) - (padded p).p1) * W.get [q, r, a, a']) + vecAt b q) : IsConv as x W b y := by
  have hga : (intAttr as "group" 1).toNat = g := by unfold intAttr; rw [H.group]; simp
  refine ⟨n, c, h, w, o, ci, k, k, hx, hW, by rw [hga]; exact hg, by rw [hga]; exact hgo, hb, ?_, ?_⟩
  · rw [H.outDim0 h k hs0 hk0 hh, H.outDim1 w k hs1 hk0 hw]; exact hy
  · rw [H.outDim0 h k hs0 hk0 hh, H.outDim1 w k hs1 hk0 hw, hga]
    intro b' q i j hb' hq hi hj
    rw [hv b' q i j hb' hq hi hj]
    simp only [(H.pixel0 _ _ _ _).1, (H.pixel0 _ _ _ _).2]

/-- The bias input of a convolution. -/
def biasInput (b : Option (Ten ℝ)) : List Inp := match b with | some t => [.real t] | none => []

theorem thirdInput_bias (s : List ℤ) (W : Ten ℝ) (b : Option (Ten ℝ)) : thirdInput (.shape s :: .real W :: biasInput b) = .ok b := by
  cases b <;> rfl

/-- The transposed kernel. -/
noncomputable def kernelOf (W : Ten ℝ) (k c o : ℕ) : Ten ℝ :=
  ⟨[k, k, c, o], fun idx => W.get [idx.getD 3 0, idx.getD 2 0, idx.getD 0 0, idx.getD 1 0]⟩

/-- Which layer the node builds. -/
theorem convNode_layer {as : List Attr} {g : ℤ} {s0 s1 c h w o ci k : ℕ} {p : Option Pads} (H : ConvAttrs as g s0 s1 p)
    (W : Ten ℝ) (b : Option (Ten ℝ)) (hW : W.shape = [o, ci, k, k]) :
    convNode as (.shape [-1, (c : ℤ), (h : ℤ), (w : ℤ)] :: .real W :: biasInput b) =
      if g = 1 then plainLayer ⟨k, s0, s1, .valid, false⟩ o
        (-1, c, (padded p).p0 + h + (padded p).p2, (padded p).p1 + w + (padded p).p3) (kernelOf W k ci o) b p
      else depthLayer ⟨k, s0, s1, .valid, false⟩ o
        (-1, c, (padded p).p0 + h + (padded p).p2, (padded p).p1 + w + (padded p).p3) (kernelOf W k ci o) b p := by
  obtain ⟨ps, ep, ed⟩ := padded_dims c h w p
  obtain ⟨st, est, hst⟩ := attrKey_ints H.unique H.strides
  obtain ⟨gr, egr, hgr⟩ := attrKey_int H.unique H.group
  unfold convNode
  show ((orShape (Tensor.transpose W [2, 3, 1, 0])).bind _) = _
  rw [transpose_2310 W o ci k k hW]
  show ((thirdInput (.shape [-1, (c : ℤ), (h : ℤ), (w : ℤ)] :: .real W :: biasInput b)).bind _) = _
  rw [thirdInput_bias]
  show ((attrKey as "strides").bind _) = _
  rw [est]
  show ((attrKey as "group").bind _) = _
  rw [egr]
  show ((Convert.padsOf as).bind _) = _
  rw [H.padsOf]
  show ((paddedDims [-1, (c : ℤ), (h : ℤ), (w : ℤ)] p).bind _) = _
  rw [ep]
  show ((pairOf st.ints).bind _) = _
  rw [hst, show pairOf [(s0 : ℤ), (s1 : ℤ)] = .ok (s0, s1) by simp [pairOf]]
  show (if k ≠ k then _ else ((imageDims ps).bind _)) = _
  rw [if_neg (by simp), ed, ← hgr]
  rfl

/-- **Conv without groups computes the ONNX convolution with the paddings of top and bottom exchanged.** For
every attribute list in which they are exchanged back, the result is that of ONNX. The declared shape is
right if the two strides are equal. -/
theorem conv_node_swapped {as as' : List Attr} {s0 s1 n c h w o k : ℕ} {p : Option Pads} (H : ConvAttrs as 1 s0 s1 p)
    (H' : ConvAttrs as' 1 s0 s1 (p.map Pads.swap)) (hs0 : 0 < s0) (hs1 : 0 < s1) (hk0 : 0 < k) (hn : 0 < n) (hc : 0 < c) (ho : 0 < o)
    (hh : k ≤ (padded p).p0 + h + (padded p).p2) (hw : k ≤ (padded p).p1 + w + (padded p).p3)
    (x W : Ten ℝ) (b : Option (Ten ℝ)) (hx : x.shape = [n, c, h, w]) (hW : W.shape = [o, c, k, k])
    (hb : ∀ t, b = some t → t.shape = [o]) :
    ∃ nd y d, convNode as (.shape [-1, (c : ℤ), (h : ℤ), (w : ℤ)] :: .real W :: biasInput b) = .ok nd ∧ nd.forward [x] = .ok [y] ∧
      IsConv as' x W b y ∧ nd.outShapes = [d] ∧ (s0 = s1 → Declares d y.shape) := by
  have hp0 : (padded (p.map Pads.swap)).p0 = (padded p).p2 := by cases p <;> rfl
  have hp1 : (padded (p.map Pads.swap)).p1 = (padded p).p1 := by cases p <;> rfl
  have hp2 : (padded (p.map Pads.swap)).p2 = (padded p).p0 := by cases p <;> rfl
  have hp3 : (padded (p.map Pads.swap)).p3 = (padded p).p3 := by cases p <;> rfl
  have hcomm : (padded p).p2 + h + (padded p).p0 = (padded p).p0 + h + (padded p).p2 := by omega
  have hF : (⟨k, s0, s1, .valid, false⟩ : ConvCfg).Fits n c ((padded p).p2 + h + (padded p).p0) ((padded p).p1 + w + (padded p).p3) o :=
    ⟨hk0, hs0, hs1, hn, hc, ho, by omega, by omega, .inr ⟨rfl, by show k ≤ _; omega, hw⟩⟩
  obtain ⟨kk, ek, hks, hkg⟩ := putWeight_same (kernelOf W k c o) [k, k, c, o] rfl
  obtain ⟨bb, eb, hbg⟩ := bias_expand b o hb
  obtain ⟨z, y, ez, ey, hys, hyg⟩ := conv_padded p x kk bb n c h w o k s0 s1 hF hx hks
  have hsh : ∃ d, declare (-1) (convShape ⟨k, s0, s1, .valid, false⟩ o
      [0, c, (padded p).p0 + h + (padded p).p2, (padded p).p1 + w + (padded p).p3]) = .ok [d] ∧ (s0 = s1 → Declares d y.shape) := by
    have o1 := outSize_eq ((padded p).p0 + h + (padded p).p2) k s0 hs0 hk0 .valid (by simp) (fun _ => hh)
    have o2 := outSize_eq ((padded p).p1 + w + (padded p).p3) k s0 hs0 hk0 .valid (by simp) (fun _ => hw)
    have : convShape ⟨k, s0, s1, .valid, false⟩ o [0, c, (padded p).p0 + h + (padded p).p2, (padded p).p1 + w + (padded p).p3] =
        some [0, o, outputs ((padded p).p0 + h + (padded p).p2) k s0 .valid, outputs ((padded p).p1 + w + (padded p).p3) k s0 .valid] := by
      simp [convShape, o1, o2]
    rw [this]
    refine ⟨_, rfl, ?_⟩
    intro e
    refine ⟨n, [o, outputs ((padded p).p0 + h + (padded p).p2) k s0 .valid, outputs ((padded p).p1 + w + (padded p).p3) k s0 .valid], ?_, rfl⟩
    rw [hys, hcomm, ← e]
  obtain ⟨d, ed', hd⟩ := hsh
  refine ⟨{ outShapes := [d]
            forward := fun xs => do
              let x ← argAt xs 0
              let x ← padImage p x
              let y ← orShape (convForward ⟨k, s0, s1, .valid, false⟩ x kk bb)
              .ok [y] }, y, d, ?_, ?_, ?_, rfl, hd⟩
  · rw [convNode_layer H W b hW, if_pos rfl]
    unfold plainLayer
    simp only []
    rw [ek, eb, ed']
    rfl
  · show ((padImage p x).bind _) = _
    rw [ez]
    show ((orShape (convForward ⟨k, s0, s1, .valid, false⟩ z kk bb)).bind _) = _
    rw [ey]
    rfl
  · refine isConv_of (g := 1) H' hs0 hs1 hk0 ?_ ?_ x W b y hx hW (by simp) (by simp) hb ?_ ?_
    · rw [hp0, hp2]; omega
    · rw [hp1, hp3]; exact hw
    · rw [hp0, hp1, hp2, hp3]; exact hys
    · rw [hp0, hp1, hp2, hp3]
      intro b' q i j hb' hq hi hj
      rw [hyg b' q i j hb' hq hi hj, hbg q hq]
      congr 1
      refine Finset.sum_congr rfl fun r hr => Finset.sum_congr rfl fun a ha => Finset.sum_congr rfl fun a' ha' => ?_
      rw [hkg [a, a', r, q] ⟨Finset.mem_range.1 ha, Finset.mem_range.1 ha', Finset.mem_range.1 hr, hq, trivial⟩, Nat.div_one,
        Nat.div_eq_of_lt hq, Nat.zero_mul, Nat.zero_add]
      rfl

/-- **Conv**, partial: as many rows are padded above as below. -/
theorem conv_node_partial {as : List Attr} {s0 s1 n c h w o k : ℕ} {p : Option Pads} (H : ConvAttrs as 1 s0 s1 p)
    (hp : (padded p).p0 = (padded p).p2) (hs0 : 0 < s0) (hs1 : 0 < s1) (hk0 : 0 < k) (hn : 0 < n) (hc : 0 < c) (ho : 0 < o)
    (hh : k ≤ (padded p).p0 + h + (padded p).p2) (hw : k ≤ (padded p).p1 + w + (padded p).p3)
    (x W : Ten ℝ) (b : Option (Ten ℝ)) (hx : x.shape = [n, c, h, w]) (hW : W.shape = [o, c, k, k])
    (hb : ∀ t, b = some t → t.shape = [o]) :
    ∃ nd y d, convNode as (.shape [-1, (c : ℤ), (h : ℤ), (w : ℤ)] :: .real W :: biasInput b) = .ok nd ∧ nd.forward [x] = .ok [y] ∧
      IsConv as x W b y ∧ nd.outShapes = [d] ∧ (s0 = s1 → Declares d y.shape) := by
  have : p.map Pads.swap = p := by
    cases p with
    | none => rfl
    | some p => cases p; simp only [padded, Option.getD_some] at hp; simp [Pads.swap, hp]
  exact conv_node_swapped H (by rw [this]; exact H) hs0 hs1 hk0 hn hc ho hh hw x W b hx hW hb

/-- **Conv with one channel per group** (a depthwise convolution, `m` filters per channel) computes the ONNX
convolution with top and bottom exchanged. -/
theorem depthwise_node_swapped {as as' : List Attr} {s0 s1 n c h w m k : ℕ} {p : Option Pads} (H : ConvAttrs as c s0 s1 p)
    (H' : ConvAttrs as' c s0 s1 (p.map Pads.swap)) (hs0 : 0 < s0) (hs1 : 0 < s1) (hk0 : 0 < k) (hn : 0 < n) (hc : 1 < c) (hm : 0 < m)
    (hh : k ≤ (padded p).p0 + h + (padded p).p2) (hw : k ≤ (padded p).p1 + w + (padded p).p3)
    (x W : Ten ℝ) (b : Option (Ten ℝ)) (hx : x.shape = [n, c, h, w]) (hW : W.shape = [c * m, 1, k, k])
    (hb : ∀ t, b = some t → t.shape = [c * m]) :
    ∃ nd y, convNode as (.shape [-1, (c : ℤ), (h : ℤ), (w : ℤ)] :: .real W :: biasInput b) = .ok nd ∧ nd.forward [x] = .ok [y] ∧
      IsConv as' x W b y ∧ nd.outShapes = [[-1, (m : ℤ), (outputs ((padded p).p0 + h + (padded p).p2) k s0 .valid : ℤ),
        (outputs ((padded p).p1 + w + (padded p).p3) k s0 .valid : ℤ)]] := by
  have hp0 : (padded (p.map Pads.swap)).p0 = (padded p).p2 := by cases p <;> rfl
  have hp1 : (padded (p.map Pads.swap)).p1 = (padded p).p1 := by cases p <;> rfl
  have hp2 : (padded (p.map Pads.swap)).p2 = (padded p).p0 := by cases p <;> rfl
  have hp3 : (padded (p.map Pads.swap)).p3 = (padded p).p3 := by cases p <;> rfl
  have hcm : c * m / c = m := Nat.mul_div_cancel_left m (by omega)
  have hF : (⟨k, s0, s1, .valid, false⟩ : ConvCfg).Fits n c ((padded p).p2 + h + (padded p).p0) ((padded p).p1 + w + (padded p).p3) (c * m) :=
    ⟨hk0, hs0, hs1, hn, by omega, Nat.mul_pos (by omega) hm, by omega, by omega, .inr ⟨rfl, by show k ≤ _; omega, hw⟩⟩
  obtain ⟨kk, ek, hks, hkg⟩ := rearrange_row ⟨k, s0, s1, .valid, false⟩ m c (kernelOf W k 1 (c * m)) hm rfl
  obtain ⟨bb, eb, hbg⟩ := bias_expand b (c * m) hb
  obtain ⟨z, y, ez, ey, hys, hyg⟩ := conv_padded p x kk bb n c h w (c * m) k s0 s1 hF hx hks
  have hsh : dwShape ⟨k, s0, s1, .valid, false⟩ m [0, c, (padded p).p0 + h + (padded p).p2, (padded p).p1 + w + (padded p).p3] =
      some [0, m, outputs ((padded p).p0 + h + (padded p).p2) k s0 .valid, outputs ((padded p).p1 + w + (padded p).p3) k s0 .valid] := by
    have o1 := outSize_eq ((padded p).p0 + h + (padded p).p2) k s0 hs0 hk0 .valid (by simp) (fun _ => hh)
    have o2 := outSize_eq ((padded p).p1 + w + (padded p).p3) k s0 hs0 hk0 .valid (by simp) (fun _ => hw)
    simp [dwShape, o1, o2]
  refine ⟨{ outShapes := [[-1, (m : ℤ), (outputs ((padded p).p0 + h + (padded p).p2) k s0 .valid : ℤ),
              (outputs ((padded p).p1 + w + (padded p).p3) k s0 .valid : ℤ)]]
            forward := fun xs => do
              let x ← argAt xs 0
              let x ← padImage p x
              let y ← orShape (dwForward ⟨k, s0, s1, .valid, false⟩ ⟨kk, bb⟩ x)
              .ok [y] }, y, ?_, ?_, ?_, rfl⟩
  · rw [convNode_layer H W b hW, if_neg (by omega)]
    unfold depthLayer
    simp only []
    rw [if_neg (by omega), hcm, ek, hsh]
    show ((orShape (assignTo (⟨[k, k, c, c * m], fun _ => 0⟩ : Ten ℝ) kk)).bind _) = _
    rw [show assignTo (⟨[k, k, c, c * m], fun _ => 0⟩ : Ten ℝ) kk = some kk by unfold assignTo; rw [if_pos hks.symm]]
    show ((putBias (b.map expandBias) [c * m, 1, 1]).bind _) = _
    rw [eb]
    rfl
  · show ((padImage p x).bind _) = _
    rw [ez]
    show ((orShape (convForward ⟨k, s0, s1, .valid, false⟩ z kk bb)).bind _) = _
    rw [ey]
    rfl
  · refine isConv_of (g := c) H' hs0 hs1 hk0 ?_ ?_ x W b y hx hW (by simp) (by simp) hb ?_ ?_
    · rw [hp0, hp2]; omega
    · rw [hp1, hp3]; exact hw
    · rw [hp0, hp1, hp2, hp3]; exact hys
    · rw [hp0, hp1, hp2, hp3]
      intro b' q i j hb' hq hi hj
      rw [hyg b' q i j hb' hq hi hj, hbg q hq]
      congr 1
      have hqm : q / m < c := Nat.div_lt_of_lt_mul (by rw [Nat.mul_comm]; exact hq)
      rw [Finset.sum_eq_single (q / m), Finset.sum_range_one]
      · refine Finset.sum_congr rfl fun a ha => Finset.sum_congr rfl fun a' ha' => ?_
        rw [hkg a a' (q / m) q (Finset.mem_range.1 ha) (Finset.mem_range.1 ha') hqm hq, if_pos rfl, hcm, Nat.mul_one, Nat.add_zero]
        rfl
      · intro r hr hne
        refine Finset.sum_eq_zero fun a ha => Finset.sum_eq_zero fun a' ha' => ?_
        rw [hkg a a' r q (Finset.mem_range.1 ha) (Finset.mem_range.1 ha') (Finset.mem_range.1 hr) hq, if_neg (fun e => hne e.symm), mul_zero]
      · intro h
        exact absurd (Finset.mem_range.2 hqm) h

/-- **Depthwise Conv**, partial: as many rows are padded above as below. -/
theorem depthwise_node_partial {as : List Attr} {s0 s1 n c h w m k : ℕ} {p : Option Pads} (H : ConvAttrs as c s0 s1 p)
    (hp : (padded p).p0 = (padded p).p2) (hs0 : 0 < s0) (hs1 : 0 < s1) (hk0 : 0 < k) (hn : 0 < n) (hc : 1 < c) (hm : 0 < m)
    (hh : k ≤ (padded p).p0 + h + (padded p).p2) (hw : k ≤ (padded p).p1 + w + (padded p).p3)
    (x W : Ten ℝ) (b : Option (Ten ℝ)) (hx : x.shape = [n, c, h, w]) (hW : W.shape = [c * m, 1, k, k])
    (hb : ∀ t, b = some t → t.shape = [c * m]) :
    ∃ nd y, convNode as (.shape [-1, (c : ℤ), (h : ℤ), (w : ℤ)] :: .real W :: biasInput b) = .ok nd ∧ nd.forward [x] = .ok [y] ∧
      IsConv as x W b y := by
  have : p.map Pads.swap = p := by
    cases p with
    | none => rfl
    | some p => cases p; simp only [padded, Option.getD_some] at hp; simp [Pads.swap, hp]
  obtain ⟨nd, y, e1, e2, e3, _⟩ := depthwise_node_swapped H (by rw [this]; exact H) hs0 hs1 hk0 hn hc hm hh hw x W b hx hW hb
  exact ⟨nd, y, e1, e2, e3⟩

/-- **The shape that a depthwise Conv declares is wrong**: it names the filters per channel instead of all
filters, whatever the image and the kernel. -/
theorem depthwise_declared_false {as : List Attr} {s0 s1 n c h w m k : ℕ} {p : Option Pads} (H : ConvAttrs as c s0 s1 p)
    (hp : (padded p).p0 = (padded p).p2) (hs0 : 0 < s0) (hs1 : 0 < s1) (hk0 : 0 < k) (hn : 0 < n) (hc : 1 < c) (hm : 0 < m)
    (hh : k ≤ (padded p).p0 + h + (padded p).p2) (hw : k ≤ (padded p).p1 + w + (padded p).p3)
    (x W : Ten ℝ) (b : Option (Ten ℝ)) (hx : x.shape = [n, c, h, w]) (hW : W.shape = [c * m, 1, k, k])
    (hb : ∀ t, b = some t → t.shape = [c * m]) :
    ∃ nd y d, convNode as (.shape [-1, (c : ℤ), (h : ℤ), (w : ℤ)] :: .real W :: biasInput b) = .ok nd ∧ nd.forward [x] = .ok [y] ∧
      nd.outShapes = [d] ∧ ¬ Declares d y.shape := by
  have : p.map Pads.swap = p := by
    cases p with
    | none => rfl
    | some p => cases p; simp only [padded, Option.getD_some] at hp; simp [Pads.swap, hp]
  obtain ⟨nd, y, e1, e2, ⟨n', c', h', w', o', ci', kh', kw', _, hW', _, _, _, hy, _⟩, e4⟩ :=
    depthwise_node_swapped H (by rw [this]; exact H) hs0 hs1 hk0 hn hc hm hh hw x W b hx hW hb
  refine ⟨nd, y, _, e1, e2, e4, ?_⟩
  rintro ⟨b', r, hr, hd⟩
  rw [hy] at hr
  rw [hW] at hW'
  injection hW' with ho _
  injection hr with _ hr
  rw [← hr, ← ho] at hd
  simp only [List.map_cons, List.cons.injEq, Nat.cast_inj] at hd
  have := hd.2.1
  nlinarith

/-- **Other groups cannot be converted**: with more than one group and more than one channel per group the
node raises. -/
theorem conv_group_false {as : List Attr} {g s0 s1 c h w o ci k : ℕ} {p : Option Pads} (H : ConvAttrs as g s0 s1 p) (hg : 1 < g)
    (hci : 1 < ci) (hc : g * ci = c) (hk : 0 < k) (W : Ten ℝ) (b : Option (Ten ℝ)) (hW : W.shape = [o, ci, k, k]) :
    convNode as (.shape [-1, (c : ℤ), (h : ℤ), (w : ℤ)] :: .real W :: biasInput b) = .error .shape := by
  have hc2 : ci < c := by nlinarith
  rw [convNode_layer H W b hW, if_neg (by omega)]
  unfold depthLayer
  simp only []
  rw [if_neg (by omega)]
  have hre : rearrange ⟨k, s0, s1, .valid, false⟩ (o / c) c (kernelOf W k ci o) = none := by
    have hb : ∀ kk : Ten ℝ, (kk.shape = [k, k, ci, o]) → bcastMul kk (dwMask ⟨k, s0, s1, .valid, false⟩ (o / c) c) = none := by
      intro kk hkk
      unfold bcastMul
      have : bcastDim ci c = none := by
        unfold bcastDim; rw [if_neg (by omega), if_neg (by omega), if_neg (by omega)]
      rw [hkk, show bcastShape [k, k, ci, o] (dwMask ⟨k, s0, s1, .valid, false⟩ (o / c) c : Ten ℝ).shape = none by
        simp [bcastShape, dwMask, bcastDim_self, this]]
      rfl
    by_cases h1 : o / c > 1
    · unfold rearrange
      rw [if_pos h1]
      have : Tensor.reshape (kernelOf W k ci o) [k, k, 1, c * (o / c)] = none := by
        unfold Tensor.reshape
        rw [if_neg]
        show ¬ [k, k, 1, c * (o / c)].prod = [k, k, ci, o].prod
        simp only [List.prod_cons, List.prod_nil, mul_one, one_mul]
        intro e
        have ho : 0 < o := by
          rcases Nat.eq_zero_or_pos o with h | h
          · simp [h] at h1
          · exact h
        have h2 : c * (o / c) ≤ o := Nat.mul_div_le o c
        have h3 := Nat.eq_of_mul_eq_mul_left hk (Nat.eq_of_mul_eq_mul_left hk e)
        nlinarith
      show (Tensor.reshape (kernelOf W k ci o) [k, k, 1, c * (o / c)]).bind _ = _
      rw [this]
      rfl
    · unfold rearrange
      rw [if_neg h1]
      exact hb _ rfl
  rw [hre]
  rfl

end Verif.Convert
