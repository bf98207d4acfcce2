import Verif.Convert.LayerGradAct
import Verif.Convert.NodesGlobal

/-!
# C79: the gradient of GlobalMaxPool and ReduceMax
-/

namespace Verif.Convert

open Verif.Tensor Verif.Keras Verif.Convert.Onnx

section
variable {n c h w : ℕ}

/-- The pixels of an image in one row. -/
theorem row_get (x : Ten ℝ) (hx : x.shape = [n, c, h, w]) (hw : 0 < w) : ∃ y, Tensor.reshape x [n, c, h * w] = some y ∧ y.shape = [n, c, h * w] ∧
    ∀ b k q, b < n → k < c → q < h * w → y.get [b, k, q] = x.get [b, k, q / w, q % w] := by
  refine ⟨_, reshape_some x _ (by rw [hx]; simp), rfl, fun b k q hb hk hq => ?_⟩
  have hi : InShape [n, c, h, w] [b, k, q / w, q % w] := ⟨hb, hk, Nat.div_lt_of_lt_mul (by rw [Nat.mul_comm]; exact hq), Nat.mod_lt _ hw, trivial⟩
  show x.get (unflat x.shape (flat [n, c, h * w] [b, k, q])) = _
  rw [hx, show flat [n, c, h * w] [b, k, q] = flat [n, c, h, w] [b, k, q / w, q % w] by
    simp [flat, Nat.div_add_mod'], unflat_flat _ _ hi]

/-- And back. -/
theorem image_get (g : Ten ℝ) (hg : g.shape = [n, c, h * w]) : ∃ z, Tensor.reshape g [n, c, h, w] = some z ∧ z.shape = [n, c, h, w] ∧
    ∀ b k u v, b < n → k < c → u < h → v < w → z.get [b, k, u, v] = g.get [b, k, u * w + v] := by
  refine ⟨_, reshape_some g _ (by rw [hg]; simp), rfl, fun b k u v hb hk hu hv => ?_⟩
  have hi : InShape [n, c, h * w] [b, k, u * w + v] := ⟨hb, hk, lt_block hu hv, trivial⟩
  show g.get (unflat g.shape (flat [n, c, h, w] [b, k, u, v])) = _
  rw [hg, show flat [n, c, h, w] [b, k, u, v] = flat [n, c, h * w] [b, k, u * w + v] by simp [flat], unflat_flat _ _ hi]

/-- No channel of an image has two largest pixels. -/
def OnePixel (e : Numbered sX (Fin n × Fin c × Fin h × Fin w)) (X : Ten ℝ) : Prop :=
  ∀ b k, ∀ p p' : Fin h × Fin w, (∀ r, e.read X (b, k, r) ≤ e.read X (b, k, p)) → (∀ r, e.read X (b, k, r) ≤ e.read X (b, k, p')) → p = p'

variable {sX : List ℕ} (e : Numbered sX (Fin n × Fin c × Fin h × Fin w)) (last : Bool)
  (hfirst : ∀ Z : Ten ℝ, Z.shape = sX → ∃ x, (if last then Tensor.transpose Z [0, 3, 1, 2] else some Z) = some x ∧ x.shape = [n, c, h, w] ∧
    ∀ i : Fin n × Fin c × Fin h × Fin w, x.get [i.1, i.2.1, i.2.2.1, i.2.2.2] = e.read Z i)
include hfirst

theorem row_pixels (hw : 0 < w) (Z : Ten ℝ) (hZ : Z.shape = sX) : ∃ x y, (if last then Tensor.transpose Z [0, 3, 1, 2] else some Z) = some x ∧
    x.shape = [n, c, h, w] ∧ Tensor.reshape x [n, c, h * w] = some y ∧ y.shape = [n, c, h * w] ∧
    ∀ (b : Fin n) (k : Fin c) q, q < h * w → y.get [(b : ℕ), (k : ℕ), q] = pixels (e.read Z) b k q := by
  obtain ⟨x, e1, e2, e3⟩ := hfirst Z hZ
  obtain ⟨y, f1, f2, f3⟩ := row_get x e2 hw
  refine ⟨x, y, e1, e2, f1, f2, fun b k q hq => ?_⟩
  have h1 : q / w < h := Nat.div_lt_of_lt_mul (by rw [Nat.mul_comm]; exact hq)
  rw [f3 b k q b.2 k.2 hq]
  unfold pixels
  rw [show at4 (e.read Z) b k (q / w) (q % w) = e.read Z (b, k, ⟨q / w, h1⟩, ⟨q % w, Nat.mod_lt _ hw⟩) from
    at4_fin (e.read Z) b k ⟨q / w, h1⟩ ⟨q % w, Nat.mod_lt _ hw⟩]
  exact e3 (b, k, ⟨q / w, h1⟩, ⟨q % w, Nat.mod_lt _ hw⟩)

theorem globalMax_tensor (hh : 0 < h) (hw : 0 < w) (Z : Ten ℝ) (hZ : Z.shape = sX) : ∃ Y, globalMaxCall last Z = some Y ∧ Y.shape = [n, c] ∧
    ∀ j, Y.get ((num2 n c).at_ j) = (globalMax n c h w).call (fun i : Empty => i.elim) (e.read Z) j := by
  have hp := Nat.mul_pos hh hw
  obtain ⟨x, y, e1, e2, e3, e4, e5⟩ := row_pixels e last hfirst hw Z hZ
  refine ⟨⟨[n, c], fun idx => maxUpTo (fun q => y.get (idx ++ [q])) (h * w - 1)⟩, ?_, rfl, fun j => ?_⟩
  · have key : globalMaxCall last Z = globalMaxCall false x := by
      cases last with
      | false => cases (Option.some.inj e1); rfl
      | true =>
          show (Tensor.transpose Z [0, 3, 1, 2]).bind _ = _
          rw [show Tensor.transpose Z [0, 3, 1, 2] = some x from e1]
          rfl
    rw [key]
    unfold globalMaxCall
    simp [e2, e3, hh.ne', hw.ne']
  · exact maxUpTo_congr _ _ _ fun q hq => e5 j.1 j.2 q (by omega)

variable (hlast : ∀ z : Ten ℝ, z.shape = [n, c, h, w] → ∃ g, (if last then Tensor.transpose z [0, 2, 3, 1] else some z) = some g ∧ g.shape = sX ∧
    ∀ i, g.get (e.at_ i) = z.get [i.1, i.2.1, i.2.2.1, i.2.2.2])
include hlast

theorem globalMax_back (hh : 0 < h) (hw : 0 < w) (X dY : Ten ℝ) (hX : X.shape = sX) (hd : dY.shape = [n, c]) :
    ∃ dX, globalMaxBackward last X dY = some dX ∧ dX.shape = sX ∧
      (globalMax n c h w).backward false (fun i : Empty => i.elim) (e.read X) ((num2 n c).read dY) = .ok (fun i : Empty => i.elim, e.read dX) := by
  have hp := Nat.mul_pos hh hw
  obtain ⟨x, y, e1, e2, e3, e4, e5⟩ := row_pixels e last hfirst hw X hX
  have ht : (expand2 dY).bind (fun d => tile d [1, 1, h * w]) =
      some ⟨[n, c, h * w], fun i => dY.get ((List.zipWith (fun q d => q % d) i [n, c, 1]).eraseIdx 2)⟩ := by
    unfold expand2 tile
    simp [hd]
  obtain ⟨G, g1, g2, g3⟩ : ∃ G, bcastOp (fun a b => a * b) (⟨[n, c, h * w], fun i => dY.get ((List.zipWith (fun q d => q % d) i [n, c, 1]).eraseIdx 2)⟩ : Ten ℝ)
      (largestAt y (h * w)) = .ok G ∧ G.shape = [n, c, h * w] ∧ ∀ b k q, b < n → k < c → q < h * w →
        G.get [b, k, q] = dY.get [b, k] * if q = lastArg (fun q => y.get [b, k, q]) (h * w - 1) then 1 else 0 := by
    obtain ⟨G, g1, g2, _, g3⟩ := bcastOp_pointwise (fun a b => a * b) (⟨[n, c, h * w], fun i => dY.get ((List.zipWith (fun q d => q % d) i [n, c, 1]).eraseIdx 2)⟩ : Ten ℝ)
      (largestAt y (h * w)) [n, c, h * w] (by show Broadcast _ y.shape _; rw [e4]; exact broadcast_self _)
    refine ⟨G, g1, g2, fun b k q hb hk hq => ?_⟩
    have hi : InShape [n, c, h * w] [b, k, q] := ⟨hb, hk, hq, trivial⟩
    rw [g3 [b, k, q] (by rw [g2]; exact hi)]
    rw [show (largestAt y (h * w)).shape = [n, c, h * w] from e4, under_self hi]
    simp [largestAt, Nat.mod_eq_of_lt hb, Nat.mod_eq_of_lt hk]
  obtain ⟨z, z1, z2, z3⟩ := image_get (n := n) (c := c) (h := h) (w := w) G g2
  obtain ⟨g, k1, k2, k3⟩ := hlast z z2
  refine ⟨g, ?_, k2, ?_⟩
  · unfold globalMaxBackward
    rw [e1]
    show globalMaxRest last dY x = _
    unfold globalMaxRest
    rw [e2]
    dsimp only
    rw [if_neg (by omega), e3]
    show ((expand2 dY).bind fun d => (tile d [1, 1, h * w]).bind _) = _
    rw [← Option.bind_assoc, ht]
    show ((bcastOp _ _ (largestAt y (h * w))).toOption.bind _) = _
    rw [g1]
    show ((Tensor.reshape G [n, c, h, w]).bind _) = _
    rw [z1]
    exact k1
  · refine congrArg Except.ok (Prod.ext rfl (funext fun i => ?_))
    show _ = g.get (e.at_ i)
    rw [k3, z3 _ _ _ _ i.1.2 i.2.1.2 i.2.2.1.2 i.2.2.2.2, g3 _ _ _ i.1.2 i.2.1.2 (lt_block i.2.2.1.2 i.2.2.2.2)]
    rw [lastArg_congr (fun q => y.get [(i.1 : ℕ), (i.2.1 : ℕ), q]) (pixels (e.read X) i.1 i.2.1) _ fun q hq => e5 i.1 i.2.1 q (by omega)]
    rfl

theorem globalMax_core (hh : 0 < h) (hw : 0 < w) (X dY : Ten ℝ) (hX : X.shape = sX) (hd : dY.shape = [n, c]) (hone : OnePixel e X)
    (f : List (Ten ℝ) → Except NErr (List (Ten ℝ))) (hf : ∀ x, f [x] = (orShape (globalMaxCall last x)).map fun y => [y]) :
    ∃ dX, globalMaxBackward last X dY = some dX ∧ IsGradientOf f [X] [dY] [dX] := by
  obtain ⟨dX, e1, e2, e3⟩ := globalMax_back e last hfirst hlast hh hw X dY hX hd
  refine ⟨dX, e1, gradient_plain e (num2 n c) f (globalMax n c h w).call X dY dX hX hd e2 (fun Z hZ => ?_) ?_⟩
  · obtain ⟨Y, g1, g2, g3⟩ := globalMax_tensor e last hfirst hh hw Z hZ
    exact ⟨Y, by rw [hf, g1]; rfl, g2, g3⟩
  · exact globalMax_exact n c h w hh hw _ _ hone _ _ _ e3

end

/-- The pixel (u, v) of channel k of image b. -/
def pixel (last : Bool) (X : Ten ℝ) (b k u v : ℕ) : ℝ := X.get (if last then [b, u, v, k] else [b, k, u, v])

/-- No channel of any image has two largest pixels. -/
def OneLargestPixel (last : Bool) (n c h w : ℕ) (X : Ten ℝ) : Prop :=
  ∀ b k u v u' v', b < n → k < c → u < h → v < w → u' < h → v' < w →
    (∀ r s, r < h → s < w → pixel last X b k r s ≤ pixel last X b k u v) →
    (∀ r s, r < h → s < w → pixel last X b k r s ≤ pixel last X b k u' v') → u = u' ∧ v = v'

theorem globalMax_gradient (last : Bool) (n c h w : ℕ) (hh : 0 < h) (hw : 0 < w) (X dY : Ten ℝ)
    (hX : X.shape = if last then [n, h, w, c] else [n, c, h, w]) (hd : dY.shape = [n, c]) (hone : OneLargestPixel last n c h w X)
    (f : List (Ten ℝ) → Except NErr (List (Ten ℝ))) (hf : ∀ x, f [x] = (orShape (globalMaxCall last x)).map fun y => [y]) :
    ∃ dX, globalMaxBackward last X dY = some dX ∧ IsGradientOf f [X] [dY] [dX] := by
  cases last with
  | true =>
      refine globalMax_core (num4' n c h w) true (fun Z hZ => ⟨_, transpose_0312 Z n h w c hZ, rfl, fun i => rfl⟩)
        (fun z hz => ⟨_, transpose_0231 z n c h w hz, rfl, fun i => rfl⟩) hh hw X dY hX hd (fun b k p p' hp hp' => ?_) f hf
      have := hone b k p.1 p.2 p'.1 p'.2 b.2 k.2 p.1.2 p.2.2 p'.1.2 p'.2.2 (fun r s hr hs => hp (⟨r, hr⟩, ⟨s, hs⟩)) (fun r s hr hs => hp' (⟨r, hr⟩, ⟨s, hs⟩))
      exact Prod.ext (Fin.ext this.1) (Fin.ext this.2)
  | false =>
      refine globalMax_core (num4 n c h w) false (fun Z hZ => ⟨Z, rfl, hZ, fun i => rfl⟩)
        (fun z hz => ⟨z, rfl, hz, fun i => rfl⟩) hh hw X dY hX hd (fun b k p p' hp hp' => ?_) f hf
      have := hone b k p.1 p.2 p'.1 p'.2 b.2 k.2 p.1.2 p.2.2 p'.1.2 p'.2.2 (fun r s hr hs => hp (⟨r, hr⟩, ⟨s, hs⟩)) (fun r s hr hs => hp' (⟨r, hr⟩, ⟨s, hs⟩))
      exact Prod.ext (Fin.ext this.1) (Fin.ext this.2)

/-- **C79 (GlobalMaxPool, ReduceMax).** The two axes are dropped from the result whatever `keepdims` says, and the gradient
of the result has the shape of the result. -/
theorem global_max_gradient {as : List Attr} (last keep : Bool) {n c h w : ℕ} (hg : globalArgs as false = (last, keep))
    (hh : 0 < h) (hw : 0 < w) (X dY : Ten ℝ) (hX : X.shape = if last then [n, h, w, c] else [n, c, h, w]) (hd : dY.shape = [n, c])
    (hone : OneLargestPixel last n c h w X) :
    ∃ nd dX, globalMaxNode as [.shape (if last then [-1, (h : ℤ), (w : ℤ), (c : ℤ)] else [-1, (c : ℤ), (h : ℤ), (w : ℤ)])] = .ok nd ∧
      globalMaxBack last X [dY] = .ok ([], [dX]) ∧ IsGradientOf nd.forward [X] [dY] [dX] := by
  have hnd : ∃ nd, globalMaxNode as [.shape (if last then [-1, (h : ℤ), (w : ℤ), (c : ℤ)] else [-1, (c : ℤ), (h : ℤ), (w : ℤ)])] = .ok nd ∧
      ∀ x, nd.forward [x] = (orShape (globalMaxCall last x)).map fun y => [y] := by
    have key : ∀ out x, (Built.mk [out] fun xs => do
        let x ← argAt xs 0
        let y ← orShape (globalMaxCall last x)
        Except.ok [y]).forward [x] = (orShape (globalMaxCall last x)).map fun y => [y] := by
      intro out x
      show ((orShape (globalMaxCall last x)).bind _) = _
      cases orShape (globalMaxCall last x) <;> rfl
    unfold globalMaxNode
    rw [hg]
    cases last with
    | true => exact ⟨_, by cases keep <;> rfl, key (if keep then [-1, 1, 1, (c : ℤ)] else [-1, (c : ℤ)])⟩
    | false => exact ⟨_, by cases keep <;> rfl, key (if keep then [-1, (c : ℤ), 1, 1] else [-1, (c : ℤ)])⟩
  obtain ⟨nd, e1, e2⟩ := hnd
  obtain ⟨dX, e3, e4⟩ := globalMax_gradient last n c h w hh hw X dY hX hd hone nd.forward e2
  refine ⟨nd, dX, e1, ?_, e4⟩
  show ((orShape _).bind _) = _
  rw [e3]; rfl

/-- **C79 (GlobalMaxPool)** does not hold for the shape that the node declares when the dimensions are kept, as in ONNX:
`backward` raises for a gradient of this shape. -/
theorem global_max_kept_false (last : Bool) (X dY : Ten ℝ) {a b c d : ℕ} (hd : dY.shape = [a, b, c, d]) :
    globalMaxBack last X [dY] = .error .shape := by
  have hr : ∀ x, globalMaxRest last dY x = none := by
    intro x
    unfold globalMaxRest
    split
    · next n' c' h' w' _ =>
      by_cases hz : h' * w' = 0
      · rw [if_pos hz]
      · rw [if_neg hz]
        cases Tensor.reshape x _ with
        | none => rfl
        | some y =>
            show ((expand2 dY).bind fun d => (tile d _).bind _) = _
            rw [← Option.bind_assoc, show (expand2 dY).bind (fun d => tile d _) = none by unfold expand2 tile; simp [hd]]
            rfl
    · rfl
  have : globalMaxBackward last X dY = none := by
    unfold globalMaxBackward
    cases (if last then Tensor.transpose X [0, 3, 1, 2] else some X) with
    | none => rfl
    | some x => exact hr x
  show ((orShape _).bind _) = _
  rw [this]; rfl

/-- **C79 (Conv with groups)** does not hold: there is no backward pass, for any input and any gradient. -/
theorem grouped_gradient_false (X dY : Ten ℝ) (ds : List (Ten ℝ)) : depthNodeBack X (dY :: ds) = .error .notImplemented := rfl

/-- Two images with two channels of 2 × 3 pixels that grow. -/
example : ∃ nd dX, globalMaxNode [] [.shape [-1, 2, 2, 3]] = .ok nd ∧
    globalMaxBack false ⟨[2, 2, 2, 3], fun i => ((i.getD 2 0 * 3 + i.getD 3 0 : ℕ) : ℝ)⟩ [⟨[2, 2], fun i => i.sum⟩] = .ok ([], [dX]) ∧
    IsGradientOf nd.forward [⟨[2, 2, 2, 3], fun i => ((i.getD 2 0 * 3 + i.getD 3 0 : ℕ) : ℝ)⟩] [⟨[2, 2], fun i => i.sum⟩] [dX] :=
  global_max_gradient (n := 2) (c := 2) (h := 2) (w := 3) false false rfl (by decide) (by decide) _ _ rfl rfl
    fun b k u v u' v' _ _ hu hv hu' hv' h1 h2 => by
      have a := h1 u' v' hu' hv'
      have b := h2 u v hu hv
      simp only [pixel, Bool.false_eq_true, if_false] at a b
      have a' := Nat.cast_le.1 a
      have b' := Nat.cast_le.1 b
      simp at a' b'
      omega

example : globalMaxBack true ⟨[1, 2, 2, 3], fun i => i.sum⟩ [⟨[1, 1, 1, 3], fun _ => 1⟩] = .error .shape :=
  global_max_kept_false true _ _ rfl

end Verif.Convert
