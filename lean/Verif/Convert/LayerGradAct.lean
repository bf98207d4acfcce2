import Verif.Convert.LayerGradLemmas
import Verif.Convert.NodesGlobal
import Verif.Convert.NodeGradParts

/-!
# C79: gradients of the nodes for activations and global averages
-/

namespace Verif.Convert

open Verif.Tensor Verif.Keras Verif.Convert.Onnx
open Verif.Aby3 (logistic)

/-! ## Activations -/

theorem bcast_same (g : ℝ → ℝ → ℝ) (X D : Ten ℝ) (h : D.shape = X.shape) :
    ∃ Y, orShape (bcastOp g X D).toOption = .ok Y ∧ Y.shape = X.shape ∧ ∀ i, InShape X.shape i → Y.get i = g (X.get i) (D.get i) := by
  obtain ⟨Y, e, hs, _, hY⟩ := bcastOp_pointwise g X D X.shape (by rw [h]; exact broadcast_self X.shape)
  refine ⟨Y, by rw [e]; rfl, hs, fun i hi => ?_⟩
  rw [hY i (by rw [hs]; exact hi), h, under_self hi]

/-- A node that applies a function to every entry. -/
theorem map_gradient (f : ℝ → ℝ) (f' : List ℕ → ℝ) (s : List ℤ) (X dY dX : Ten ℝ) (hd : dY.shape = X.shape) (hs : dX.shape = X.shape)
    (hf : ∀ i, InShape X.shape i → HasDerivAt f (f' i) (X.get i)) (hg : ∀ i, InShape X.shape i → dX.get i = dY.get i * f' i) :
    ∃ nd, mapNode f [.shape s] = .ok nd ∧ IsGradientOf nd.forward [X] [dY] [dX] := by
  refine ⟨_, rfl, ?_⟩
  refine gradient_plain (numAll X.shape) (numAll X.shape) _ (fun _ x j => f (x j)) X dY dX rfl hd hs
    (fun Z hZ => ⟨⟨Z.shape, fun i => f (Z.get i)⟩, rfl, hZ, fun _ => rfl⟩) ?_
  intro γ v χ u t _ _ h3 h4
  refine ⟨fun j => f' j.1 * u j, fun j => ?_, ?_⟩
  · have hx : χ t j = X.get j.1 := by rw [h3]; rfl
    refine HasDerivAt.comp t ?_ (h4 j)
    rw [hx]
    exact hf _ (mem_indices.1 j.2)
  · rw [show (∑ i : Empty, (i.elim : ℝ) * v i) = 0 from Finset.sum_eq_zero fun i _ => i.elim, zero_add]
    refine Finset.sum_congr rfl fun j _ => ?_
    show dY.get j.1 * (f' j.1 * u j) = dX.get j.1 * u j
    rw [hg _ (mem_indices.1 j.2)]
    ring

/-- **C79 (Relu).** For inputs without an entry 0, where the function has no derivative. -/
theorem relu_gradient (s : List ℤ) (X dY : Ten ℝ) (hd : dY.shape = X.shape) (h0 : ∀ i, InShape X.shape i → X.get i ≠ 0) :
    ∃ nd dX, mapNode (fun x => max x 0) [.shape s] = .ok nd ∧ reluBack X [dY] = .ok ([], [dX]) ∧
      IsGradientOf nd.forward [X] [dY] [dX] := by
  obtain ⟨dX, e, hs, hg⟩ := bcast_same (fun x d => if x > 0 then d else 0) X dY hd
  obtain ⟨nd, e1, e2⟩ := map_gradient (fun x => max x 0) (fun i => if X.get i ≤ 0 then 0 else 1) s X dY dX hd hs
    (fun i hi => relu_moves (γ := fun x => x) (hasDerivAt_id _) (h0 i hi)) (fun i hi => by
      rw [hg i hi]
      by_cases h : X.get i > 0
      · rw [if_pos h, if_neg (not_le.2 h), mul_one]
      · rw [if_neg h, if_pos (not_lt.1 h), mul_zero])
  refine ⟨nd, dX, e1, ?_, e2⟩
  show ((orShape _).bind _) = _
  rw [e]; rfl

/-- **C79 (Sigmoid).** -/
theorem sigmoid_gradient (s : List ℤ) (X dY : Ten ℝ) (hd : dY.shape = X.shape) :
    ∃ nd dX, sigmoidNode [.shape s] = .ok nd ∧ sigmoidBack X [dY] = .ok ([], [dX]) ∧ IsGradientOf nd.forward [X] [dY] [dX] := by
  obtain ⟨dX, e, hs, hg⟩ := bcast_same (fun x d => d * logistic x * (-logistic x + 1)) X dY hd
  obtain ⟨nd, e1, e2⟩ := map_gradient logistic (fun i => logistic (X.get i) * (1 - logistic (X.get i))) s X dY dX hd hs
    (fun i _ => logistic_hasDerivAt _) (fun i hi => by rw [hg i hi]; ring)
  refine ⟨nd, dX, e1, ?_, e2⟩
  show ((orShape _).bind _) = _
  rw [e]; rfl

/-- **C79 (Softmax and BatchNormalization)** do not hold: there is no backward pass, for any input. -/
theorem softmax_norm_gradient_false (X : Ten ℝ) (dys : List (Ten ℝ)) :
    softmaxBack X dys = .error .notImplemented ∧ normNodeBack X dys = .error .notImplemented := ⟨rfl, rfl⟩

/-! ## Global averages -/

/-- Indices of one entry per image and channel. -/
def num211 (n c : ℕ) : Numbered [n, c, 1, 1] (Fin n × Fin c) where
  at_ i := [i.1, i.2, 0, 0]
  inShape i := ⟨i.1.2, i.2.2, by decide, by decide, trivial⟩
  inj i j h := by
    simp only [List.cons.injEq, and_true] at h
    exact Prod.ext (Fin.ext h.1) (Fin.ext h.2)
  surj l h := by
    match l, h with
    | [a, b, c, d], h =>
      have h1 : c = 0 := by have := h.2.2.1; omega
      have h2 : d = 0 := by have := h.2.2.2.1; omega
      subst h1 h2
      exact ⟨(⟨a, h.1⟩, ⟨b, h.2.1⟩), rfl⟩

/-- Indices of a batch of images with the channels last. -/
def num4' (n c h w : ℕ) : Numbered [n, h, w, c] (Fin n × Fin c × Fin h × Fin w) where
  at_ i := [i.1, i.2.2.1, i.2.2.2, i.2.1]
  inShape i := ⟨i.1.2, i.2.2.1.2, i.2.2.2.2, i.2.1.2, trivial⟩
  inj i j h := by
    simp only [List.cons.injEq, and_true] at h
    exact Prod.ext (Fin.ext h.1) (Prod.ext (Fin.ext h.2.2.2) (Prod.ext (Fin.ext h.2.1) (Fin.ext h.2.2.1)))
  surj l h := by
    match l, h with
    | [a, b, c, d], h => exact ⟨(⟨a, h.1⟩, ⟨d, h.2.2.2.1⟩, ⟨b, h.2.1⟩, ⟨c, h.2.2.1⟩), rfl⟩

/-- The gradient of an average. -/
theorem average_exact {n c h w : ℕ} (k : ℝ) (x : Fin n × Fin c × Fin h × Fin w → ℝ) (d : Fin n × Fin c → ℝ) (w0 : Empty → ℝ) (g0 : Empty → ℝ) :
    ExactAt (fun _ (x : Fin n × Fin c × Fin h × Fin w → ℝ) j => (∑ u, ∑ v, x (j.1, j.2, u, v)) * k) w0 x d g0
      (fun i => d (i.1, i.2.1) * k) := by
  intro γ v χ u t _ _ h3 h4
  refine ⟨fun j => (∑ a, ∑ b, u (j.1, j.2, a, b)) * k, fun j => ?_, ?_⟩
  · exact HasDerivAt.mul_const (HasDerivAt.fun_sum fun a _ => HasDerivAt.fun_sum fun b _ => h4 _) _
  · rw [show (∑ i : Empty, g0 i * v i) = 0 from Finset.sum_eq_zero fun i _ => i.elim, zero_add]
    simp only [Fintype.sum_prod_type, Finset.mul_sum, Finset.sum_mul]
    refine Finset.sum_congr rfl fun a _ => Finset.sum_congr rfl fun b _ => Finset.sum_congr rfl fun p _ =>
      Finset.sum_congr rfl fun q _ => ?_
    ring

theorem average_core {n c h w : ℕ} {sX sY : List ℕ} (eι : Numbered sX (Fin n × Fin c × Fin h × Fin w)) (eκ : Numbered sY (Fin n × Fin c))
    (k : ℝ) (X dY dX : Ten ℝ) (hX : X.shape = sX) (hd : dY.shape = sY) (hs : dX.shape = sX)
    (hg : ∀ i, dX.get (eι.at_ i) = dY.get (eκ.at_ (i.1, i.2.1)) * k) (call : Ten ℝ → Option (Ten ℝ))
    (hcall : ∀ Z : Ten ℝ, Z.shape = sX → ∃ Y, call Z = some Y ∧ Y.shape = sY ∧
      ∀ j, Y.get (eκ.at_ j) = (∑ u : Fin h, ∑ v : Fin w, Z.get (eι.at_ (j.1, j.2, u, v))) * k)
    (f : List (Ten ℝ) → Except NErr (List (Ten ℝ))) (hf : ∀ x, f [x] = (orShape (call x)).map fun y => [y]) :
    IsGradientOf f [X] [dY] [dX] := by
  refine gradient_plain eι eκ f (fun _ x j => (∑ u, ∑ v, x (j.1, j.2, u, v)) * k) X dY dX hX hd hs (fun Z hZ => ?_) ?_
  · obtain ⟨Y, e1, e2, e3⟩ := hcall Z hZ
    exact ⟨Y, by rw [hf, e1]; rfl, e2, e3⟩
  · rw [show eι.read dX = fun i => eκ.read dY (i.1, i.2.1) * k from funext hg]
    exact average_exact k _ _ _ _

/-- The gradients before the channels are moved. -/
theorem tile_back (keep : Bool) (k : ℝ) (n c h w : ℕ) (dY : Ten ℝ) (hd : dY.shape = if keep then [n, c, 1, 1] else [n, c]) :
    ∃ r : Ten ℝ, (spread keep (scale dY k)).bind (fun d => tile d [1, 1, h, w]) = some r ∧ r.shape = [n, c, h, w] ∧
      ∀ b q u v, b < n → q < c → r.get [b, q, u, v] = dY.get (if keep then [b, q, 0, 0] else [b, q]) * k := by
  cases keep with
  | true =>
      rw [if_pos rfl] at hd
      refine ⟨⟨[n, c, h, w], fun i => dY.get (List.zipWith (fun q d => q % d) i [n, c, 1, 1]) * k⟩, ?_, rfl, ?_⟩
      · show tile (scale dY k) [1, 1, h, w] = _
        unfold tile scale
        simp [hd]
      · intro b q u v hb hq
        simp [Nat.mod_eq_of_lt hb, Nat.mod_eq_of_lt hq, Nat.mod_one]
  | false =>
      rw [if_neg (by simp)] at hd
      refine ⟨⟨[n, c, h, w], fun i => dY.get (((List.zipWith (fun q d => q % d) i [n, c, 1, 1]).eraseIdx 3).eraseIdx 2) * k⟩, ?_, rfl, ?_⟩
      · unfold spread tile scale
        simp [hd]
      · intro b q u v hb hq
        simp [Nat.mod_eq_of_lt hb, Nat.mod_eq_of_lt hq]

/-- The backward pass of the layer, in all cases but one. -/
theorem globalAvg_gradient (last keep : Bool) (k : ℝ) (n c h w : ℕ) (X dY : Ten ℝ) (hlk : ¬(last = true ∧ keep = true))
    (hX : X.shape = if last then [n, h, w, c] else [n, c, h, w]) (hd : dY.shape = if keep then [n, c, 1, 1] else [n, c])
    (f : List (Ten ℝ) → Except NErr (List (Ten ℝ))) (hf : ∀ x, f [x] = (orShape (globalAvgCall last keep k x)).map fun y => [y]) :
    ∃ dX, globalAvgBackward last keep k X dY = some dX ∧ IsGradientOf f [X] [dY] [dX] := by
  obtain ⟨r, e1, e2, e3⟩ := tile_back keep k n c h w dY hd
  have hsum : ∀ g : ℕ → ℕ → ℝ, ∑ u ∈ Finset.range h, ∑ v ∈ Finset.range w, g u v = ∑ u : Fin h, ∑ v : Fin w, g u v := by
    intro g
    rw [Finset.sum_range]
    refine Finset.sum_congr rfl fun u _ => ?_
    rw [Finset.sum_range]
  cases last with
  | true =>
      cases keep with
      | true => exact absurd ⟨rfl, rfl⟩ hlk
      | false =>
          simp only [if_true, Bool.false_eq_true, if_false] at hX hd e3
          have hb : globalAvgBackward true false k X dY = ((spread false (scale dY k)).bind fun d => tile d [1, 1, h, w]).bind
              fun r => Tensor.transpose r [0, 2, 3, 1] := by
            unfold globalAvgBackward
            rw [hX]
            cases spread false (scale dY k) <;> rfl
          rw [e1, Option.bind_some, transpose_0231 r n c h w e2] at hb
          refine ⟨_, hb, average_core (num4' n c h w) (num2 n c) k X dY _ hX hd rfl (fun i => e3 _ _ _ _ i.1.2 i.2.1.2) _ (fun Z hZ => ?_) f hf⟩
          obtain ⟨Y, g1, g2, g3⟩ := globalAvg_last false k Z n c h w hZ
          exact ⟨Y, g1, g2, fun j => (g3 j.1 j.2 j.1.2 j.2.2).trans (by rw [hsum]; rfl)⟩
  | false =>
      simp only [Bool.false_eq_true, if_false] at hX
      have hb : globalAvgBackward false keep k X dY = (spread keep (scale dY k)).bind fun d => tile d [1, 1, h, w] := by
        unfold globalAvgBackward
        rw [hX]
        cases spread keep (scale dY k) with
        | none => rfl
        | some d =>
            show ((tile d [1, 1, h, w]).bind fun r => some r) = tile d [1, 1, h, w]
            cases tile d [1, 1, h, w] <;> rfl
      rw [e1] at hb
      refine ⟨r, hb, ?_⟩
      cases keep with
      | true =>
          refine average_core (num4 n c h w) (num211 n c) k X dY r hX hd e2 (fun i => e3 _ _ _ _ i.1.2 i.2.1.2) _ (fun Z hZ => ?_) f hf
          obtain ⟨Y, g1, g2, g3⟩ := globalAvg_first true k Z n c h w hZ
          exact ⟨Y, g1, g2, fun j => (g3 j.1 j.2 j.1.2 j.2.2).trans (by rw [hsum]; rfl)⟩
      | false =>
          refine average_core (num4 n c h w) (num2 n c) k X dY r hX hd e2 (fun i => e3 _ _ _ _ i.1.2 i.2.1.2) _ (fun Z hZ => ?_) f hf
          obtain ⟨Y, g1, g2, g3⟩ := globalAvg_first false k Z n c h w hZ
          exact ⟨Y, g1, g2, fun j => (g3 j.1 j.2 j.1.2 j.2.2).trans (by rw [hsum]; rfl)⟩

/-- **C79 (GlobalAveragePool, ReduceMean).** Rows and columns are the last two axes, or they are the middle ones and are
not kept. The constant is the one that the node computes from the declared shape. -/
theorem global_average_gradient {as : List Attr} (last keep : Bool) {n c h w : ℕ} (hg : globalArgs as true = (last, keep))
    (hlk : ¬(last = true ∧ keep = true)) (hh : 0 < h) (hw : 0 < w) (X dY : Ten ℝ)
    (hX : X.shape = if last then [n, h, w, c] else [n, c, h, w]) (hd : dY.shape = if keep then [n, c, 1, 1] else [n, c]) :
    ∃ nd dX, globalAvgNode as [.shape (if last then [-1, (h : ℤ), (w : ℤ), (c : ℤ)] else [-1, (c : ℤ), (h : ℤ), (w : ℤ)])] = .ok nd ∧
      globalAvgBack last keep (1 / ((h * w : ℕ) : ℝ)) X [dY] = .ok ([], [dX]) ∧ IsGradientOf nd.forward [X] [dY] [dX] := by
  have hhw : ((h : ℤ) * w) ≠ 0 := by positivity
  have hk : (1 : ℝ) / (((h : ℤ) * (w : ℤ) : ℤ) : ℝ) = 1 / ((h * w : ℕ) : ℝ) := by push_cast; rfl
  have hnd : ∃ nd, globalAvgNode as [.shape (if last then [-1, (h : ℤ), (w : ℤ), (c : ℤ)] else [-1, (c : ℤ), (h : ℤ), (w : ℤ)])] = .ok nd ∧
      ∀ x, nd.forward [x] = (orShape (globalAvgCall last keep (1 / ((h * w : ℕ) : ℝ)) x)).map fun y => [y] := by
    have key : ∀ out x, (Built.mk [out] fun xs => do
        let x ← argAt xs 0
        let y ← orShape (globalAvgCall last keep (1 / (((h : ℤ) * (w : ℤ) : ℤ) : ℝ)) x)
        Except.ok [y]).forward [x] = (orShape (globalAvgCall last keep (1 / ((h * w : ℕ) : ℝ)) x)).map fun y => [y] := by
      intro out x
      rw [← hk]
      show ((orShape (globalAvgCall last keep (1 / (((h : ℤ) * (w : ℤ) : ℤ) : ℝ)) x)).bind _) = _
      cases orShape (globalAvgCall last keep (1 / (((h : ℤ) * (w : ℤ) : ℤ) : ℝ)) x) <;> rfl
    unfold globalAvgNode
    rw [hg]
    cases last with
    | true =>
        refine ⟨_, ?_, key (if keep then [-1, 1, 1, (c : ℤ)] else [-1, (c : ℤ)])⟩
        show (if (h : ℤ) * w = 0 then _ else _) = _
        rw [if_neg hhw]
        cases keep <;> rfl
    | false =>
        refine ⟨_, ?_, key (if keep then [-1, (c : ℤ), 1, 1] else [-1, (c : ℤ)])⟩
        show (if (h : ℤ) * w = 0 then _ else _) = _
        rw [if_neg hhw]
        cases keep <;> rfl
  obtain ⟨nd, e1, e2⟩ := hnd
  obtain ⟨dX, e3, e4⟩ := globalAvg_gradient last keep _ n c h w X dY hlk hX hd nd.forward e2
  refine ⟨nd, dX, e1, ?_, e4⟩
  show ((orShape _).bind _) = _
  rw [e3]; rfl

/-- **C79 (ReduceMean)** does not hold for rows and columns in the middle that are kept: the result of `backward` has
another shape than the input. -/
theorem global_average_gradient_false (k : ℝ) (n c h w : ℕ) (X dY : Ten ℝ) (hX : X.shape = [n, h, w, c]) (hd : dY.shape = [n, 1, 1, c]) :
    ∃ dX, globalAvgBack true true k X [dY] = .ok ([], [dX]) ∧ dX.shape = [n, h, c * w, 1] := by
  have hb : globalAvgBackward true true k X dY = Tensor.transpose ⟨[n, 1, h, c * w], fun i =>
      dY.get (List.zipWith (fun q d => q % d) i [n, 1, 1, c]) * k⟩ [0, 2, 3, 1] := by
    unfold globalAvgBackward spread tile scale
    simp [hX, hd]
  rw [transpose_0231 _ n 1 h (c * w) rfl] at hb
  obtain ⟨dX, e, hs⟩ : ∃ dX : Ten ℝ, globalAvgBackward true true k X dY = some dX ∧ dX.shape = [n, h, c * w, 1] := ⟨_, hb, rfl⟩
  refine ⟨dX, ?_, hs⟩
  show ((orShape _).bind _) = _
  rw [e]; rfl

/-- The tensor [1, 2, 3]. -/
example : ∃ nd dX, mapNode (fun x => max x 0) [.shape [3]] = .ok nd ∧ reluBack ⟨[3], fun i => i.sum + 1⟩ [⟨[3], fun _ => 2⟩] = .ok ([], [dX]) ∧
    IsGradientOf nd.forward [⟨[3], fun i => i.sum + 1⟩] [⟨[3], fun _ => 2⟩] [dX] :=
  relu_gradient [3] ⟨[3], fun i => i.sum + 1⟩ ⟨[3], fun _ => 2⟩ rfl fun i _ => by
    show ((i.sum : ℕ) : ℝ) + 1 ≠ 0
    positivity

example : ∃ nd dX, sigmoidNode [.shape [3]] = .ok nd ∧ sigmoidBack ⟨[3], fun i => i.sum⟩ [⟨[3], fun _ => 2⟩] = .ok ([], [dX]) ∧
    IsGradientOf nd.forward [⟨[3], fun i => i.sum⟩] [⟨[3], fun _ => 2⟩] [dX] := sigmoid_gradient [3] _ _ rfl

/-- A reduction over the spatial axes that drops them. -/
example : ∃ nd dX, globalAvgNode [⟨"axes", .ints [2, 3]⟩, ⟨"keepdims", .int 0⟩] [.shape [-1, 3, 2, 4]] = .ok nd ∧
    globalAvgBack false false (1 / ((2 * 4 : ℕ) : ℝ)) ⟨[5, 3, 2, 4], fun i => i.sum⟩ [⟨[5, 3], fun _ => 2⟩] = .ok ([], [dX]) ∧
    IsGradientOf nd.forward [⟨[5, 3, 2, 4], fun i => i.sum⟩] [⟨[5, 3], fun _ => 2⟩] [dX] :=
  global_average_gradient (n := 5) (c := 3) (h := 2) (w := 4) false false rfl (by simp) (by decide) (by decide) _ _ rfl rfl

/-- With the channels last and kept dimensions the result is no gradient, for any function. -/
example : ∃ dX, globalAvgBack true true (1 / 4) ⟨[1, 2, 2, 3], fun i => i.sum⟩ [⟨[1, 1, 1, 3], fun _ => 1⟩] = .ok ([], [dX]) ∧
    ∀ f, ¬ IsGradientOf f [⟨[1, 2, 2, 3], fun i => i.sum⟩] [⟨[1, 1, 1, 3], fun _ => 1⟩] [dX] := by
  obtain ⟨dX, e1, e2⟩ := global_average_gradient_false (1 / 4) 1 3 2 2 ⟨[1, 2, 2, 3], fun i => i.sum⟩ ⟨[1, 1, 1, 3], fun _ => 1⟩ rfl rfl
  refine ⟨dX, e1, fun f h => ?_⟩
  have := h.1
  cases this with
  | cons h _ => rw [e2] at h; simp at h

end Verif.Convert
