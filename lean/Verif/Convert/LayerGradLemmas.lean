import Verif.Convert.LayerBack
import Verif.Convert.NodeGradLemmas
import Verif.Convert.NodesConv
import Verif.Keras.GradProps
import Verif.Keras.ConvProps
import Verif.Keras.PoolingProps

/-!
# From gradients of layers to gradients of nodes

The gradients of layers are about tensors that are indexed by a finite type, those of nodes about tensors that are
indexed by lists of numbers.
-/

namespace Verif.Convert

open Verif.Tensor Verif.Keras Verif.Convert.Onnx

/-- The entries of tensors of shape `s`, numbered by a finite type. -/
structure Numbered (s : List ℕ) (ι : Type) where
  at_ : ι → List ℕ
  inShape : ∀ i, InShape s (at_ i)
  inj : ∀ i j, at_ i = at_ j → i = j
  surj : ∀ l, InShape s l → ∃ i, at_ i = l

/-- The entries of a tensor. -/
def Numbered.read {s : List ℕ} {ι : Type} (e : Numbered s ι) (X : Ten ℝ) : ι → ℝ := fun i => X.get (e.at_ i)

theorem Numbered.sum {s : List ℕ} {ι : Type} [Fintype ι] (e : Numbered s ι) (f : List ℕ → ℝ) :
    ∑ l ∈ indices s, f l = ∑ i, f (e.at_ i) := by
  symm
  refine Finset.sum_bij (fun i _ => e.at_ i) (fun i _ => mem_indices.2 (e.inShape i)) (fun i _ j _ h => e.inj i j h) ?_
    (fun _ _ => rfl)
  intro l hl
  obtain ⟨i, h⟩ := e.surj l (mem_indices.1 hl)
  exact ⟨i, Finset.mem_univ i, h⟩

theorem Numbered.inner {s : List ℕ} {ι : Type} [Fintype ι] (e : Numbered s ι) (A B : Ten ℝ) (h : A.shape = s) :
    Onnx.inner A B = ∑ i, e.read A i * e.read B i := by
  unfold Onnx.inner
  rw [h, e.sum]
  rfl

theorem Numbered.moves {s : List ℕ} {ι : Type} (e : Numbered s ι) {X : ℝ → Ten ℝ} {V : Ten ℝ} {t : ℝ} (h : TenMoves X V t)
    (hs : V.shape = s) : Moves (fun r => e.read (X r)) (e.read V) t := by
  intro i
  exact h.2 _ (by rw [hs]; exact e.inShape i)

/-- A tensor with given entries. -/
noncomputable def Numbered.make {s : List ℕ} {ι : Type} (e : Numbered s ι) (f : ι → ℝ) : Ten ℝ :=
  open Classical in ⟨s, fun l => if h : ∃ i, e.at_ i = l then f h.choose else 0⟩

theorem Numbered.make_at {s : List ℕ} {ι : Type} (e : Numbered s ι) (f : ι → ℝ) (i : ι) : (e.make f).get (e.at_ i) = f i := by
  unfold Numbered.make
  have h : ∃ j, e.at_ j = e.at_ i := ⟨i, rfl⟩
  simp only [dif_pos h]
  rw [e.inj _ _ h.choose_spec]

/-- Indices of a vector. -/
def num1 (n : ℕ) : Numbered [n] (Fin n) where
  at_ i := [i]
  inShape i := ⟨i.2, trivial⟩
  inj i j h := by simpa [Fin.ext_iff] using h
  surj l h := by
    match l, h with
    | [a], h => exact ⟨⟨a, h.1⟩, rfl⟩

/-- Indices of the bias of a convolution. -/
def num111 (n : ℕ) : Numbered [n, 1, 1] (Fin n) where
  at_ i := [i, 0, 0]
  inShape i := ⟨i.2, by decide, by decide, trivial⟩
  inj i j h := by simpa [Fin.ext_iff] using h
  surj l h := by
    match l, h with
    | [a, b, c], h =>
      have h1 : b = 0 := by have := h.2.1; omega
      have h2 : c = 0 := by have := h.2.2.1; omega
      subst h1 h2
      exact ⟨⟨a, h.1⟩, rfl⟩

/-- Indices of a matrix. -/
def num2 (m n : ℕ) : Numbered [m, n] (Fin m × Fin n) where
  at_ i := [i.1, i.2]
  inShape i := ⟨i.1.2, i.2.2, trivial⟩
  inj i j h := by
    simp only [List.cons.injEq, and_true] at h
    exact Prod.ext (Fin.ext h.1) (Fin.ext h.2)
  surj l h := by
    match l, h with
    | [a, b], h => exact ⟨(⟨a, h.1⟩, ⟨b, h.2.1⟩), rfl⟩

/-- Indices of a transposed matrix. -/
def num2' (m n : ℕ) : Numbered [n, m] (Fin m × Fin n) where
  at_ i := [i.2, i.1]
  inShape i := ⟨i.2.2, i.1.2, trivial⟩
  inj i j h := by
    simp only [List.cons.injEq, and_true] at h
    exact Prod.ext (Fin.ext h.2) (Fin.ext h.1)
  surj l h := by
    match l, h with
    | [a, b], h => exact ⟨(⟨b, h.2.1⟩, ⟨a, h.1⟩), rfl⟩

/-- Indices of a batch of images. -/
def num4 (n c h w : ℕ) : Numbered [n, c, h, w] (Fin n × Fin c × Fin h × Fin w) where
  at_ i := [i.1, i.2.1, i.2.2.1, i.2.2.2]
  inShape i := ⟨i.1.2, i.2.1.2, i.2.2.1.2, i.2.2.2.2, trivial⟩
  inj i j h := by
    simp only [List.cons.injEq, and_true] at h
    exact Prod.ext (Fin.ext h.1) (Prod.ext (Fin.ext h.2.1) (Prod.ext (Fin.ext h.2.2.1) (Fin.ext h.2.2.2)))
  surj l h := by
    match l, h with
    | [a, b, c, d], h => exact ⟨(⟨a, h.1⟩, ⟨b, h.2.1⟩, ⟨c, h.2.2.1⟩, ⟨d, h.2.2.2.1⟩), rfl⟩

/-- Indices of a shape. -/
def numAll (s : List ℕ) : Numbered s {l : List ℕ // l ∈ indices s} where
  at_ i := i.1
  inShape i := mem_indices.1 i.2
  inj i j h := Subtype.ext h
  surj l h := ⟨⟨l, mem_indices.2 h⟩, rfl⟩

/-- The gradients `gw` and `gx` of weights and input belong to the gradient `d` of the output. -/
def ExactAt {ω ι κ : Type} [Fintype ω] [Fintype ι] [Fintype κ] (call : (ω → ℝ) → (ι → ℝ) → κ → ℝ) (w : ω → ℝ) (x : ι → ℝ)
    (d : κ → ℝ) (gw : ω → ℝ) (gx : ι → ℝ) : Prop :=
  ∀ (γ : ℝ → ω → ℝ) (v : ω → ℝ) (χ : ℝ → ι → ℝ) (u : ι → ℝ) (t : ℝ), γ t = w → Moves γ v t → χ t = x → Moves χ u t →
    ∃ y, Moves (fun s => call (γ s) (χ s)) y t ∧ ∑ j, d j * y j = ∑ i, gw i * v i + ∑ i, gx i * u i

/-- A node without weights. -/
theorem gradient_plain {ι κ : Type} [Fintype ι] [Fintype κ] {sX sY : List ℕ} (eι : Numbered sX ι) (eκ : Numbered sY κ)
    (f : List (Ten ℝ) → Except NErr (List (Ten ℝ))) (call : (Empty → ℝ) → (ι → ℝ) → κ → ℝ) (X dY dX : Ten ℝ)
    (hX : X.shape = sX) (hdY : dY.shape = sY) (hdX : dX.shape = sX)
    (hf : ∀ Z : Ten ℝ, Z.shape = sX → ∃ Y : Ten ℝ, f [Z] = .ok [Y] ∧ Y.shape = sY ∧
      ∀ j, Y.get (eκ.at_ j) = call (fun i => i.elim) (eι.read Z) j)
    (hex : ExactAt call (fun i => i.elim) (eι.read X) (eκ.read dY) (fun i => i.elim) (eι.read dX)) :
    IsGradientOf f [X] [dY] [dX] := by
  refine ⟨.cons (by rw [hdX, hX]) .nil, ?_⟩
  intro χs vs t hχ hm
  obtain ⟨χ, rfl⟩ : ∃ χ, χs = [χ] := by
    match χs, hχ with
    | [χ], _ => exact ⟨χ, rfl⟩
  cases hm with
  | @cons _ V _ _ hm h2 =>
  cases h2
  simp only [List.map_cons, List.map_nil, List.cons.injEq, and_true] at hχ
  have hV : V.shape = sX := by rw [← hm.1 t, hχ, hX]
  choose Y hY using fun s => hf (χ s) ((hm.1 s).trans hV)
  obtain ⟨y, hy, hsum⟩ := hex (fun _ i => i.elim) (fun i => i.elim) (fun s => eι.read (χ s)) (eι.read V) t rfl
    (fun i => i.elim) (by rw [← hχ]) (eι.moves hm hV)
  refine ⟨[Y], [eκ.make y], fun s => (hY s).1, .cons ⟨fun s => (hY s).2.1, fun l hl => ?_⟩ .nil, .cons (by rw [hdY]; rfl) .nil, ?_⟩
  · obtain ⟨j, rfl⟩ := eκ.surj l hl
    rw [eκ.make_at]
    have e : (fun s => (Y s).get (eκ.at_ j)) = fun s => call (fun i => i.elim) (eι.read (χ s)) j := funext fun s => (hY s).2.2 j
    rw [e]
    exact hy j
  · simp only [List.zipWith_cons_cons, List.zipWith_nil_left, List.sum_cons, List.sum_nil, add_zero]
    rw [eκ.inner _ _ hdY, eι.inner _ _ hdX]
    have e : ∀ j, eκ.read (eκ.make y) j = y j := fun j => eκ.make_at y j
    simp only [e]
    rw [hsum, show (∑ i : Empty, (i.elim : ℝ) * (i.elim : ℝ)) = 0 from Finset.sum_eq_zero fun i _ => i.elim, zero_add]

/-- The weights of a layer with a kernel and maybe a bias, from the tensors. -/
def readWeights {P O : Type} {sP sO : List ℕ} (eP : Numbered sP P) (eO : Numbered sO O) (bias : Bool) (K : Ten ℝ)
    (B : Ten ℝ) : P ⊕ {_j : O // bias = true} → ℝ
  | .inl p => K.get (eP.at_ p)
  | .inr q => B.get (eO.at_ q.1)

theorem sum_bias {O : Type} [Fintype O] (f : O → ℝ) : ∑ q : {_j : O // true = true}, f q.1 = ∑ q, f q :=
  Fintype.sum_equiv (Equiv.subtypeUnivEquiv fun _ => rfl) _ _ fun _ => rfl

/-- A node with a kernel and a bias. -/
theorem gradient_bias {P O ι κ : Type} [Fintype P] [Fintype O] [Fintype ι] [Fintype κ] {sP sO sX sY : List ℕ}
    (eP : Numbered sP P) (eO : Numbered sO O) (eι : Numbered sX ι) (eκ : Numbered sY κ)
    (f : Ten ℝ → Option (Ten ℝ) → List (Ten ℝ) → Except NErr (List (Ten ℝ)))
    (call : (P ⊕ {_j : O // true = true} → ℝ) → (ι → ℝ) → κ → ℝ) (K B X dY dK dB dX : Ten ℝ)
    (hK : K.shape = sP) (hB : B.shape = sO) (hX : X.shape = sX) (hdY : dY.shape = sY) (hdK : dK.shape = sP)
    (hdB : dB.shape = sO) (hdX : dX.shape = sX)
    (hf : ∀ K' B' Z : Ten ℝ, K'.shape = sP → B'.shape = sO → Z.shape = sX → ∃ Y : Ten ℝ, f K' (some B') [Z] = .ok [Y] ∧
      Y.shape = sY ∧ ∀ j, Y.get (eκ.at_ j) = call (readWeights eP eO true K' B') (eι.read Z) j)
    (hex : ExactAt call (readWeights eP eO true K B) (eι.read X) (eκ.read dY) (readWeights eP eO true dK dB) (eι.read dX)) :
    IsGradientOf (ofWeights f true) [K, B, X] [dY] [dK, dB, dX] := by
  refine ⟨.cons (by rw [hdK, hK]) (.cons (by rw [hdB, hB]) (.cons (by rw [hdX, hX]) .nil)), ?_⟩
  intro χs vs t hχ hm
  obtain ⟨κc, β, χ, rfl⟩ : ∃ a b c, χs = [a, b, c] := by
    match χs, hχ with
    | [a, b, c], _ => exact ⟨a, b, c, rfl⟩
  cases hm with
  | @cons _ VK _ _ mK h2 =>
  cases h2 with
  | @cons _ VB _ _ mB h3 =>
  cases h3 with
  | @cons _ V _ _ hm h4 =>
  cases h4
  simp only [List.map_cons, List.map_nil, List.cons.injEq, and_true] at hχ
  obtain ⟨cK, cB, cX⟩ := hχ
  have hVK : VK.shape = sP := by rw [← mK.1 t, cK, hK]
  have hVB : VB.shape = sO := by rw [← mB.1 t, cB, hB]
  have hV : V.shape = sX := by rw [← hm.1 t, cX, hX]
  choose Y hY using fun s => hf (κc s) (β s) (χ s) ((mK.1 s).trans hVK) ((mB.1 s).trans hVB) ((hm.1 s).trans hV)
  obtain ⟨y, hy, hsum⟩ := hex (fun s => readWeights eP eO true (κc s) (β s)) (readWeights eP eO true VK VB)
    (fun s => eι.read (χ s)) (eι.read V) t (by rw [← cK, ← cB]) (by
      rintro (p | q)
      · exact mK.2 _ (by rw [hVK]; exact eP.inShape p)
      · exact mB.2 _ (by rw [hVB]; exact eO.inShape q.1)) (by rw [← cX]) (eι.moves hm hV)
  refine ⟨[Y], [eκ.make y], fun s => (hY s).1, .cons ⟨fun s => (hY s).2.1, fun l hl => ?_⟩ .nil, .cons (by rw [hdY]; rfl) .nil, ?_⟩
  · obtain ⟨j, rfl⟩ := eκ.surj l hl
    rw [eκ.make_at, funext fun s => (hY s).2.2 j]
    exact hy j
  · simp only [List.zipWith_cons_cons, List.zipWith_nil_left, List.sum_cons, List.sum_nil, add_zero]
    rw [eκ.inner _ _ hdY, eι.inner _ _ hdX, eP.inner _ _ hdK, eO.inner _ _ hdB]
    have e : ∀ j, eκ.read (eκ.make y) j = y j := fun j => eκ.make_at y j
    simp only [e]
    rw [hsum, Fintype.sum_sum_type, ← sum_bias (fun q => eO.read dB q * eO.read VB q), add_assoc]
    rfl

/-- A node with a kernel and no bias. -/
theorem gradient_kernel {P O ι κ : Type} [Fintype P] [Fintype O] [Fintype ι] [Fintype κ] {sP sO sX sY : List ℕ}
    (eP : Numbered sP P) (eO : Numbered sO O) (eι : Numbered sX ι) (eκ : Numbered sY κ)
    (f : Ten ℝ → Option (Ten ℝ) → List (Ten ℝ) → Except NErr (List (Ten ℝ)))
    (call : (P ⊕ {_j : O // false = true} → ℝ) → (ι → ℝ) → κ → ℝ) (K B X dY dK dB dX : Ten ℝ)
    (hK : K.shape = sP) (hX : X.shape = sX) (hdY : dY.shape = sY) (hdK : dK.shape = sP) (hdX : dX.shape = sX)
    (hf : ∀ K' Z : Ten ℝ, K'.shape = sP → Z.shape = sX → ∃ Y : Ten ℝ, f K' none [Z] = .ok [Y] ∧
      Y.shape = sY ∧ ∀ j, Y.get (eκ.at_ j) = call (readWeights eP eO false K' B) (eι.read Z) j)
    (hex : ExactAt call (readWeights eP eO false K B) (eι.read X) (eκ.read dY) (readWeights eP eO false dK dB) (eι.read dX)) :
    IsGradientOf (ofWeights f false) [K, X] [dY] [dK, dX] := by
  refine ⟨.cons (by rw [hdK, hK]) (.cons (by rw [hdX, hX]) .nil), ?_⟩
  intro χs vs t hχ hm
  obtain ⟨κc, χ, rfl⟩ : ∃ a b, χs = [a, b] := by
    match χs, hχ with
    | [a, b], _ => exact ⟨a, b, rfl⟩
  cases hm with
  | @cons _ VK _ _ mK h2 =>
  cases h2 with
  | @cons _ V _ _ hm h4 =>
  cases h4
  simp only [List.map_cons, List.map_nil, List.cons.injEq, and_true] at hχ
  obtain ⟨cK, cX⟩ := hχ
  have hVK : VK.shape = sP := by rw [← mK.1 t, cK, hK]
  have hV : V.shape = sX := by rw [← hm.1 t, cX, hX]
  choose Y hY using fun s => hf (κc s) (χ s) ((mK.1 s).trans hVK) ((hm.1 s).trans hV)
  obtain ⟨y, hy, hsum⟩ := hex (fun s => readWeights eP eO false (κc s) B) (readWeights eP eO false VK B)
    (fun s => eι.read (χ s)) (eι.read V) t (by rw [← cK]) (by
      rintro (p | q)
      · exact mK.2 _ (by rw [hVK]; exact eP.inShape p)
      · exact absurd q.2 (by simp)) (by rw [← cX]) (eι.moves hm hV)
  refine ⟨[Y], [eκ.make y], fun s => (hY s).1, .cons ⟨fun s => (hY s).2.1, fun l hl => ?_⟩ .nil, .cons (by rw [hdY]; rfl) .nil, ?_⟩
  · obtain ⟨j, rfl⟩ := eκ.surj l hl
    rw [eκ.make_at, funext fun s => (hY s).2.2 j]
    exact hy j
  · simp only [List.zipWith_cons_cons, List.zipWith_nil_left, List.sum_cons, List.sum_nil, add_zero]
    rw [eκ.inner _ _ hdY, eι.inner _ _ hdX, eP.inner _ _ hdK]
    have e : ∀ j, eκ.read (eκ.make y) j = y j := fun j => eκ.make_at y j
    simp only [e]
    rw [hsum, Fintype.sum_sum_type, show (∑ q : {_j : O // false = true}, readWeights eP eO false dK dB (.inr q) *
      readWeights eP eO false VK B (.inr q)) = 0 from Finset.sum_eq_zero fun q _ => absurd q.2 (by simp), add_zero]
    rfl

/-- The gradients of weights and inputs contain those of the inputs alone. -/
theorem IsGradientOf.inputs {f : List (Ten ℝ) → Except NErr (List (Ten ℝ))} {W dW : Ten ℝ} {xs dys dxs : List (Ten ℝ)}
    (h : IsGradientOf f (W :: xs) dys (dW :: dxs)) : IsGradientOf (fun xs => f (W :: xs)) xs dys dxs := by
  obtain ⟨h1, h2⟩ := h
  cases h1 with
  | cons hW hx =>
  refine ⟨hx, fun χs vs t hχ hm => ?_⟩
  obtain ⟨Ys, us, e1, e2, e3, e4⟩ := h2 ((fun _ => W) :: χs) (⟨W.shape, fun _ => 0⟩ :: vs) t (by simp [hχ])
    (.cons ⟨fun _ => rfl, fun i _ => hasDerivAt_const t _⟩ hm)
  refine ⟨Ys, us, e1, e2, e3, e4.trans ?_⟩
  simp [Onnx.inner]

/-- Only the inputs in the given number matter. -/
theorem IsGradientOf.congr {f g : List (Ten ℝ) → Except NErr (List (Ten ℝ))} {xs dys dxs : List (Ten ℝ)}
    (h : IsGradientOf f xs dys dxs) (e : ∀ zs, zs.length = xs.length → f zs = g zs) : IsGradientOf g xs dys dxs := by
  refine ⟨h.1, fun χs vs t hχ hm => ?_⟩
  obtain ⟨Ys, us, e1, e2⟩ := h.2 χs vs t hχ hm
  exact ⟨Ys, us, fun s => by rw [← e _ (by rw [← hχ, List.length_map, List.length_map])]; exact e1 s, e2⟩

/-- Of a node with a kernel, the input alone. -/
theorem IsGradientOf.kernel_input {f : Ten ℝ → Option (Ten ℝ) → List (Ten ℝ) → Except NErr (List (Ten ℝ))} {K X dY dK dX : Ten ℝ}
    (h : IsGradientOf (ofWeights f false) [K, X] [dY] [dK, dX]) : IsGradientOf (f K none) [X] [dY] [dX] := by
  refine IsGradientOf.congr (IsGradientOf.inputs h) fun zs hz => ?_
  match zs, hz with
  | [_], _ => rfl

/-- Of a node with a kernel and a bias, the input alone. -/
theorem IsGradientOf.bias_input {f : Ten ℝ → Option (Ten ℝ) → List (Ten ℝ) → Except NErr (List (Ten ℝ))}
    {K B X dY dK dB dX : Ten ℝ} (h : IsGradientOf (ofWeights f true) [K, B, X] [dY] [dK, dB, dX]) :
    IsGradientOf (f K (some B)) [X] [dY] [dX] := by
  refine IsGradientOf.congr (IsGradientOf.inputs (IsGradientOf.inputs h)) fun zs hz => ?_
  match zs, hz with
  | [_], _ => rfl

end Verif.Convert
