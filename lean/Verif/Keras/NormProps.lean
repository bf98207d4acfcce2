import Verif.Keras.Norm
import Verif.Keras.WeightsProps
import Verif.Keras.DepthwiseProps

/-!
# What `BatchNormalization` computes
-/

namespace Verif.Keras

open Verif.Tensor

/-! ## Broadcasting of parameters -/

/-- A shape of parameters for data of shape `s`: every dimension is 1 or that of the data. -/
def Params (p s : List ℕ) : Prop := List.Forall₂ (fun a b => a = 1 ∨ a = b) p s

theorem Params.self (s : List ℕ) : Params s s := by
  induction s with
  | nil => exact .nil
  | cons a s ih => exact .cons (.inr rfl) ih

theorem bcastShape_params {p s : List ℕ} (h : Params p s) : bcastShape s p = some s ∧ bcastShape p s = some s := by
  have hl : p.length = s.length := h.length_eq
  have key : (s.zip p).mapM (fun (d : ℕ × ℕ) => bcastDim d.1 d.2) = some s ∧
      (p.zip s).mapM (fun (d : ℕ × ℕ) => bcastDim d.1 d.2) = some s := by
    clear hl
    induction h with
    | nil => exact ⟨rfl, rfl⟩
    | cons hab h ih =>
        rename_i a b p s
        rw [List.zip_cons_cons, List.zip_cons_cons, List.mapM_cons, List.mapM_cons, ih.1, ih.2]
        rcases hab with rfl | rfl
        · exact ⟨by simp [bcastDim_one_right], by simp [bcastDim_one_left]⟩
        · exact ⟨by simp [bcastDim_self], by simp [bcastDim_self]⟩
  constructor
  · simpa [bcastShape, hl] using key.1
  · simpa [bcastShape, hl] using key.2

theorem bget_params {t : Ten ℝ} {p s idx : List ℕ} (hp : Params p s) (ht : t.shape = p) (hi : InShape s idx) :
    Ten.bget t idx = t.get ((p.zip idx).map fun d => if d.1 = 1 then 0 else d.2) := by
  have hl : p.length = s.length := hp.length_eq
  have : idx.length = s.length := by
    clear hp ht hl
    induction s generalizing idx with
    | nil => cases idx with
      | nil => rfl
      | cons => exact hi.elim
    | cons a s ih => cases idx with
      | nil => exact hi.elim
      | cons i idx => simp [ih hi.2]
  unfold Ten.bget
  rw [ht, this, hl, Nat.sub_self, List.drop_zero]

theorem pick_self {s idx : List ℕ} (hi : InShape s idx) :
    ((s.zip idx).map fun (d : ℕ × ℕ) => if d.1 = 1 then 0 else d.2) = idx := by
  induction s generalizing idx with
  | nil => cases idx with
    | nil => rfl
    | cons => exact hi.elim
  | cons a s ih => cases idx with
    | nil => exact hi.elim
    | cons i idx =>
        rw [List.zip_cons_cons, List.map_cons, ih hi.2]
        show (if a = 1 then 0 else i) :: idx = _
        rw [bidx hi.1]

theorem bget_self {t : Ten ℝ} {s idx : List ℕ} (ht : t.shape = s) (hi : InShape s idx) :
    Ten.bget t idx = t.get idx := by
  rw [bget_params (Params.self s) ht hi, pick_self hi]

/-! ## Data and their channels -/

/-- The data the layer is made for: `c` channels in dimension 1 of matrices or of images, or in
dimension 3 of images. -/
inductive Channels : List ℕ → ℕ → ℕ → Prop
  | matrix (n c : ℕ) : Channels [n, c] 1 c
  | first (n c h w : ℕ) : Channels [n, c, h, w] 1 c
  | last (n h w c : ℕ) : Channels [n, h, w, c] 3 c

/-- The place of the parameter of channel `k`: all other dimensions of the parameters have size 1. -/
def place (s : List ℕ) (axis k : ℕ) : List ℕ := (List.replicate s.length 0).set axis k

/-- A tensor that holds one parameter per channel. -/
structure PerChannel (s : List ℕ) (axis c : ℕ) (t : Ten ℝ) (f : ℕ → ℝ) : Prop where
  shape : t.shape = (List.replicate s.length 1).set axis c
  entry : ∀ k < c, t.get (place s axis k) = f k

theorem Channels.params {s : List ℕ} {axis c : ℕ} (h : Channels s axis c) :
    Params ((List.replicate s.length 1).set axis c) s := by
  cases h <;> simp [Params]

theorem Channels.index {s : List ℕ} {axis c : ℕ} (h : Channels s axis c) {idx : List ℕ} (hi : InShape s idx) :
    idx.getD axis 0 < c ∧ ((((List.replicate s.length 1).set axis c).zip idx).map
      fun (d : ℕ × ℕ) => if d.1 = 1 then 0 else d.2) = place s axis (idx.getD axis 0) := by
  cases h with
  | matrix n c =>
      match idx, hi with
      | [a, b], ⟨_, hb, _⟩ => exact ⟨hb, by simp [place, bidx hb]⟩
  | first n c h w =>
      match idx, hi with
      | [a, b, i, j], ⟨_, hb, _, _, _⟩ => exact ⟨hb, by simp [place, bidx hb]⟩
  | last n h w c =>
      match idx, hi with
      | [a, i, j, b], ⟨_, _, _, hb, _⟩ => exact ⟨hb, by simp [place, bidx hb]⟩

theorem PerChannel.bget {s : List ℕ} {axis c : ℕ} {t : Ten ℝ} {f : ℕ → ℝ} (h : PerChannel s axis c t f)
    (hc : Channels s axis c) {idx : List ℕ} (hi : InShape s idx) : Ten.bget t idx = f (idx.getD axis 0) := by
  rw [bget_params hc.params h.shape hi, (hc.index hi).2, h.entry _ (hc.index hi).1]

/-- `d` is `x` with every entry changed by the parameter of its channel. -/
theorem bcastOp_data (f : ℝ → ℝ → ℝ) {s : List ℕ} {axis c : ℕ} (hc : Channels s axis c) {x t : Ten ℝ} {g : ℕ → ℝ}
    (hx : x.shape = s) (ht : PerChannel s axis c t g) :
    ∃ y, bcastOp f x t = .ok y ∧ y.shape = s ∧
      ∀ idx, InShape s idx → y.get idx = f (x.get idx) (g (idx.getD axis 0)) := by
  refine ⟨⟨s, fun idx => f (Ten.bget x idx) (Ten.bget t idx)⟩, ?_, rfl, ?_⟩
  · unfold bcastOp
    rw [hx, ht.shape, (bcastShape_params hc.params).1]
  · intro idx hi
    show f _ _ = _
    rw [bget_self hx hi, ht.bget hc hi]

theorem bcastOp_data' (f : ℝ → ℝ → ℝ) {s : List ℕ} {axis c : ℕ} (hc : Channels s axis c) {x t : Ten ℝ} {g : ℕ → ℝ}
    (hx : x.shape = s) (ht : PerChannel s axis c t g) :
    ∃ y, bcastOp f t x = .ok y ∧ y.shape = s ∧
      ∀ idx, InShape s idx → y.get idx = f (g (idx.getD axis 0)) (x.get idx) := by
  refine ⟨⟨s, fun idx => f (Ten.bget t idx) (Ten.bget x idx)⟩, ?_, rfl, ?_⟩
  · unfold bcastOp
    rw [hx, ht.shape, (bcastShape_params hc.params).2]
  · intro idx hi
    show f _ _ = _
    rw [bget_self hx hi, ht.bget hc hi]

/-! ## What the layer holds -/

/-- An optional tensor with one parameter per channel. -/
def PerChannel? (s : List ℕ) (axis c : ℕ) : Option (Ten ℝ) → Option (ℕ → ℝ) → Prop
  | none, none => True
  | some t, some f => PerChannel s axis c t f
  | _, _ => False

/-- The layer holds the given parameters, and the denominator belongs to the variance. -/
structure NormState.Holds (st : NormState) (ε : ℝ) (s : List ℕ) (axis c : ℕ) (γ β : Option (ℕ → ℝ)) (μ v : ℕ → ℝ) :
    Prop where
  gamma : PerChannel? s axis c st.gamma γ
  beta : PerChannel? s axis c st.beta β
  mean : PerChannel s axis c st.mean μ
  variance : PerChannel s axis c st.variance v
  denom : st.denom = normDenom ε st.variance

/-- The normalised value of an entry of channel `k`: inference with the moving statistics. -/
noncomputable def normalised (ε : ℝ) (γ β : Option (ℕ → ℝ)) (μ v : ℕ → ℝ) (k : ℕ) (x : ℝ) : ℝ :=
  (γ.getD fun _ => 1) k * ((x - μ k) / Real.sqrt (v k + ε)) + (β.getD fun _ => 0) k

theorem PerChannel.denom {s : List ℕ} {axis c : ℕ} {t : Ten ℝ} {v : ℕ → ℝ} (ε : ℝ) (h : PerChannel s axis c t v) :
    PerChannel s axis c (normDenom ε t) fun k => 1 / Real.sqrt (v k + ε) :=
  ⟨h.shape, fun k hk => by show 1 / Real.sqrt (t.get _ + ε) = _; rw [h.entry k hk]⟩

/-- **What the layer computes**, for the four combinations of `scale` and `center`. -/
theorem norm_call {st : NormState} {ε : ℝ} {s : List ℕ} {axis c : ℕ} {γ β : Option (ℕ → ℝ)} {μ v : ℕ → ℝ}
    (hc : Channels s axis c) (h : st.Holds ε s axis c γ β μ v) (x : Ten ℝ) (hx : x.shape = s) :
    ∃ y, normCall st x = .ok y ∧ y.shape = normShape x.shape ∧
      ∀ idx, InShape s idx → y.get idx = normalised ε γ β μ v (idx.getD axis 0) (x.get idx) := by
  have hd : PerChannel s axis c st.denom fun k => 1 / Real.sqrt (v k + ε) := by
    rw [h.denom]; exact h.variance.denom ε
  obtain ⟨a, ha, has, hav⟩ := bcastOp_data (· - ·) hc hx h.mean
  have hg := h.gamma
  have hb := h.beta
  unfold normCall
  cases e1 : st.gamma with
  | none =>
      rw [e1] at hg
      obtain ⟨m, hm, hms, hmv⟩ := bcastOp_data (· * ·) hc has hd
      cases γ with
      | some f => exact hg.elim
      | none =>
      cases e2 : st.beta with
      | none =>
          rw [e2] at hb
          cases β with
          | some f => exact hb.elim
          | none =>
          refine ⟨m, ?_, by rw [hms, hx]; rfl, ?_⟩
          · show (do let d ← bcastOp _ _ _; bcastOp _ d _) = _
            rw [ha]; exact hm
          · intro idx hi
            rw [hmv idx hi, hav idx hi]
            simp only [normalised, Option.getD_none]
            ring
      | some b =>
          rw [e2] at hb
          cases β with
          | none => exact hb.elim
          | some f =>
          obtain ⟨r, hr, hrs, hrv⟩ := bcastOp_data (· + ·) hc hms hb
          refine ⟨r, ?_, by rw [hrs, hx]; rfl, ?_⟩
          · show (do let d ← bcastOp _ _ _; let m ← bcastOp _ d _; bcastOp _ m _) = _
            rw [ha]
            show (do let m ← bcastOp _ a _; bcastOp _ m _) = _
            rw [hm]; exact hr
          · intro idx hi
            rw [hrv idx hi, hmv idx hi, hav idx hi]
            simp only [normalised, Option.getD_none, Option.getD_some]
            ring
  | some g =>
      rw [e1] at hg
      cases γ with
      | none => exact hg.elim
      | some f =>
      obtain ⟨m, hm, hms, hmv⟩ := bcastOp_data' (· * ·) hc has hg
      obtain ⟨q, hq, hqs, hqv⟩ := bcastOp_data (· * ·) hc hms hd
      cases e2 : st.beta with
      | none =>
          rw [e2] at hb
          cases β with
          | some f => exact hb.elim
          | none =>
          refine ⟨q, ?_, by rw [hqs, hx]; rfl, ?_⟩
          · show (do let d ← bcastOp _ _ _; let m ← bcastOp _ _ d; bcastOp _ m _) = _
            rw [ha]
            show (do let m ← bcastOp _ _ a; bcastOp _ m _) = _
            rw [hm]; exact hq
          · intro idx hi
            rw [hqv idx hi, hmv idx hi, hav idx hi]
            simp only [normalised, Option.getD_none, Option.getD_some]
            ring
      | some b =>
          rw [e2] at hb
          cases β with
          | none => exact hb.elim
          | some f' =>
          obtain ⟨r, hr, hrs, hrv⟩ := bcastOp_data (· + ·) hc hqs hb
          refine ⟨r, ?_, by rw [hrs, hx]; rfl, ?_⟩
          · show (do let d ← bcastOp _ _ _; let m ← bcastOp _ _ d; let m ← bcastOp _ m _; bcastOp _ m _) = _
            rw [ha]
            show (do let m ← bcastOp _ _ a; let m ← bcastOp _ m _; bcastOp _ m _) = _
            rw [hm]
            show (do let m ← bcastOp _ m _; bcastOp _ m _) = _
            rw [hq]; exact hr
          · intro idx hi
            rw [hrv idx hi, hqv idx hi, hmv idx hi, hav idx hi]
            simp only [normalised, Option.getD_some]
            ring

/-! ## Building and setting the weights -/

/-- An initialiser gives a tensor of the shape it is asked for. -/
def Initialises (i : List ℕ → Ten ℝ) : Prop := ∀ s, (i s).shape = s

theorem normParam_channels {s : List ℕ} {axis c : ℕ} (hc : Channels s axis c) :
    normParam axis s = .ok ((List.replicate s.length 1).set axis c) := by
  cases hc <;> rfl

/-- **Building** establishes what `norm_call` needs: the parameters are the values of the initialisers. -/
theorem norm_build {s : List ℕ} {axis c : ℕ} (hc : Channels s axis c) (ε : ℝ) (gamma beta : Option (List ℕ → Ten ℝ))
    (mean variance : List ℕ → Ten ℝ) (hg : ∀ g, gamma = some g → Initialises g) (hb : ∀ b, beta = some b → Initialises b)
    (hm : Initialises mean) (hv : Initialises variance) :
    ∃ st, normBuild axis ε gamma beta mean variance s = .ok st ∧
      st.Holds ε s axis c
        (gamma.map fun g k => (g ((List.replicate s.length 1).set axis c)).get (place s axis k))
        (beta.map fun b k => (b ((List.replicate s.length 1).set axis c)).get (place s axis k))
        (fun k => (mean ((List.replicate s.length 1).set axis c)).get (place s axis k))
        (fun k => (variance ((List.replicate s.length 1).set axis c)).get (place s axis k)) := by
  unfold normBuild
  rw [normParam_channels hc]
  refine ⟨_, rfl, ?_, ?_, ⟨hm _, fun _ _ => rfl⟩, ⟨hv _, fun _ _ => rfl⟩, rfl⟩
  · cases gamma with
    | none => trivial
    | some g => exact ⟨hg g rfl _, fun _ _ => rfl⟩
  · cases beta with
    | none => trivial
    | some b => exact ⟨hb b rfl _, fun _ _ => rfl⟩

/-- The row-major position of a channel's parameter is the channel. -/
theorem flat_place {s : List ℕ} {axis c : ℕ} (hc : Channels s axis c) (k : ℕ) :
    flat ((List.replicate s.length 1).set axis c) (place s axis k) = k := by
  cases hc <;> simp [place, flat]

/-- A tensor with `c` entries becomes one parameter per channel, in row-major order. -/
theorem place_ok {s : List ℕ} {axis c : ℕ} (hc : Channels s axis c) (t : Ten ℝ) (ht : t.shape.prod = c) :
    ∃ r, Tensor.reshape t ((List.replicate s.length 1).set axis c) = some r ∧
      PerChannel s axis c r fun k => t.get (unflat t.shape k) := by
  have : ((List.replicate s.length 1).set axis c).prod = t.shape.prod := by
    rw [ht]; cases hc <;> simp
  refine ⟨_, reshape_some t _ this, rfl, fun k _ => ?_⟩
  show t.get (unflat t.shape (flat _ _)) = _
  rw [flat_place hc]

/-- The `k`-th entry of a tensor in row-major order. -/
def nth (t : Ten ℝ) (k : ℕ) : ℝ := t.get (unflat t.shape k)

/-- The list given to `set_weights`: the parameters the layer has, in the order of `build`, and possibly
more. -/
def given (g b : Option (Ten ℝ)) (m v : Ten ℝ) (more : List (Ten ℝ)) : List (Ten ℝ) :=
  g.toList ++ (b.toList ++ (m :: v :: more))

/-- **Setting the weights** keeps the layer in order: the new parameters are in place and the denominator
belongs to the new variance. -/
theorem norm_set {st : NormState} {ε : ℝ} {s : List ℕ} {axis c : ℕ} {γ β : Option (ℕ → ℝ)} {μ v : ℕ → ℝ}
    (hc : Channels s axis c) (h : st.Holds ε s axis c γ β μ v) (g b : Option (Ten ℝ)) (m w : Ten ℝ)
    (more : List (Ten ℝ)) (hg : g.isSome = γ.isSome) (hb : b.isSome = β.isSome)
    (hgs : ∀ t, g = some t → t.shape.prod = c) (hbs : ∀ t, b = some t → t.shape.prod = c)
    (hms : m.shape.prod = c) (hws : w.shape.prod = c) :
    ∃ st', normSet ε st (given g b m w more) = .ok st' ∧
      st'.Holds ε s axis c (g.map nth) (b.map nth) (nth m) (nth w) := by
  obtain ⟨rm, hrm, prm⟩ := place_ok hc m hms
  obtain ⟨rw', hrw, prw⟩ := place_ok hc w hws
  have h1 := h.gamma
  have h2 := h.beta
  have hmean := h.mean.shape
  have hvar := h.variance.shape
  unfold normSet
  cases e1 : st.gamma with
  | none =>
      rw [e1] at h1
      cases γ with
      | some f => exact h1.elim
      | none =>
      obtain rfl : g = none := by cases g <;> simp_all
      cases e2 : st.beta with
      | none =>
          rw [e2] at h2
          cases β with
          | some f => exact h2.elim
          | none =>
          obtain rfl : b = none := by cases b <;> simp_all
          have : placeAll st.weights (given none none m w more) = .ok [rm, rw'] := by
            simp [NormState.weights, given, e1, e2, placeAll, hmean, hvar, hrm, hrw, Except.map]
          rw [this]
          refine ⟨{ gamma := none, beta := none, mean := rm, variance := rw', denom := normDenom ε rw' }, ?_,
            trivial, trivial, prm, prw, rfl⟩
          simp [NormState.put, e1, e2]
      | some tb =>
          rw [e2] at h2
          cases β with
          | none => exact h2.elim
          | some f =>
          cases b with
          | none => simp at hb
          | some b =>
          obtain ⟨rb, hrb, prb⟩ := place_ok hc b (hbs b rfl)
          have htb := h2.shape
          have : placeAll st.weights (given none (some b) m w more) = .ok [rb, rm, rw'] := by
            simp [NormState.weights, given, e1, e2, placeAll, hmean, hvar, htb, hrb, hrm, hrw, Except.map]
          rw [this]
          refine ⟨{ gamma := none, beta := some rb, mean := rm, variance := rw', denom := normDenom ε rw' }, ?_,
            trivial, prb, prm, prw, rfl⟩
          simp [NormState.put, e1, e2]
  | some tg =>
      rw [e1] at h1
      cases γ with
      | none => exact h1.elim
      | some f =>
      cases g with
      | none => simp at hg
      | some g =>
      obtain ⟨rg, hrg, prg⟩ := place_ok hc g (hgs g rfl)
      have htg := h1.shape
      cases e2 : st.beta with
      | none =>
          rw [e2] at h2
          cases β with
          | some f => exact h2.elim
          | none =>
          obtain rfl : b = none := by cases b <;> simp_all
          have : placeAll st.weights (given (some g) none m w more) = .ok [rg, rm, rw'] := by
            simp [NormState.weights, given, e1, e2, placeAll, hmean, hvar, htg, hrg, hrm, hrw, Except.map]
          rw [this]
          refine ⟨{ gamma := some rg, beta := none, mean := rm, variance := rw', denom := normDenom ε rw' }, ?_,
            prg, trivial, prm, prw, rfl⟩
          simp [NormState.put, e1, e2]
      | some tb =>
          rw [e2] at h2
          cases β with
          | none => exact h2.elim
          | some f' =>
          cases b with
          | none => simp at hb
          | some b =>
          obtain ⟨rb, hrb, prb⟩ := place_ok hc b (hbs b rfl)
          have htb := h2.shape
          have : placeAll st.weights (given (some g) (some b) m w more) = .ok [rg, rb, rm, rw'] := by
            simp [NormState.weights, given, e1, e2, placeAll, hmean, hvar, htg, htb, hrg, hrb, hrm, hrw, Except.map]
          rw [this]
          refine ⟨{ gamma := some rg, beta := some rb, mean := rm, variance := rw', denom := normDenom ε rw' }, ?_,
            prg, prb, prm, prw, rfl⟩
          simp [NormState.put, e1, e2]

/-- What the documentation promises of the statistics: if the moving mean and variance are those of the
values of a channel, the normalised values have mean `β` and variance `γ²·v/(v+ε)`. -/
theorem normalised_statistics (ε : ℝ) (γ β : Option (ℕ → ℝ)) (k N : ℕ) (hN : 0 < N) (x : ℕ → ℝ) (μ v : ℕ → ℝ)
    (hμ : μ k = (∑ i ∈ Finset.range N, x i) / N) (hv : v k = (∑ i ∈ Finset.range N, (x i - μ k) ^ 2) / N)
    (hε : 0 < ε) :
    (∑ i ∈ Finset.range N, normalised ε γ β μ v k (x i)) / N = (β.getD fun _ => 0) k ∧
    (∑ i ∈ Finset.range N, (normalised ε γ β μ v k (x i) - (β.getD fun _ => 0) k) ^ 2) / N =
      (γ.getD fun _ => 1) k ^ 2 * (v k / (v k + ε)) := by
  have hN' : (N : ℝ) ≠ 0 := by exact_mod_cast hN.ne'
  have hv0 : 0 ≤ v k := by
    rw [hv]; exact div_nonneg (Finset.sum_nonneg fun i _ => sq_nonneg _) (Nat.cast_nonneg N)
  set S := Real.sqrt (v k + ε) with hS
  have hS2 : S ^ 2 = v k + ε := Real.sq_sqrt (by linarith)
  have hS0 : S ≠ 0 := (Real.sqrt_pos.2 (by linarith)).ne'
  have hz : ∑ i ∈ Finset.range N, (x i - μ k) = 0 := by
    rw [Finset.sum_sub_distrib, Finset.sum_const, Finset.card_range, nsmul_eq_mul, hμ]
    field_simp
    ring
  set G := (γ.getD fun _ => 1) k
  set B := (β.getD fun _ => 0) k
  have e : ∀ i, normalised ε γ β μ v k (x i) = G / S * (x i - μ k) + B := fun i => by
    show G * ((x i - μ k) / S) + B = _
    ring
  constructor
  · simp only [e]
    rw [Finset.sum_add_distrib, ← Finset.mul_sum, hz, Finset.sum_const, Finset.card_range, nsmul_eq_mul]
    field_simp
    ring
  · simp only [e, add_sub_cancel_right, mul_pow]
    rw [← Finset.mul_sum]
    have : ∑ i ∈ Finset.range N, (x i - μ k) ^ 2 = v k * N := by rw [hv]; field_simp
    rw [this, ← hS2, div_pow]
    field_simp

/-! ## Where the layer raises -/

/-- Which data the layer can be built for, whatever the axis: those of `Channels` and no others. -/
theorem norm_build_iff (axis : ℕ) (ha : axis = 1 ∨ axis = 3) (s : List ℕ) :
    (∃ p, normParam axis s = .ok p) ↔ ∃ c, Channels s axis c := by
  constructor
  · rintro ⟨p, hp⟩
    unfold normParam at hp
    rcases ha with rfl | rfl
    · match s, hp with
      | [_, c], _ => exact ⟨c, .matrix _ _⟩
      | [_, c, _, _], _ => exact ⟨c, .first _ _ _ _⟩
    · match s, hp with
      | [_, _, _, c], _ => exact ⟨c, .last _ _ _ _⟩
  · rintro ⟨c, h⟩
    exact ⟨_, normParam_channels h⟩

/-- The constructor takes an axis, or a list that begins with one, exactly if it is 1 or 3. -/
theorem norm_axis_iff (a : ℤ) (l : List ℤ) :
    ((∃ k, normAxis (.num a) = .ok k) ↔ a = 1 ∨ a = 3) ∧ ((∃ k, normAxis (.list (a :: l)) = .ok k) ↔ a = 1 ∨ a = 3) := by
  constructor <;> (simp only [normAxis]; split_ifs <;> simp_all)

/-- The last axis, which is the default of `tf.keras` and the same as 3 for images, is rejected. -/
theorem norm_last_axis_false : normAxis (.num (-1)) = .error .value ∧ normAxis (.list [-1]) = .error .value := ⟨rfl, rfl⟩

/-- Matrices cannot be normalised with the default axis: the channel dimension is looked up at 3. -/
theorem norm_matrix_false (ε : ℝ) (gamma beta : Option (List ℕ → Ten ℝ)) (mean variance : List ℕ → Ten ℝ) (n c : ℕ) :
    normBuild 3 ε gamma beta mean variance [n, c] = .error .index := rfl

/-- "Input shape: Arbitrary": sequences raise, since no parameter shape is assigned. -/
theorem norm_sequence_false (ε : ℝ) (gamma beta : Option (List ℕ → Ten ℝ)) (mean variance : List ℕ → Ten ℝ)
    (n t c : ℕ) : normBuild 1 ε gamma beta mean variance [n, t, c] = .error .unbound := rfl

/-- A model with this layer cannot be trained. -/
theorem norm_train_false (st : NormState) (d : Ten ℝ) : normBackward st d = .error .notImplemented := rfl

/-- The layer is built, its weights are set, and it is applied: two channels, with `γ` and without `β`. -/
example : ∃ st st' y, normBuild 1 (1 / 4) (some fun s => ⟨s, fun _ => 1⟩) none (fun s => ⟨s, fun _ => 0⟩)
      (fun s => ⟨s, fun _ => 1⟩) [1, 2] = .ok st ∧
    normSet (1 / 4) st (given (some ⟨[2], fun i => (i.getD 0 0 : ℝ) + 3⟩) none ⟨[2], fun _ => 5⟩ ⟨[2], fun _ => 3 / 4⟩ [])
      = .ok st' ∧
    normCall st' ⟨[1, 2], fun _ => 7⟩ = .ok y ∧ y.get [0, 1] = 8 := by
  have hc : Channels [1, 2] 1 2 := .matrix 1 2
  obtain ⟨st, h1, h2⟩ := norm_build hc (1 / 4) (some fun s => ⟨s, fun _ => 1⟩) none (fun s => ⟨s, fun _ => 0⟩)
    (fun s => ⟨s, fun _ => 1⟩) (by rintro g ⟨⟩ s; rfl) (by simp) (fun _ => rfl) (fun _ => rfl)
  obtain ⟨st', h3, h4⟩ := norm_set hc h2 (some ⟨[2], fun i => (i.getD 0 0 : ℝ) + 3⟩) none ⟨[2], fun _ => 5⟩
    ⟨[2], fun _ => 3 / 4⟩ [] rfl rfl (by rintro t ⟨⟩; rfl) (by simp) rfl rfl
  obtain ⟨y, h5, _, h6⟩ := norm_call hc h4 ⟨[1, 2], fun _ => 7⟩ rfl
  refine ⟨st, st', y, h1, h3, h5, ?_⟩
  rw [h6 [0, 1] ⟨by decide, by decide, trivial⟩]
  simp [normalised, nth, unflat]
  norm_num

end Verif.Keras
