import Verif.Convert.NodesPool

/-!
# Global pooling in converted models (C77)
-/

namespace Verif.Convert

open Verif.Tensor Verif.Keras Onnx

/-! ## What is reduced -/

section
variable {as : List Attr} {s : List ℕ} {red : ℕ → Bool}

theorem reducedShape_iff (hr : ∀ a, reduced as s.length a ↔ red a = true) (t : List ℕ) :
    reducedShape as s t ↔ t = ((List.range s.length).filterMap fun a =>
      if red a then (if intAttr as "keepdims" 1 ≠ 0 then some 1 else none) else some (s.getD a 0)) := by
  constructor
  · rintro ⟨f, hf, rfl⟩
    have : f = red := by funext a; rw [Bool.eq_iff_iff, hf, hr]
    rw [this]
  · rintro rfl
    exact ⟨red, fun a => (hr a).symm, rfl⟩

theorem over_iff (hr : ∀ a, reduced as s.length a ↔ red a = true) (i j : List ℕ) :
    Over as s i j ↔ InShape s j ∧ i = ((List.range s.length).filterMap fun a =>
      if red a then (if intAttr as "keepdims" 1 ≠ 0 then some 0 else none) else some (j.getD a 0)) := by
  constructor
  · rintro ⟨hj, f, hf, rfl⟩
    have : f = red := by funext a; rw [Bool.eq_iff_iff, hf, hr]
    rw [this]
    exact ⟨hj, rfl⟩
  · rintro ⟨hj, rfl⟩
    exact ⟨hj, red, fun a => (hr a).symm, rfl⟩

end

/-- Rows and columns are the last two of four axes. -/
theorem reduced_last {as : List Attr} (h : attr as "axes" = some (.ints [2, 3]) ∨ attr as "axes" = some (.ints [-2, -1])) (a : ℕ) :
    reduced as 4 a ↔ (decide (a = 2 ∨ a = 3)) = true := by
  unfold reduced
  rcases h with h | h <;> rw [h] <;> simp <;> omega

/-- Rows and columns are the middle axes. -/
theorem reduced_mid {as : List Attr} (h : attr as "axes" = some (.ints [1, 2])) (a : ℕ) :
    reduced as 4 a ↔ (decide (a = 1 ∨ a = 2)) = true := by
  unfold reduced
  rw [h]
  simp
  omega

theorem inShape4 {n c h w : ℕ} {j : List ℕ} : InShape [n, c, h, w] j ↔ ∃ b r y x, j = [b, r, y, x] ∧ b < n ∧ r < c ∧ y < h ∧ x < w := by
  constructor
  · intro hj
    match j, hj with
    | [b, r, y, x], ⟨h1, h2, h3, h4, _⟩ => exact ⟨b, r, y, x, rfl, h1, h2, h3, h4⟩
  · rintro ⟨b, r, y, x, rfl, h1, h2, h3, h4⟩
    exact ⟨h1, h2, h3, h4, trivial⟩

/-- The entries that are averaged, in any order. -/
theorem sum_listed (l : List (List ℕ)) (hl : l.Nodup) (h w : ℕ) (g : ℕ → ℕ → List ℕ) (hg : ∀ y x y' x', g y x = g y' x' → y = y' ∧ x = x')
    (hm : ∀ j, j ∈ l ↔ ∃ y x, y < h ∧ x < w ∧ j = g y x) (f : List ℕ → ℝ) :
    (l.map f).sum = ∑ y ∈ Finset.range h, ∑ x ∈ Finset.range w, f (g y x) ∧ l.length = h * w := by
  have hinj : Set.InjOn (fun p : ℕ × ℕ => g p.1 p.2) ((Finset.range h ×ˢ Finset.range w : Finset (ℕ × ℕ)) : Set (ℕ × ℕ)) := by
    rintro ⟨a, b⟩ _ ⟨a', b'⟩ _ e
    obtain ⟨e1, e2⟩ := hg _ _ _ _ e
    simp only at e1 e2
    rw [e1, e2]
  have himg : l.toFinset = (Finset.range h ×ˢ Finset.range w).image fun p : ℕ × ℕ => g p.1 p.2 := by
    ext j
    rw [List.mem_toFinset, hm, Finset.mem_image]
    constructor
    · rintro ⟨y, x, hy, hx, rfl⟩
      exact ⟨(y, x), by simp [hy, hx], rfl⟩
    · rintro ⟨⟨y, x⟩, hp, rfl⟩
      simp only [Finset.mem_product, Finset.mem_range] at hp
      exact ⟨y, x, hp.1, hp.2, rfl⟩
  constructor
  · rw [← List.sum_toFinset f hl, himg, Finset.sum_image hinj, Finset.sum_product]
  · rw [← List.toFinset_card_of_nodup hl, himg, Finset.card_image_of_injOn hinj, Finset.card_product, Finset.card_range, Finset.card_range]

/-! ## Averages -/

/-- What the layer computes: the sum over the two spatial axes, times the constant. -/
theorem globalAvg_first (keep : Bool) (k : ℝ) (x : Ten ℝ) (n c h w : ℕ) (hx : x.shape = [n, c, h, w]) :
    ∃ y, globalAvgCall false keep k x = some y ∧ y.shape = (if keep then [n, c, 1, 1] else [n, c]) ∧
      ∀ b r, b < n → r < c → y.get (if keep then [b, r, 0, 0] else [b, r]) =
        (∑ u ∈ Finset.range h, ∑ v ∈ Finset.range w, x.get [b, r, u, v]) * k := by
  unfold globalAvgCall sumAxis
  rw [show (if false = true then 2 else 3) = 3 from rfl, show (if false = true then 1 else 2) = 2 from rfl, hx, if_pos (by simp)]
  simp only [Option.bind_eq_bind, Option.bind_some, List.eraseIdx_cons_succ, List.eraseIdx_cons_zero, List.eraseIdx_nil]
  rw [if_pos (by simp)]
  simp only [Option.bind_some, List.eraseIdx_cons_succ, List.eraseIdx_cons_zero]
  cases keep with
  | true =>
      rw [show globalOut false true [n, c, h, w] = some [n, c, 1, 1] from rfl, Option.bind_some, reshape_some _ _ (by simp [scale])]
      refine ⟨_, rfl, rfl, ?_⟩
      intro b r hb hr
      have hi : InShape [n, c] [b, r] := ⟨hb, hr, trivial⟩
      rw [if_pos rfl]
      show (scale _ k).get (unflat [n, c] (flat [n, c, 1, 1] [b, r, 0, 0])) = _
      rw [show flat [n, c, 1, 1] [b, r, 0, 0] = flat [n, c] [b, r] by simp [flat], unflat_flat _ _ hi]
      rfl
  | false =>
      rw [show globalOut false false [n, c, h, w] = some [n, c] from rfl, Option.bind_some, reshape_some _ _ (by simp [scale])]
      refine ⟨_, rfl, rfl, ?_⟩
      intro b r hb hr
      have hi : InShape [n, c] [b, r] := ⟨hb, hr, trivial⟩
      rw [if_neg (by simp)]
      show (scale _ k).get (unflat [n, c] (flat [n, c] [b, r])) = _
      rw [unflat_flat _ _ hi]
      rfl

theorem globalAvg_last (keep : Bool) (k : ℝ) (x : Ten ℝ) (n c h w : ℕ) (hx : x.shape = [n, h, w, c]) :
    ∃ y, globalAvgCall true keep k x = some y ∧ y.shape = (if keep then [n, 1, 1, c] else [n, c]) ∧
      ∀ b r, b < n → r < c → y.get (if keep then [b, 0, 0, r] else [b, r]) =
        (∑ u ∈ Finset.range h, ∑ v ∈ Finset.range w, x.get [b, u, v, r]) * k := by
  unfold globalAvgCall sumAxis
  rw [if_pos rfl, if_pos rfl, hx, if_pos (by simp)]
  simp only [Option.bind_eq_bind, Option.bind_some, List.eraseIdx_cons_succ, List.eraseIdx_cons_zero, List.eraseIdx_nil]
  rw [if_pos (by simp)]
  simp only [Option.bind_some, List.eraseIdx_cons_succ, List.eraseIdx_cons_zero]
  cases keep with
  | true =>
      rw [show globalOut true true [n, h, w, c] = some [n, 1, 1, c] from rfl, Option.bind_some, reshape_some _ _ (by simp [scale])]
      refine ⟨_, rfl, rfl, ?_⟩
      intro b r hb hr
      have hi : InShape [n, c] [b, r] := ⟨hb, hr, trivial⟩
      rw [if_pos rfl]
      show (scale _ k).get (unflat [n, c] (flat [n, 1, 1, c] [b, 0, 0, r])) = _
      rw [show flat [n, 1, 1, c] [b, 0, 0, r] = flat [n, c] [b, r] by simp [flat], unflat_flat _ _ hi]
      rfl
  | false =>
      rw [show globalOut true false [n, h, w, c] = some [n, c] from rfl, Option.bind_some, reshape_some _ _ (by simp [scale])]
      refine ⟨_, rfl, rfl, ?_⟩
      intro b r hb hr
      have hi : InShape [n, c] [b, r] := ⟨hb, hr, trivial⟩
      rw [if_neg (by simp)]
      show (scale _ k).get (unflat [n, c] (flat [n, c] [b, r])) = _
      rw [unflat_flat _ _ hi]
      rfl

/-- **GlobalAveragePool.** -/
theorem global_average_node {as : List Attr} {n c h w : ℕ} (hu : (as.map Attr.name).Nodup) (ha : attr as "axes" = none) (hh : 0 < h) (hw : 0 < w)
    (x : Ten ℝ) (hx : x.shape = [n, c, h, w]) :
    ∃ nd y d, globalAvgNode as [.shape [-1, (c : ℤ), (h : ℤ), (w : ℤ)]] = .ok nd ∧ nd.forward [x] = .ok [y] ∧ IsGlobalAveragePool x y ∧
      nd.outShapes = [d] ∧ Declares d y.shape := by
  have hg : globalArgs as true = (false, true) := by unfold globalArgs; rw [attrOf_none hu ha]
  have hhw : ((h : ℤ) * w) ≠ 0 := by positivity
  obtain ⟨y, ey, hys, hyv⟩ := globalAvg_first true (1 / (((h : ℤ) * (w : ℤ) : ℤ) : ℝ)) x n c h w hx
  refine ⟨{ outShapes := [[-1, (c : ℤ), 1, 1]]
            forward := fun xs => do
              let x ← argAt xs 0
              let y ← orShape (globalAvgCall false true (1 / (((h : ℤ) * (w : ℤ) : ℤ) : ℝ)) x)
              .ok [y] }, y, _, ?_, ?_, ⟨n, c, h, w, hx, hys, ?_⟩, rfl, ⟨n, [c, 1, 1], hys, rfl⟩⟩
  · unfold globalAvgNode
    rw [hg]
    show (if (h : ℤ) * w = 0 then _ else _) = _
    rw [if_neg hhw]
    rfl
  · show ((orShape (globalAvgCall false true (1 / (((h : ℤ) * (w : ℤ) : ℤ) : ℝ)) x)).bind _) = _
    rw [ey]
    rfl
  · intro b r hb hr
    have := hyv b r hb hr
    rw [if_pos rfl] at this
    rw [this]
    push_cast
    ring

/-- What the node reads from `axes` and `keepdims`. -/
theorem globalArgs_given {as : List Attr} (hu : (as.map Attr.name).Nodup) {a0 a1 k : ℤ} (d : Bool) (ha : attr as "axes" = some (.ints [a0, a1]))
    (hk : attr as "keepdims" = some (.int k)) : globalArgs as d = (decide (a0 = 1 ∧ a1 = 2), decide (k = 1)) := by
  obtain ⟨a, e1, h1⟩ := attrOf_some hu ha
  obtain ⟨b, e2, h2⟩ := attrOf_some hu hk
  unfold globalArgs
  rw [e1, e2]
  have : a.ints = [a0, a1] := by unfold Attr.ints; rw [h1]
  have hb : b.i = k := by unfold Attr.i; rw [h2]
  simp only [this, hb]

theorem globalArgs_default {as : List Attr} (hu : (as.map Attr.name).Nodup) (d : Bool) (hk : attr as "keepdims" = none) :
    globalArgs as d = (false, d) := by
  unfold globalArgs
  rw [attrOf_none hu hk]
  cases attrOf as "axes" <;> rfl

/-- **ReduceMean** over the last two axes of an image, partial: other axes are not converted correctly. -/
theorem reduce_mean_last_partial {as : List Attr} {n c h w : ℕ} (hu : (as.map Attr.name).Nodup)
    (ha : attr as "axes" = some (.ints [2, 3]) ∨ attr as "axes" = some (.ints [-2, -1]))
    (hk : attr as "keepdims" = none ∨ attr as "keepdims" = some (.int 0) ∨ attr as "keepdims" = some (.int 1)) (hh : 0 < h) (hw : 0 < w)
    (x : Ten ℝ) (hx : x.shape = [n, c, h, w]) :
    ∃ nd y d, globalAvgNode as [.shape [-1, (c : ℤ), (h : ℤ), (w : ℤ)]] = .ok nd ∧ nd.forward [x] = .ok [y] ∧ IsReduceMean as x y ∧
      nd.outShapes = [d] ∧ Declares d y.shape := by
  obtain ⟨keep, hg, hkeep⟩ : ∃ keep, globalArgs as true = (false, keep) ∧ (intAttr as "keepdims" 1 ≠ 0 ↔ keep = true) := by
    have key : ∀ k, attr as "keepdims" = some (.int k) → globalArgs as true = (false, decide (k = 1)) := by
      intro k h
      rcases ha with ha | ha
      · exact globalArgs_given hu true ha h
      · exact globalArgs_given hu true ha h
    unfold intAttr
    rcases hk with hk | hk | hk
    · exact ⟨true, globalArgs_default hu true hk, by rw [hk]; simp⟩
    · exact ⟨false, key 0 hk, by rw [hk]; simp⟩
    · exact ⟨true, key 1 hk, by rw [hk]; simp⟩
  have hhw : ((h : ℤ) * w) ≠ 0 := by positivity
  have hhr : ((h * w : ℕ) : ℝ) ≠ 0 := by positivity
  obtain ⟨y, ey, hys, hyv⟩ := globalAvg_first keep (1 / (((h : ℤ) * (w : ℤ) : ℤ) : ℝ)) x n c h w hx
  refine ⟨{ outShapes := [if keep then [-1, (c : ℤ), 1, 1] else [-1, (c : ℤ)]]
            forward := fun xs => do
              let x ← argAt xs 0
              let y ← orShape (globalAvgCall false keep (1 / (((h : ℤ) * (w : ℤ) : ℤ) : ℝ)) x)
              .ok [y] }, y, _, ?_, ?_, ⟨?_, ?_⟩, rfl, ?_⟩
  · unfold globalAvgNode
    rw [hg]
    show (if (h : ℤ) * w = 0 then _ else _) = _
    rw [if_neg hhw]
    cases keep <;> rfl
  · show ((orShape (globalAvgCall false keep (1 / (((h : ℤ) * (w : ℤ) : ℤ) : ℝ)) x)).bind _) = _
    rw [ey]
    rfl
  · rw [hx, reducedShape_iff (fun a => reduced_last ha a), hys]
    cases keep with
    | true => simp only [hkeep]; rfl
    | false => simp only [hkeep]; rfl
  · intro i hi l hl hm
    rw [hx] at hm
    simp only [over_iff (s := [n, c, h, w]) (fun a => reduced_last ha a)] at hm
    rw [hys] at hi
    obtain ⟨b, r, hb, hr, rfl⟩ : ∃ b r, b < n ∧ r < c ∧ i = if keep then [b, r, 0, 0] else [b, r] := by
      cases keep with
      | true =>
          rw [if_pos rfl] at hi
          obtain ⟨b, r, y, z, rfl, hb, hr, h1, h2⟩ := inShape4.1 hi
          exact ⟨b, r, hb, hr, by rw [if_pos rfl]; congr 3 <;> [omega; (congr 1; omega)]⟩
      | false =>
          rw [if_neg (by simp)] at hi
          match i, hi with
          | [b, r], ⟨hb, hr, _⟩ => exact ⟨b, r, hb, hr, rfl⟩
    have hm' : ∀ j, j ∈ l ↔ ∃ u v, u < h ∧ v < w ∧ j = [b, r, u, v] := by
      intro j
      rw [hm, inShape4]
      constructor
      · rintro ⟨⟨b', r', u, v, rfl, _, _, hu, hv⟩, e⟩
        refine ⟨u, v, hu, hv, ?_⟩
        cases keep with
        | true => simp [hkeep, List.range_succ] at e; simp [e.1, e.2]
        | false => simp [hkeep, List.range_succ] at e; simp [e.1, e.2]
      · rintro ⟨u, v, hu, hv, rfl⟩
        refine ⟨⟨b, r, u, v, rfl, hb, hr, hu, hv⟩, ?_⟩
        cases keep with
        | true => simp [hkeep, List.range_succ]
        | false => simp [hkeep, List.range_succ]
    obtain ⟨e1, e2⟩ := sum_listed l hl h w (fun u v => [b, r, u, v]) (by intro y x y' x' e; simpa using e) hm' x.get
    rw [e1, e2, hyv b r hb hr]
    push_cast at hhr ⊢
    field_simp
  · cases keep with
    | true => exact ⟨n, [c, 1, 1], hys, rfl⟩
    | false => exact ⟨n, [c], hys, rfl⟩

/-- **ReduceMean** over the middle axes, partial: `keepdims` has to be given. -/
theorem reduce_mean_middle_partial {as : List Attr} {n c h w : ℕ} (hu : (as.map Attr.name).Nodup)
    (ha : attr as "axes" = some (.ints [1, 2])) (hk : attr as "keepdims" = some (.int 0) ∨ attr as "keepdims" = some (.int 1))
    (hh : 0 < h) (hw : 0 < w) (x : Ten ℝ) (hx : x.shape = [n, h, w, c]) :
    ∃ nd y d, globalAvgNode as [.shape [-1, (h : ℤ), (w : ℤ), (c : ℤ)]] = .ok nd ∧ nd.forward [x] = .ok [y] ∧ IsReduceMean as x y ∧
      nd.outShapes = [d] ∧ Declares d y.shape := by
  obtain ⟨keep, hg, hkeep⟩ : ∃ keep, globalArgs as true = (true, keep) ∧ (intAttr as "keepdims" 1 ≠ 0 ↔ keep = true) := by
    unfold intAttr
    rcases hk with hk | hk
    · exact ⟨false, globalArgs_given hu true ha hk, by rw [hk]; simp⟩
    · exact ⟨true, globalArgs_given hu true ha hk, by rw [hk]; simp⟩
  have hhw : ((h : ℤ) * w) ≠ 0 := by positivity
  have hhr : ((h * w : ℕ) : ℝ) ≠ 0 := by positivity
  obtain ⟨y, ey, hys, hyv⟩ := globalAvg_last keep (1 / (((h : ℤ) * (w : ℤ) : ℤ) : ℝ)) x n c h w hx
  refine ⟨{ outShapes := [if keep then [-1, 1, 1, (c : ℤ)] else [-1, (c : ℤ)]]
            forward := fun xs => do
              let x ← argAt xs 0
              let y ← orShape (globalAvgCall true keep (1 / (((h : ℤ) * (w : ℤ) : ℤ) : ℝ)) x)
              .ok [y] }, y, _, ?_, ?_, ⟨?_, ?_⟩, rfl, ?_⟩
  · unfold globalAvgNode
    rw [hg]
    show (if (h : ℤ) * w = 0 then _ else _) = _
    rw [if_neg hhw]
    cases keep <;> rfl
  · show ((orShape (globalAvgCall true keep (1 / (((h : ℤ) * (w : ℤ) : ℤ) : ℝ)) x)).bind _) = _
    rw [ey]
    rfl
  · rw [hx, reducedShape_iff (fun a => reduced_mid ha a), hys]
    cases keep with
    | true => simp only [hkeep]; rfl
    | false => simp only [hkeep]; rfl
  · intro i hi l hl hm
    rw [hx] at hm
    simp only [over_iff (s := [n, h, w, c]) (fun a => reduced_mid ha a)] at hm
    rw [hys] at hi
    obtain ⟨b, r, hb, hr, rfl⟩ : ∃ b r, b < n ∧ r < c ∧ i = if keep then [b, 0, 0, r] else [b, r] := by
      cases keep with
      | true =>
          rw [if_pos rfl] at hi
          obtain ⟨b, y, z, r, rfl, hb, h1, h2, hr⟩ := inShape4.1 hi
          obtain rfl : y = 0 := by omega
          obtain rfl : z = 0 := by omega
          exact ⟨b, r, hb, hr, rfl⟩
      | false =>
          rw [if_neg (by simp)] at hi
          match i, hi with
          | [b, r], ⟨hb, hr, _⟩ => exact ⟨b, r, hb, hr, rfl⟩
    have hm' : ∀ j, j ∈ l ↔ ∃ u v, u < h ∧ v < w ∧ j = [b, u, v, r] := by
      intro j
      rw [hm, inShape4]
      constructor
      · rintro ⟨⟨b', u, v, r', rfl, _, hu, hv, _⟩, e⟩
        refine ⟨u, v, hu, hv, ?_⟩
        cases keep with
        | true => simp [hkeep, List.range_succ] at e; simp [e.1, e.2]
        | false => simp [hkeep, List.range_succ] at e; simp [e.1, e.2]
      · rintro ⟨u, v, hu, hv, rfl⟩
        refine ⟨⟨b, u, v, r, rfl, hb, hu, hv, hr⟩, ?_⟩
        cases keep with
        | true => simp [hkeep, List.range_succ]
        | false => simp [hkeep, List.range_succ]
    obtain ⟨e1, e2⟩ := sum_listed l hl h w (fun u v => [b, u, v, r]) (by intro y x y' x' e; simpa using e) hm' x.get
    rw [e1, e2, hyv b r hb hr]
    push_cast at hhr ⊢
    field_simp
  · cases keep with
    | true => exact ⟨n, [1, 1, c], hys, rfl⟩
    | false => exact ⟨n, [c], hys, rfl⟩

/-- Without `keepdims` (which ONNX takes as 1) the axes are not read: the mean over the last two axes is computed instead
of that over the middle ones, whatever the image. -/
theorem reduce_mean_axes_false {as : List Attr} {n p q r : ℕ} (hu : (as.map Attr.name).Nodup)
    (ha : attr as "axes" = some (.ints [1, 2])) (hk : attr as "keepdims" = none) (hp : 1 < p) (hq : 0 < q) (hr : 0 < r) (x : Ten ℝ)
    (hx : x.shape = [n, p, q, r]) :
    ∃ nd y, globalAvgNode as [.shape [-1, (p : ℤ), (q : ℤ), (r : ℤ)]] = .ok nd ∧ nd.forward [x] = .ok [y] ∧ IsGlobalAveragePool x y ∧
      ¬ IsReduceMean as x y := by
  have hqr : ((q : ℤ) * r) ≠ 0 := by positivity
  obtain ⟨y, ey, hys, hyv⟩ := globalAvg_first true (1 / (((q : ℤ) * (r : ℤ) : ℤ) : ℝ)) x n p q r hx
  refine ⟨{ outShapes := [[-1, (p : ℤ), 1, 1]]
            forward := fun xs => do
              let x ← argAt xs 0
              let y ← orShape (globalAvgCall false true (1 / (((q : ℤ) * (r : ℤ) : ℤ) : ℝ)) x)
              .ok [y] }, y, ?_, ?_, ⟨n, p, q, r, hx, hys, ?_⟩, ?_⟩
  · unfold globalAvgNode
    rw [globalArgs_default hu true hk]
    show (if (q : ℤ) * r = 0 then _ else _) = _
    rw [if_neg hqr]
    rfl
  · show ((orShape (globalAvgCall false true (1 / (((q : ℤ) * (r : ℤ) : ℤ) : ℝ)) x)).bind _) = _
    rw [ey]
    rfl
  · intro b c hb hc
    have := hyv b c hb hc
    rw [if_pos rfl] at this
    rw [this]
    push_cast
    ring
  · rintro ⟨h, -⟩
    rw [hx, reducedShape_iff (s := [n, p, q, r]) (fun a => reduced_mid ha a), hys] at h
    simp [List.range_succ, intAttr, hk] at h
    omega

/-! ## Maxima -/

theorem maxUpTo_pixels (f : ℕ → ℝ) (h w : ℕ) (hh : 0 < h) (hw : 0 < w) :
    IsGreatest {v | ∃ y x, y < h ∧ x < w ∧ v = f (y * w + x)} (maxUpTo f (h * w - 1)) := by
  have hp := Nat.mul_pos hh hw
  constructor
  · obtain ⟨q, hq, e⟩ := maxUpTo_mem f (h * w - 1)
    have hq' : q < h * w := by omega
    refine ⟨q / w, q % w, Nat.div_lt_of_lt_mul (by rw [Nat.mul_comm]; exact hq'), Nat.mod_lt _ hw, ?_⟩
    rw [e]
    congr 1
    rw [Nat.mul_comm]
    exact (Nat.div_add_mod q w).symm
  · rintro v ⟨y, x, hy, hx, rfl⟩
    refine le_maxUpTo f _ _ ?_
    have : y * w + x < h * w := by nlinarith
    omega

/-- What the layer computes for images with the channels first: a matrix. -/
theorem globalMax_first (x : Ten ℝ) (n c h w : ℕ) (hx : x.shape = [n, c, h, w]) (hh : 0 < h) (hw : 0 < w) :
    ∃ y, globalMaxCall false x = some y ∧ y.shape = [n, c] ∧
      ∀ b r, b < n → r < c → IsGreatest {v | ∃ u u', u < h ∧ u' < w ∧ v = x.get [b, r, u, u']} (y.get [b, r]) := by
  have hp := Nat.mul_pos hh hw
  refine ⟨⟨[n, c], fun idx => maxUpTo (fun q => x.get (unflat [n, c, h, w] (flat [n, c, h * w] (idx ++ [q])))) (h * w - 1)⟩, ?_, rfl, ?_⟩
  · unfold globalMaxCall
    show (match x.shape with | [n, c, h, w] => _ | _ => none) = _
    rw [hx]
    simp only []
    rw [if_neg (by omega), reshape_some x _ (by rw [hx]; simp)]
    rw [hx]
    rfl
  · intro b r hb hr
    have hg := maxUpTo_pixels (fun q => x.get (unflat [n, c, h, w] (flat [n, c, h * w] [b, r, q]))) h w hh hw
    have hset : {v | ∃ u u', u < h ∧ u' < w ∧ v = x.get [b, r, u, u']} =
        {v | ∃ u u', u < h ∧ u' < w ∧ v = x.get (unflat [n, c, h, w] (flat [n, c, h * w] [b, r, u * w + u']))} := by
      ext v
      refine ⟨?_, ?_⟩ <;>
      · rintro ⟨u, u', hu, hu', rfl⟩
        refine ⟨u, u', hu, hu', ?_⟩
        have hi : InShape [n, c, h, w] [b, r, u, u'] := ⟨hb, hr, hu, hu', trivial⟩
        rw [show flat [n, c, h * w] [b, r, u * w + u'] = flat [n, c, h, w] [b, r, u, u'] by simp [flat], unflat_flat _ _ hi]
    rw [hset]
    exact hg

/-- **ReduceMax** over the last two axes without keeping them, partial. -/
theorem reduce_max_last_partial {as : List Attr} {n c h w : ℕ} (hu : (as.map Attr.name).Nodup)
    (ha : attr as "axes" = some (.ints [2, 3]) ∨ attr as "axes" = some (.ints [-2, -1])) (hk : attr as "keepdims" = some (.int 0))
    (hh : 0 < h) (hw : 0 < w) (x : Ten ℝ) (hx : x.shape = [n, c, h, w]) :
    ∃ nd y d, globalMaxNode as [.shape [-1, (c : ℤ), (h : ℤ), (w : ℤ)]] = .ok nd ∧ nd.forward [x] = .ok [y] ∧ IsReduceMax as x y ∧
      nd.outShapes = [d] ∧ Declares d y.shape := by
  have hg : globalArgs as false = (false, false) := by
    rcases ha with ha | ha
    · exact globalArgs_given hu false ha hk
    · exact globalArgs_given hu false ha hk
  have hk0 : intAttr as "keepdims" 1 = 0 := by unfold intAttr; rw [hk]
  obtain ⟨y, ey, hys, hyv⟩ := globalMax_first x n c h w hx hh hw
  refine ⟨{ outShapes := [[-1, (c : ℤ)]]
            forward := fun xs => do
              let x ← argAt xs 0
              let y ← orShape (globalMaxCall false x)
              .ok [y] }, y, _, ?_, ?_, ⟨?_, ?_⟩, rfl, ⟨n, [c], hys, rfl⟩⟩
  · unfold globalMaxNode
    rw [hg]
    rfl
  · show ((orShape (globalMaxCall false x)).bind _) = _
    rw [ey]
    rfl
  · rw [hx, reducedShape_iff (fun a => reduced_last ha a), hys, hk0]
    rfl
  · intro i hi
    rw [hys] at hi
    match i, hi with
    | [b, r], ⟨hb, hr, _⟩ =>
        convert hyv b r hb hr using 1
        ext v
        simp only [Set.mem_ofPred_eq, hx, over_iff (s := [n, c, h, w]) (fun a => reduced_last ha a), hk0, inShape4]
        constructor
        · rintro ⟨j, ⟨⟨b', r', u, u', rfl, _, _, hu, hu'⟩, e⟩, rfl⟩
          simp [List.range_succ] at e
          exact ⟨u, u', hu, hu', by rw [e.1, e.2]⟩
        · rintro ⟨u, u', hu, hu', rfl⟩
          exact ⟨[b, r, u, u'], ⟨⟨b, r, u, u', rfl, hb, hr, hu, hu'⟩, by simp [List.range_succ]⟩, rfl⟩

/-- **GlobalMaxPool** returns the right numbers in a matrix instead of an image, and so does ReduceMax over rows and columns
if the dimensions are to be kept, which is the default; in the latter case, if `keepdims` is given, the declared shape is
not that of the result. -/
theorem global_max_false {as : List Attr} {n c h w : ℕ} (hu : (as.map Attr.name).Nodup)
    (ha : attr as "axes" = none ∨ attr as "axes" = some (.ints [2, 3]) ∨ attr as "axes" = some (.ints [-2, -1]))
    (hk : attr as "keepdims" = none ∨ attr as "keepdims" = some (.int 1)) (hh : 0 < h) (hw : 0 < w) (x : Ten ℝ) (hx : x.shape = [n, c, h, w]) :
    ∃ nd y d, globalMaxNode as [.shape [-1, (c : ℤ), (h : ℤ), (w : ℤ)]] = .ok nd ∧ nd.forward [x] = .ok [y] ∧ y.shape = [n, c] ∧
      (∀ b r, b < n → r < c → IsGreatest {v | ∃ u u', u < h ∧ u' < w ∧ v = x.get [b, r, u, u']} (y.get [b, r])) ∧
      ¬ IsGlobalMaxPool x y ∧ (attr as "axes" ≠ none → ¬ IsReduceMax as x y) ∧ nd.outShapes = [d] ∧
      (attr as "axes" ≠ none → attr as "keepdims" ≠ none → ¬ Declares d y.shape) := by
  obtain ⟨keep, hg, hkeep⟩ : ∃ keep, globalArgs as false = (false, keep) ∧ (attr as "axes" ≠ none → attr as "keepdims" ≠ none → keep = true) := by
    rcases hk with hk | hk
    · exact ⟨false, globalArgs_default hu false hk, fun _ h => absurd hk h⟩
    · rcases ha with ha | ha | ha
      · exact ⟨false, by unfold globalArgs; rw [attrOf_none hu ha], fun h _ => absurd ha h⟩
      · exact ⟨true, globalArgs_given hu false ha hk, fun _ _ => rfl⟩
      · exact ⟨true, globalArgs_given hu false ha hk, fun _ _ => rfl⟩
  have hk1 : intAttr as "keepdims" 1 ≠ 0 := by unfold intAttr; rcases hk with hk | hk <;> rw [hk] <;> simp
  obtain ⟨y, ey, hys, hyv⟩ := globalMax_first x n c h w hx hh hw
  refine ⟨{ outShapes := [if keep then [-1, (c : ℤ), 1, 1] else [-1, (c : ℤ)]]
            forward := fun xs => do
              let x ← argAt xs 0
              let y ← orShape (globalMaxCall false x)
              .ok [y] }, y, _, ?_, ?_, hys, hyv, ?_, ?_, rfl, ?_⟩
  · unfold globalMaxNode
    rw [hg]
    cases keep <;> rfl
  · show ((orShape (globalMaxCall false x)).bind _) = _
    rw [ey]
    rfl
  · rintro ⟨n', c', h', w', _, hy, _⟩
    rw [hys] at hy
    simp at hy
  · intro hax
    rintro ⟨hrs, -⟩
    have ha' : attr as "axes" = some (.ints [2, 3]) ∨ attr as "axes" = some (.ints [-2, -1]) := by
      rcases ha with ha | ha
      · exact absurd ha hax
      · exact ha
    rw [hx, reducedShape_iff (s := [n, c, h, w]) (fun a => reduced_last ha' a), hys] at hrs
    simp [List.range_succ, hk1] at hrs
  · intro h1 h2
    rw [hkeep h1 h2, hys]
    rintro ⟨b, r, e1, e2⟩
    injection e1 with _ e1
    rw [← e1] at e2
    simp at e2

/-! ## The hypotheses can be met -/

example : ∃ nd y d, avgNode (samplePool 2) [.shape [-1, (3 : ℕ), (4 : ℕ), (5 : ℕ)]] = .ok nd ∧ nd.forward [⟨[2, 3, 4, 5], fun i => (i.sum : ℝ)⟩] = .ok [y] ∧
    IsAveragePool (samplePool 2) ⟨[2, 3, 4, 5], fun i => (i.sum : ℝ)⟩ y ∧ nd.outShapes = [d] ∧ Declares d y.shape :=
  avg_node_partial (samplePool_attrs 2) (by decide) (by decide) (by decide) (by decide) (by decide) (by decide) (by decide) (by decide) _ rfl

example : ConvAttrs (sampleConv [(1 : ℕ), (1 : ℕ), (1 : ℕ), (1 : ℕ)]) 1 1 1 (some ⟨1, 1, 1, 1⟩) := sampleConv_attrs 1 1 1 1

example : ConvAttrs [⟨"dilations", .ints [1, 1]⟩, ⟨"group", .int (3 : ℕ)⟩, ⟨"kernel_shape", .ints [3, 3]⟩, ⟨"strides", .ints [(2 : ℕ), (2 : ℕ)]⟩] (3 : ℕ) 2 2 none := by
  constructor <;> simp [attr]

example : Channels [4, 3, 8, 8] 1 3 := .first 4 3 8 8

end Verif.Convert
