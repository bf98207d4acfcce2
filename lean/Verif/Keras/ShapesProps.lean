import Verif.Keras.Shapes
import Verif.Keras.ConvProps

/-!
# `Reshape` and `Flatten` deliver the shapes they declare
-/

namespace Verif.Keras

open Verif.Tensor

variable {α : Type}

/-! ## The loop -/

/-- No dimension is negative. -/
def Known (ds : List ℤ) : Prop := ∀ d ∈ ds, 0 ≤ d

/-- The number of entries that known dimensions make. -/
def size (ds : List ℤ) : ℕ := (ds.map Int.toNat).prod

theorem scan_step (d : ℤ) (ds : List ℤ) (i known : ℕ) (u : Option ℕ) (h : ¬ d < 0) :
    scanDims (d :: ds) i known u = scanDims ds (i + 1) (known * d.toNat) u := by
  rw [scanDims.eq_def]
  simp only [if_neg h]

theorem scan_first (d : ℤ) (ds : List ℤ) (i known : ℕ) (h : d < 0) :
    scanDims (d :: ds) i known none = scanDims ds (i + 1) known (some i) := by
  rw [scanDims.eq_def]
  simp only [if_pos h]

theorem scan_second (d : ℤ) (ds : List ℤ) (i known j : ℕ) (h : d < 0) :
    scanDims (d :: ds) i known (some j) = .error .twoUnknown := by
  rw [scanDims.eq_def]
  simp only [if_pos h]

theorem scan_known : ∀ (ds : List ℤ) (i known : ℕ) (u : Option ℕ), Known ds →
    scanDims ds i known u = .ok (known * size ds, u)
  | [], _, known, u, _ => by simp [scanDims, size]
  | d :: ds, i, known, u, h => by
      have hd : ¬ d < 0 := not_lt.2 (h d List.mem_cons_self)
      rw [scan_step _ _ _ _ _ hd, scan_known ds _ _ _ fun e he => h e (List.mem_cons_of_mem _ he)]
      simp [size, mul_assoc]

theorem scan_append : ∀ (pre ds : List ℤ) (i known : ℕ) (u : Option ℕ), Known pre →
    scanDims (pre ++ ds) i known u = scanDims ds (i + pre.length) (known * size pre) u
  | [], _, _, known, _, _ => by simp [size]
  | d :: pre, ds, i, known, u, h => by
      have hd : ¬ d < 0 := not_lt.2 (h d List.mem_cons_self)
      rw [List.cons_append, scan_step _ _ _ _ _ hd, scan_append pre ds _ _ _ fun e he => h e (List.mem_cons_of_mem _ he)]
      simp only [size, List.map_cons, List.prod_cons, List.length_cons, mul_assoc]
      congr 1
      omega

/-- Every list of dimensions has no unknown one, one, or more. -/
theorem dims_cases (ds : List ℤ) : Known ds ∨ ∃ pre d post, ds = pre ++ d :: post ∧ Known pre ∧ d < 0 ∧
    (Known post ∨ ∃ mid e rest, post = mid ++ e :: rest ∧ Known mid ∧ e < 0) := by
  have first : ∀ ds : List ℤ, Known ds ∨ ∃ pre d post, ds = pre ++ d :: post ∧ Known pre ∧ d < 0 := by
    intro ds
    induction ds with
    | nil => exact .inl fun d hd => by simp at hd
    | cons a ds ih =>
        by_cases ha : a < 0
        · exact .inr ⟨[], a, ds, rfl, fun d hd => by simp at hd, ha⟩
        · rcases ih with ih | ⟨pre, d, post, rfl, hp, hd⟩
          · exact .inl fun d hd => by
              rcases List.mem_cons.1 hd with rfl | h
              · omega
              · exact ih d h
          · exact .inr ⟨a :: pre, d, post, rfl, fun d hd => by
              rcases List.mem_cons.1 hd with rfl | h
              · omega
              · exact hp d h, hd⟩
  rcases first ds with h | ⟨pre, d, post, rfl, hp, hd⟩
  · exact .inl h
  · exact .inr ⟨pre, d, post, rfl, hp, hd, first post⟩

theorem known_filter {ds : List ℤ} (h : Known ds) : ds.filter (· ≠ -1) = ds :=
  List.filter_eq_self.2 fun d hd => by have := h d hd; simp; omega

theorem known_count {ds : List ℤ} (h : Known ds) : ds.count (-1) = 0 :=
  List.count_eq_zero.2 fun hm => by have := h _ hm; omega

theorem known_any {ds : List ℤ} (h : Known ds) : ds.any (· < -1) = false := by
  simp only [List.any_eq_false, decide_eq_true_eq]
  intro d hd; have := h d hd; omega

theorem known_map {ds : List ℤ} (h : Known ds) (m : ℕ) :
    (ds.map fun d => if d = -1 then m else d.toNat) = ds.map Int.toNat :=
  List.map_congr_left fun d hd => by have := h d hd; rw [if_neg (by omega)]

/-- `tf.reshape` without an unknown dimension. -/
theorem infer_known {ds : List ℤ} (h : Known ds) (total : ℕ) :
    inferShape total ds = if size ds = total then some (ds.map Int.toNat) else none := by
  unfold inferShape
  rw [known_any h, if_neg (by simp), if_pos (known_count h)]
  rfl

/-- `tf.reshape` with one unknown dimension. -/
theorem infer_unknown {pre post : List ℤ} (hp : Known pre) (hq : Known post) (total : ℕ) :
    inferShape total (pre ++ -1 :: post) =
      if size pre * size post = 0 ∨ total % (size pre * size post) ≠ 0 then none
      else some (pre.map Int.toNat ++ total / (size pre * size post) :: post.map Int.toNat) := by
  unfold inferShape
  have h1 : (pre ++ -1 :: post).any (· < -1) = false := by
    rw [List.any_append, List.any_cons, known_any hp, known_any hq]; rfl
  have h2 : (pre ++ -1 :: post).count (-1) = 1 := by
    rw [List.count_append, List.count_cons, known_count hp, known_count hq]; rfl
  have h3 : (((pre ++ -1 :: post).filter (· ≠ -1)).map Int.toNat).prod = size pre * size post := by
    rw [List.filter_append, List.filter_cons, known_filter hp, known_filter hq]
    simp [size]
  rw [h1, if_neg (by simp), if_neg (by rw [h2]; decide), if_pos h2]
  simp only [h3]
  congr 2
  rw [List.map_append, List.map_cons, known_map hp, known_map hq, if_pos rfl]

theorem toNat_cast {ds : List ℤ} (h : Known ds) : (ds.map Int.toNat).map (fun n : ℕ => (n : ℤ)) = ds := by
  rw [List.map_map]
  conv_rhs => rw [← List.map_id ds]
  exact List.map_congr_left fun d hd => Int.toNat_of_nonneg (h d hd)

/-! ## `Reshape` -/

/-- The entries of `y` are those of `x`, sample by sample and in row-major order. -/
def RowMajor (x y : Ten α) : Prop :=
  ∃ b s s', x.shape = b :: s ∧ y.shape = b :: s' ∧ s'.prod = s.prod ∧
    ∀ i idx, i < b → InShape s' idx → y.get (i :: idx) = x.get (i :: unflat s (flat s' idx))

theorem rowMajor_reshape (x : Ten α) (b : ℕ) (s s' : List ℕ) (hx : x.shape = b :: s) (h : s'.prod = s.prod) :
    ∃ y, Tensor.reshape x (b :: s') = some y ∧ y.shape = b :: s' ∧ RowMajor x y := by
  have hp : (b :: s').prod = x.shape.prod := by rw [hx, List.prod_cons, List.prod_cons, h]
  refine ⟨_, reshape_some x _ hp, rfl, b, s, s', hx, rfl, h, fun i idx hi hidx => ?_⟩
  show x.get (unflat x.shape (flat (b :: s') (i :: idx))) = _
  have hf : flat s' idx < s.prod := h ▸ flat_lt s' idx hidx
  rw [hx, flat, unflat, h, div_block _ s.prod _ _ hf, mod_block _ _ _ hf]

/-- **`Reshape` delivers the declared shape**, and keeps every sample's entries in row-major order; and it
raises where the declared shape does. For a batch that is not empty, and a target shape whose only
negative dimension is -1. -/
theorem reshape_shape (b : ℕ) (s : List ℕ) (target : List ℤ) (hb : 0 < b) (ht : ∀ d ∈ target, -1 ≤ d)
    (x : Ten α) (hx : x.shape = b :: s) :
    (∀ out, reshapeShape b s target = .ok out →
      ∃ y, reshapeCall target x = some y ∧ y.shape.map (fun n : ℕ => (n : ℤ)) = out ∧ RowMajor x y) ∧
    (∀ e, reshapeShape b s target = .error e → reshapeCall target x = none) := by
  have hprod : x.shape.prod = b * s.prod := by rw [hx, List.prod_cons]
  have hcall : reshapeCall target x = tfReshape x ((b : ℤ) :: target) := by unfold reshapeCall; rw [hx]
  have hbk : ∀ {ds : List ℤ}, Known ds → Known ((b : ℤ) :: ds) := fun h d hd => by
    rcases List.mem_cons.1 hd with rfl | hd
    · exact Int.natCast_nonneg _
    · exact h d hd
  have hbs : ∀ ds : List ℤ, size ((b : ℤ) :: ds) = b * size ds := fun ds => by simp [size]
  rw [hcall]
  unfold tfReshape reshapeShape fixUnknown
  rw [hprod]
  rcases dims_cases target with h | ⟨pre, d, post, rfl, hp, hd, hq⟩
  · rw [scan_known target 0 1 none h, one_mul, infer_known (hbk h), hbs]
    by_cases e : s.prod = size target
    · simp only [e, ne_eq, not_true_eq_false, if_false, if_true]
      constructor
      · rintro out ⟨⟩
        obtain ⟨y, hy, hys, hr⟩ := rowMajor_reshape x b s (target.map Int.toNat) hx e.symm
        refine ⟨y, ?_, ?_, hr⟩
        · simpa using hy
        · rw [hys, List.map_cons, toNat_cast h]
      · rintro err ⟨⟩
    · have e' : ¬ b * size target = b * s.prod := fun h => e (Nat.eq_of_mul_eq_mul_left hb h).symm
      simp [e, e', Except.map]
  · obtain rfl : d = -1 := by
      have := ht d (by simp); omega
    have hs0 : scanDims (pre ++ -1 :: post) 0 1 none = scanDims post (pre.length + 1) (size pre) (some pre.length) := by
      rw [scan_append _ _ _ _ _ hp, scan_first _ _ _ _ (by decide), one_mul, zero_add]
    rw [hs0]
    rcases hq with hq | ⟨mid, e, rest, rfl, hm, he⟩
    · rw [scan_known _ _ _ _ hq, show (b : ℤ) :: (pre ++ -1 :: post) = ((b : ℤ) :: pre) ++ -1 :: post from rfl,
        infer_unknown (hbk hp) hq, hbs]
      have hmod : b * s.prod % (b * size pre * size post) = b * (s.prod % (size pre * size post)) := by
        rw [mul_assoc, Nat.mul_mod_mul_left]
      have hdiv : b * s.prod / (b * size pre * size post) = s.prod / (size pre * size post) := by
        rw [mul_assoc, Nat.mul_div_mul_left _ _ hb]
      rw [hmod, hdiv]
      by_cases e : size pre * size post = 0 ∨ s.prod % (size pre * size post) ≠ 0
      · have e' : b * size pre * size post = 0 ∨ b * (s.prod % (size pre * size post)) ≠ 0 := by
          rcases e with e | e
          · exact .inl (by rw [mul_assoc, e, mul_zero])
          · exact .inr (Nat.mul_ne_zero hb.ne' e)
        simp only [if_pos e, if_pos e']
        exact ⟨by rintro out ⟨⟩, fun _ _ => rfl⟩
      · have e' : ¬ (b * size pre * size post = 0 ∨ b * (s.prod % (size pre * size post)) ≠ 0) := by
          rintro (h | h)
          · rw [mul_assoc] at h
            exact e (.inl ((Nat.mul_eq_zero.1 h).resolve_left hb.ne'))
          · exact e (.inr fun h' => h (by rw [h', mul_zero]))
        simp only [if_neg e, if_neg e']
        constructor
        · rintro out ⟨⟩
          have hdvd : size pre * size post ∣ s.prod := Nat.dvd_of_mod_eq_zero (by
            by_contra h; exact e (.inr h))
          obtain ⟨y, hy, hys, hr⟩ := rowMajor_reshape x b s
            (pre.map Int.toNat ++ s.prod / (size pre * size post) :: post.map Int.toNat) hx (by
              rw [List.prod_append, List.prod_cons]
              show size pre * (s.prod / (size pre * size post) * size post) = _
              rw [show size pre * (s.prod / (size pre * size post) * size post)
                = s.prod / (size pre * size post) * (size pre * size post) by ring, Nat.div_mul_cancel hdvd])
          refine ⟨y, ?_, ?_, hr⟩
          · simpa using hy
          · rw [hys, List.map_cons, List.map_append, List.map_cons, toNat_cast hp, toNat_cast hq]
            simp
        · rintro err ⟨⟩
    · obtain rfl : e = -1 := by
        have := ht e (by simp); omega
      rw [scan_append _ _ _ _ _ hm, scan_second _ _ _ _ _ (by decide)]
      refine ⟨by rintro out ⟨⟩, fun _ _ => ?_⟩
      have h2 : 2 ≤ ((b : ℤ) :: (pre ++ -1 :: (mid ++ -1 :: rest))).count (-1) := by
        simp only [List.count_cons, List.count_append]
        simp
        omega
      unfold inferShape
      by_cases h1 : ((b : ℤ) :: (pre ++ -1 :: (mid ++ -1 :: rest))).any (· < -1) = true
      · rw [if_pos h1]; rfl
      · rw [if_neg h1, if_neg (by omega), if_neg (by omega)]; rfl

/-- What `Reshape.backward` returns has the shape of the input and the gradient's entries in row-major
order. -/
theorem reshape_back (x d : Ten α) (b : ℕ) (s s' : List ℕ) (hx : x.shape = b :: s) (hd : d.shape = b :: s')
    (h : s'.prod = s.prod) : ∃ y, reshapeBack x d = some y ∧ y.shape = x.shape ∧ RowMajor d y := by
  obtain ⟨y, hy, hys, hr⟩ := rowMajor_reshape d b s' s hd h.symm
  exact ⟨y, by unfold reshapeBack; rw [hx]; exact hy, by rw [hys, hx], hr⟩

/-- An empty batch: a shape with an unknown dimension is declared, and `call` raises, since TensorFlow
cannot infer it. -/
theorem reshape_empty_false (x : Ten α) (hx : x.shape = [0, 6]) :
    reshapeShape 0 [6] [-1, 2] = .ok [0, 3, 2] ∧ reshapeCall [-1, 2] x = none := by
  refine ⟨rfl, ?_⟩
  unfold reshapeCall tfReshape
  rw [hx]
  rfl

/-- Other negative dimensions count as unknown in the declared shape and raise in `call`. -/
theorem reshape_negative_false (x : Ten α) (b : ℕ) (hx : x.shape = [b, 6]) :
    reshapeShape b [6] [-2, 2] = .ok [(b : ℤ), 3, 2] ∧ reshapeCall [-2, 2] x = none := by
  refine ⟨rfl, ?_⟩
  unfold reshapeCall tfReshape inferShape
  rw [hx]
  simp

/-! ## `Flatten` -/

theorem tfReshape_flat (x : Ten α) (b : ℕ) (s : List ℕ) (hb : 0 < b) (hx : x.shape = b :: s) :
    ∃ y, tfReshape x [(b : ℤ), -1] = some y ∧ y.shape = [b, s.prod] ∧ RowMajor x y := by
  obtain ⟨y, hy, hys, hr⟩ := rowMajor_reshape x b s [s.prod] hx (by simp)
  refine ⟨y, ?_, hys, hr⟩
  unfold tfReshape
  have := infer_unknown (pre := [(b : ℤ)]) (post := []) (fun d hd => by simp at hd; omega)
    (fun d hd => by simp at hd) x.shape.prod
  rw [show [(b : ℤ), -1] = [(b : ℤ)] ++ -1 :: [] from rfl, this, hx, List.prod_cons]
  rw [if_neg (by simp [size]; omega)]
  simp only [size, List.map_cons, List.map_nil, List.prod_cons, List.prod_nil, mul_one, Int.toNat_natCast,
    Nat.mul_div_cancel_left _ hb]
  exact hy

/-- **`Flatten` of channels-last data** delivers the declared shape, and keeps every sample in row-major
order. -/
theorem flatten_last (x : Ten α) (b : ℕ) (s : List ℕ) (hb : 0 < b) (hs : ∀ d ∈ s, d ≠ 0) (hx : x.shape = b :: s) :
    ∃ y, flattenCall true x = some y ∧ y.shape = [b, s.prod] ∧ flattenShape x.shape = .ok (b, some s.prod) ∧
      RowMajor x y := by
  have hd : flattenShape x.shape = .ok (b, some s.prod) := by
    rw [hx, flattenShape, if_pos (by simpa using hs)]
  cases s with
  | nil =>
      obtain ⟨y, hy, hys, hr⟩ := rowMajor_reshape x b [] [1] hx (by simp)
      refine ⟨y, ?_, by simpa using hys, hd, hr⟩
      unfold flattenCall
      rw [hx]
      show tfReshape x [(b : ℤ), 1] = _
      unfold tfReshape
      rw [infer_known (ds := [(b : ℤ), 1]) (fun d hd => by simp at hd; omega), hx, if_pos (by simp [size])]
      simpa using hy
  | cons c s =>
      obtain ⟨y, hy, hys, hr⟩ := tfReshape_flat x b (c :: s) hb hx
      refine ⟨y, ?_, hys, hd, hr⟩
      unfold flattenCall
      rw [hx]
      exact hy

/-- **`Flatten` of channels-first images** delivers the declared shape, and the entries are those of the
image with the channels last. -/
theorem flatten_first (x : Ten α) (b c h w : ℕ) (hb : 0 < b) (hc : 0 < c) (hh : 0 < h) (hw : 0 < w)
    (hx : x.shape = [b, c, h, w]) :
    ∃ y, flattenCall false x = some y ∧ y.shape = [b, h * w * c] ∧ flattenShape x.shape = .ok (b, some (c * h * w)) ∧
      ∀ i k p q, i < b → k < c → p < h → q < w → y.get [i, (p * w + q) * c + k] = x.get [i, k, p, q] := by
  obtain ⟨y, hy, hys, b', s, s', e1, e2, _, hr⟩ := tfReshape_flat
    (⟨[b, h, w, c], fun idx => x.get [idx.getD 0 0, idx.getD 3 0, idx.getD 1 0, idx.getD 2 0]⟩ : Ten α)
    b [h, w, c] hb rfl
  refine ⟨y, ?_, by rw [hys]; simp [mul_assoc], ?_, ?_⟩
  · unfold flattenCall
    rw [hx]
    show (Tensor.transpose x [0, 2, 3, 1]).bind _ = _
    rw [transpose_0231 x b c h w hx, Option.bind_some]
    exact hy
  · rw [hx, flattenShape, if_pos (by simp; omega)]
    simp [mul_assoc]
  · intro i k p q hi hk hp hq
    obtain ⟨rfl, rfl⟩ : b = b' ∧ [h, w, c] = s := by simpa using e1
    obtain ⟨-, rfl⟩ : b = b ∧ [[h, w, c].prod] = s' := by rw [hys] at e2; simpa using e2
    have hlt : (p * w + q) * c + k < [h, w, c].prod := by
      have := lt_block (lt_block hp hq) hk
      simpa [mul_assoc] using this
    have hi1 : InShape [[h, w, c].prod] [(p * w + q) * c + k] := ⟨hlt, trivial⟩
    have hi2 : InShape [h, w, c] [p, q, k] := ⟨hp, hq, hk, trivial⟩
    rw [hr i [(p * w + q) * c + k] hi hi1]
    have : flat [[h, w, c].prod] [(p * w + q) * c + k] = flat [h, w, c] [p, q, k] := by
      rw [flat3]; simp [flat]
    rw [this, unflat_flat _ _ hi2]
    rfl

/-- The shape that `Flatten` declares for samples without entries is unknown, and `call` makes them
empty rows. -/
theorem flatten_empty (x : Ten α) (b : ℕ) (hb : 0 < b) (hx : x.shape = [b, 0]) :
    flattenShape x.shape = .ok (b, none) ∧ ∃ y, flattenCall true x = some y ∧ y.shape = [b, 0] := by
  refine ⟨by rw [hx]; rfl, ?_⟩
  obtain ⟨y, hy, hys, _⟩ := tfReshape_flat x b [0] hb hx
  refine ⟨y, ?_, hys⟩
  unfold flattenCall
  rw [hx]
  exact hy

/-- A batch of three samples of twelve entries, with an unknown dimension in the middle. -/
example (x : Ten ℝ) (hx : x.shape = [3, 12]) :
    ∃ y, reshapeCall [2, -1, 3] x = some y ∧ y.shape = [3, 2, 2, 3] ∧ y.get [1, 1, 0, 2] = x.get [1, 8] := by
  obtain ⟨y, hy, hs, b, s, s', e1, e2, _, hr⟩ := (reshape_shape 3 [12] [2, -1, 3] (by decide) (by decide) x hx).1
    [3, 2, 2, 3] rfl
  have hys : y.shape = [3, 2, 2, 3] := by
    have := congrArg (List.map Int.toNat) hs
    simpa [List.map_map, Function.comp_def] using this
  refine ⟨y, hy, hys, ?_⟩
  rw [hx] at e1
  rw [hys] at e2
  obtain ⟨rfl, rfl⟩ : 3 = b ∧ [12] = s := by simpa using e1
  obtain ⟨-, rfl⟩ : 3 = 3 ∧ [2, 2, 3] = s' := by simpa using e2
  have hi : InShape [2, 2, 3] [1, 0, 2] := ⟨by decide, by decide, by decide, trivial⟩
  exact hr 1 [1, 0, 2] (by decide) hi

end Verif.Keras
