import Verif.Aby3.ReduceMaxLemmas

/-!
# C94: `reduce_max` of ABY3 is `tf.reduce_max`, for all arguments

With `method="tree"` every call with something to reduce returns what `tf.reduce_max` returns. With
`method="network"` that holds along an axis of at least two entries; without an axis, and along an axis of
one entry, it fails.
-/

namespace Verif.Aby3.ReduceMax

open Verif.Tensor

variable {α : Type} [LinearOrder α]

/-- The `axis` argument names the axis `ax`, or none. -/
def IsAxisArg (rank : ℕ) : Option ℤ → Option ℕ → Prop
  | none, none => True
  | some a, some k => IsAxis rank a k
  | _, _ => False

/-- How many entries go into one entry of the result. -/
def reduced (s : List ℕ) : Option ℕ → ℕ
  | none => s.prod
  | some k => s.getD k 0

/-- The specification determines the result. -/
theorem isReduceMax_unique {x y z : Ten α} {axis : Option ℕ} {keep : Bool} (hy : IsReduceMax x axis keep y)
    (hz : IsReduceMax x axis keep z) : y.shape = z.shape ∧ ∀ idx, InShape y.shape idx → y.get idx = z.get idx := by
  have hs : y.shape = z.shape := hy.1.trans hz.1.symm
  refine ⟨hs, fun idx hi => ?_⟩
  obtain ⟨⟨s1, f1, e1⟩, g1⟩ := hy.2 idx hi
  obtain ⟨⟨s2, f2, e2⟩, g2⟩ := hz.2 idx (hs ▸ hi)
  exact le_antisymm (e1 ▸ g2 s1 f1) (e2 ▸ g1 s2 f2)

theorem vec_ok (x : Ten α) : orValue (reshapeInfer x []) =
    .ok ⟨[x.shape.prod], fun idx => x.get (unflat x.shape (flat [x.shape.prod] idx))⟩ := by
  have : reshapeInfer x [] = some ⟨[x.shape.prod], fun idx => x.get (unflat x.shape (flat [x.shape.prod] idx))⟩ := by
    rw [reshapeInfer, if_pos (by simp [Nat.mod_one]), reshape]
    simp only [List.prod_nil, Nat.div_one, List.nil_append]
    rw [if_pos (by simp)]
  rw [this]; rfl

/-- **C94**: `reduce_max(x, axis, keepdims)`, of a tensor of any rank and shape, over all axes or along
any one of them (also counted from the end), returns what `tf.reduce_max` returns, whenever there is something to
reduce. -/
theorem reduce_max_tree {x : Ten α} {axis : Option ℤ} {ax : Option ℕ} (keepdims : Bool)
    (ha : IsAxisArg x.shape.length axis ax) (hn : 0 < reduced x.shape ax) :
    ∃ y, reduceMax x axis keepdims .tree = .ok y ∧ IsReduceMax x ax keepdims y := by
  match axis, ax, ha with
  | none, none, _ =>
    rw [reduceMax, treeMax]
    simp only [reduced] at hn
    simp only [vec_ok]
    obtain ⟨m, e, ⟨i, hi, hm⟩, g⟩ := vectorMax_ok x.shape.prod (fun i => x.get (unflat x.shape (flat [x.shape.prod] [i]))) hn
    have hflat : ∀ i, flat [x.shape.prod] [i] = i := fun i => by simp [flat]
    simp only [hflat] at e hm g
    have hmax : ∀ keep idx, (∃ src, Feeds x.shape none keep idx src ∧ m = x.get src) ∧
        ∀ src, Feeds x.shape none keep idx src → x.get src ≤ m := by
      intro keep idx
      refine ⟨⟨_, ⟨inShape_unflat x.shape i hi, trivial⟩, hm⟩, fun src hs => ?_⟩
      have := g _ (flat_lt _ _ hs.1)
      rwa [unflat_flat _ _ hs.1] at this
    have hv : (vectorMax ([x.shape.prod].getD 0 0) fun i => x.get (unflat x.shape (flat [x.shape.prod] [i]))) = .ok m := by
      simp only [hflat, List.getD_cons_zero]; exact e
    cases keepdims with
    | false =>
      refine ⟨⟨[], fun _ => m⟩, ?_, rfl, fun idx _ => hmax false idx⟩
      show (vectorMax _ _).bind _ = _
      rw [hv]; rfl
    | true =>
      refine ⟨⟨List.replicate x.shape.length 1, fun _ => m⟩, ?_, rfl, fun idx _ => hmax true idx⟩
      show (vectorMax _ _).bind _ = _
      rw [hv]
      show orValue (reshape _ _) = _
      rw [reshape, if_pos (by simp)]; rfl
  | some a, some k, ha =>
    rw [reduceMax, treeMax]
    simp only [reduced] at hn
    have hk := ha.1
    simp only [(axisOf_of ha).1]
    rw [if_neg (by omega)]
    obtain ⟨m, e, s, g⟩ := comparisonTree_ok (x.shape.set k 1) _ (split x k) rfl
      (List.ne_nil_of_length_pos (by rw [split, List.length_map, List.length_range]; exact hn))
      (fun t ht => by
        rw [split, List.mem_map] at ht
        obtain ⟨j, -, rfl⟩ := ht; rfl)
    have hm : IsReduceMax x (some k) true m := by
      refine isReduceMax_of_lane hk s fun idx hi => ⟨?_, fun j hj => ?_⟩
      · obtain ⟨t, ht, e⟩ := (g idx).1
        rw [split, List.mem_map] at ht
        obtain ⟨j, hj, rfl⟩ := ht
        exact ⟨j, List.mem_range.1 hj, e⟩
      · exact (g idx).2 _ (List.mem_map.2 ⟨j, List.mem_range.2 hj, rfl⟩)
    rw [e]
    cases keepdims with
    | true => exact ⟨m, rfl, hm⟩
    | false =>
      refine ⟨_, ?_, drop_axis hk hm⟩
      show squeeze m k = _
      rw [squeeze, if_pos]
      rw [s]; simp [hk]

/-- The largest of each row of a tensor with three rows of two numbers, counted from the end. -/
example : ∃ y, reduceMax (⟨[3, 2], fun i => (i.sum : ℤ)⟩ : Ten ℤ) (some (-1)) true .tree = .ok y ∧ y.shape = [3, 1] ∧
    y.get [2, 0] = 3 := by
  obtain ⟨y, h1, h2, h3⟩ := reduce_max_tree (x := (⟨[3, 2], fun i => (i.sum : ℤ)⟩ : Ten ℤ)) (axis := some (-1)) (ax := some 1) true
    (by show IsAxis _ _ _; exact ⟨by simp, by simp⟩) (by simp [reduced])
  refine ⟨y, h1, h2, ?_⟩
  obtain ⟨⟨src, ⟨hs, he⟩, h5⟩, h6⟩ := h3 [2, 0] (by rw [h2]; simp [resultShape, InShape])
  have h7 := h6 [2, 1] ⟨by simp [InShape], by simp⟩
  match src, hs, he with
  | [a, b], hs, he =>
    simp only [InShape] at hs
    simp only [List.set_cons_succ, List.set_cons_zero, List.cons.injEq, and_true] at he
    simp at h5 h7
    omega

/-- **C94**, `method="network"`: along an axis with at least two entries, the result is that of
`tf.reduce_max`. -/
theorem reduce_max_network_partial {x : Ten α} {a : ℤ} {k : ℕ} (keepdims : Bool)
    (ha : IsAxis x.shape.length a k) (hn : 2 ≤ x.shape.getD k 0) :
    ∃ y, reduceMax x (some a) keepdims .network = .ok y ∧ IsReduceMax x (some k) keepdims y := by
  have hk := ha.1
  obtain ⟨y, e, s, g⟩ := sort_ok false hk (axisOf_of ha).2 hn
  have hm : IsReduceMax x (some k) true ⟨y.shape.set k 1, fun idx => y.get (idx.set k 0)⟩ := by
    refine isReduceMax_of_lane hk (by simp only [s]) fun idx hi => ?_
    have hl : idx.length = x.shape.length := by
      have := inShape_len hi
      simpa [s] using this
    have h0 : (idx.set k 0).getD k 0 = 0 := by simp [show k < idx.length by omega]
    simp only
    rw [g (idx.set k 0) (by simpa using hl), h0]
    simp only [List.set_set]
    obtain ⟨h1, h2⟩ := head_sorted ((List.range (x.shape.getD k 0)).map fun j => x.get (idx.set k j)) (x.get (idx.set k 0))
      (List.ne_nil_of_length_pos (by rw [List.length_map, List.length_range]; omega))
    refine ⟨?_, fun j hj => h2 _ (List.mem_map.2 ⟨j, List.mem_range.2 hj, rfl⟩)⟩
    obtain ⟨j, hj, e⟩ := List.mem_map.1 h1
    exact ⟨j, List.mem_range.1 hj, e.symm⟩
  rw [reduceMax, networkMax]
  simp only [e]
  have hg : ∀ keep, gatherFirst y a keep = if keep then .ok ⟨y.shape.set k 1, fun idx => y.get (idx.set k 0)⟩
      else .ok ⟨y.shape.eraseIdx k, fun idx => y.get (idx.insertIdx k 0)⟩ := by
    intro keep
    rw [gatherFirst, s, (axisOf_of ha).1]
    simp only
    rw [if_neg (by omega)]
  cases keepdims with
  | true => exact ⟨_, hg true, hm⟩
  | false =>
    refine ⟨_, hg false, ?_⟩
    have := drop_axis hk hm
    simp only [List.eraseIdx_set_eq] at this
    obtain ⟨h1, h2⟩ := this
    refine ⟨h1, fun idx hi => ?_⟩
    have := h2 idx hi
    simp only at this
    have hi' : idx.length + 1 = x.shape.length := by
      have := inShape_len hi
      simp only [s] at this
      rw [List.length_eraseIdx, if_pos hk] at this
      omega
    have hset : (idx.insertIdx k 0).set k 0 = idx.insertIdx k 0 :=
      (set_eq_insert (by rw [List.length_insertIdx_of_le_length (by omega)]; omega)
        (by rw [List.length_insertIdx_of_le_length (by omega)])).2 (List.eraseIdx_insertIdx_self ..)
    rw [hset] at this
    exact this

/-- Both methods agree where both return. -/
theorem methods_agree {x : Ten α} {a : ℤ} {k : ℕ} (keepdims : Bool) (ha : IsAxis x.shape.length a k)
    (hn : 2 ≤ x.shape.getD k 0) : ∃ y z, reduceMax x (some a) keepdims .tree = .ok y ∧
      reduceMax x (some a) keepdims .network = .ok z ∧ y.shape = z.shape ∧
      ∀ idx, InShape y.shape idx → y.get idx = z.get idx := by
  obtain ⟨y, h1, h2⟩ := reduce_max_tree (axis := some a) (ax := some k) keepdims ha (by simp only [reduced]; omega)
  obtain ⟨z, h3, h4⟩ := reduce_max_network_partial keepdims ha hn
  exact ⟨y, z, h1, h3, isReduceMax_unique h2 h4⟩

/-- The hypotheses hold of the middle axis of a tensor of three axes. -/
example : IsAxis [2, 3, 4].length (-2) 1 ∧ 2 ≤ [2, 3, 4].getD 1 0 := by
  refine ⟨⟨by simp, ?_⟩, by simp⟩
  right; simp

/-- What sorting all the entries gives. -/
theorem sort_vec {x : Ten α} (hn : 2 ≤ x.shape.prod) : ∃ y : Ten α,
    sort (⟨[x.shape.prod], fun idx => x.get (unflat x.shape (flat [x.shape.prod] idx))⟩ : Ten α) 0 false = .ok y ∧
    (∃ src, InShape x.shape src ∧ y.get [0] = x.get src) ∧ ∀ src, InShape x.shape src → x.get src ≤ y.get [0] := by
  obtain ⟨y, e, s, g⟩ := sort_ok (x := (⟨[x.shape.prod], fun idx => x.get (unflat x.shape (flat [x.shape.prod] idx))⟩ : Ten α))
    (a := 0) (k := 0) false (by simp) (by simp) (by simpa using hn)
  refine ⟨y, e, ?_⟩
  have hflat : ∀ i, flat [x.shape.prod] [i] = i := fun i => by simp [flat]
  rw [g [0] (by simp)]
  simp only [List.set_cons_zero, List.getD_cons_zero, hflat]
  obtain ⟨h1, h2⟩ := head_sorted ((List.range x.shape.prod).map fun j => x.get (unflat x.shape j)) (x.get (unflat x.shape 0))
      (List.ne_nil_of_length_pos (by rw [List.length_map, List.length_range]; omega))
  constructor
  · obtain ⟨j, hj, e⟩ := List.mem_map.1 h1
    exact ⟨_, inShape_unflat _ _ (List.mem_range.1 hj), e.symm⟩
  · intro src hs
    exact h2 _ (List.mem_map.2 ⟨flat x.shape src, List.mem_range.2 (flat_lt _ _ hs), by rw [unflat_flat _ _ hs]⟩)

/-- **C94 fails**: `reduce_max(x, method="network")` with default arguments never returns for any tensor with at least two
entries: the result is only assigned when the dimensions are kept. -/
theorem network_all_false {x : Ten α} (hn : 2 ≤ x.shape.prod) :
    reduceMax x none false .network = .error .unboundLocal := by
  obtain ⟨y, e, -⟩ := sort_vec hn
  rw [reduceMax, networkMax]
  simp only [vec_ok]
  show (sort _ 0 false).bind _ = _
  rw [e]; rfl

/-- **C94 fails** with `keepdims=True` over all axes and `method="network"`: the value is the largest entry, but the
result has one axis, whatever the rank of the argument. It is that of `tf.reduce_max` only for vectors. -/
theorem network_keepdims_false {x : Ten α} (hn : 2 ≤ x.shape.prod) :
    ∃ y, reduceMax x none true .network = .ok y ∧ y.shape = [1] ∧
      (∃ src, InShape x.shape src ∧ y.get [0] = x.get src) ∧ (∀ src, InShape x.shape src → x.get src ≤ y.get [0]) ∧
      (IsReduceMax x none true y ↔ x.shape.length = 1) := by
  obtain ⟨y, e, h1, h2⟩ := sort_vec hn
  refine ⟨⟨[1], fun _ => y.get [0]⟩, ?_, rfl, h1, h2, fun h => ?_, fun h => ?_⟩
  · rw [reduceMax, networkMax]
    simp only [vec_ok]
    show (sort _ 0 false).bind _ = _
    rw [e]
    simp only [Except.bind, if_true]
    rw [reshape, if_pos (by simp)]; rfl
  · have := congrArg List.length h.1
    simpa [resultShape] using this.symm
  · refine ⟨by simp [resultShape, h], fun idx hi => ?_⟩
    obtain ⟨src, hs, e⟩ := h1
    exact ⟨⟨src, ⟨hs, trivial⟩, e⟩, fun src hs => h2 src hs.1⟩

/-- The two methods give different shapes for a matrix. -/
example : ∃ y z : Ten ℤ, reduceMax ⟨[2, 2], fun i => (i.sum : ℤ)⟩ none true .network = .ok y ∧
    reduceMax ⟨[2, 2], fun i => (i.sum : ℤ)⟩ none true .tree = .ok z ∧ y.shape = [1] ∧ z.shape = [1, 1] := by
  obtain ⟨y, h1, h2, -⟩ := network_keepdims_false (x := (⟨[2, 2], fun i => (i.sum : ℤ)⟩ : Ten ℤ)) (by simp)
  obtain ⟨z, h3, h4⟩ := reduce_max_tree (x := (⟨[2, 2], fun i => (i.sum : ℤ)⟩ : Ten ℤ)) (axis := none) (ax := none) true trivial
    (by simp [reduced])
  exact ⟨y, z, h1, h3, h2, by rw [h4.1]; rfl⟩

theorem sortRows_small {acc : Bool} {n : ℕ} {s : List ℕ} {g : List ℕ → α} (h : n ≤ 1) :
    sortRows acc (⟨n :: s, g⟩ : Ten α) = .error .value := by
  rw [sortRows]; simp only; rw [if_pos h]

theorem sort_small {x : Ten α} {a : ℤ} {k : ℕ} (acc : Bool) (hk : k < x.shape.length)
    (ha : (a % x.shape.length).toNat = k) (hn : x.shape.getD k 0 ≤ 1) : sort x a acc = .error .value := by
  by_cases h0 : k = 0
  · subst h0
    obtain ⟨s, g⟩ := x
    match s, hk, hn with
    | n :: s, hk, hn =>
      rw [sort]
      simp only [ha]
      rw [if_neg (by simp)]
      simp only [ne_eq, not_true, if_false]
      show (sortRows acc (⟨n :: s, g⟩ : Ten α)).bind _ = _
      rw [sortRows_small (by simpa using hn)]; rfl
  · rw [sort]
    simp only [ha]
    rw [if_neg (by omega), if_pos h0, transpose, if_pos, shape_front hk]
    · show (sortRows acc _).bind _ = _
      rw [sortRows_small hn]; rfl
    · refine ⟨by simp; omega, fun b hb => ?_⟩
      simp at hb ⊢; omega

/-- **C94 fails** for `method="network"` along an axis of size one (the sort cannot be built), where `method="tree"` returns. -/
theorem network_one_false {x : Ten α} {a : ℤ} {k : ℕ} (keepdims : Bool)
    (ha : IsAxis x.shape.length a k) (hn : x.shape.getD k 0 = 1) :
    reduceMax x (some a) keepdims .network = .error .value ∧
    ∃ y, reduceMax x (some a) keepdims .tree = .ok y ∧ IsReduceMax x (some k) keepdims y := by
  refine ⟨?_, reduce_max_tree (axis := some a) (ax := some k) keepdims ha (by simp only [reduced]; omega)⟩
  rw [reduceMax, networkMax]
  simp only [sort_small false ha.1 (axisOf_of ha).2 (by omega)]
  rfl

/-- **C94**: a call with nothing to reduce (where `tf.reduce_max` returns the smallest number of the type), with an axis
outside the tensor or with an unknown method raises and returns nothing. -/
theorem reduce_max_errors (x : Ten α) (axis : Option ℤ) (keepdims : Bool) :
    (∀ ax, IsAxisArg x.shape.length axis ax → reduced x.shape ax = 0 →
      ∀ m, ∃ e, reduceMax x axis keepdims m = .error e) ∧
    (∀ a, axis = some a → (∀ k, ¬ IsAxis x.shape.length a k) → ∀ m, ∃ e, reduceMax x axis keepdims m = .error e) ∧
    ∀ s, reduceMax x axis keepdims (.other s) = .error .notImplemented := by
  refine ⟨fun ax ha hn m => ?_, fun a ha hno m => ?_, fun s => rfl⟩
  · match m with
    | .other s => exact ⟨_, rfl⟩
    | .tree =>
      match axis, ax, ha with
      | none, none, _ =>
        rw [reduceMax, treeMax]
        simp only [reduced] at hn
        simp only [vec_ok]
        refine ⟨.recursion, ?_⟩
        show (vectorMax ([x.shape.prod].getD 0 0) _).bind _ = _
        rw [vectorMax, if_pos (by simpa using hn)]; rfl
      | some a, some k, ha =>
        rw [reduceMax, treeMax]
        simp only [(axisOf_of ha).1]
        exact ⟨.value, if_pos hn⟩
    | .network =>
      match axis, ax, ha with
      | none, none, _ =>
        rw [reduceMax, networkMax]
        simp only [reduced] at hn
        simp only [vec_ok]
        refine ⟨.value, ?_⟩
        show (sort _ 0 false).bind _ = _
        rw [sort_small (k := 0) false (by simp) (by simp) (by simpa using by omega)]; rfl
      | some a, some k, ha =>
        rw [reduceMax, networkMax]
        simp only [sort_small false ha.1 (axisOf_of ha).2 (by simp only [reduced] at hn; omega)]
        exact ⟨_, rfl⟩
  · subst ha
    match m with
    | .other s => exact ⟨_, rfl⟩
    | .tree =>
      rw [reduceMax, treeMax]
      simp only [axisOf_none hno]
      exact ⟨_, rfl⟩
    | .network =>
      rw [reduceMax, networkMax]
      by_cases hr : x.shape.length = 0
      · refine ⟨.value, ?_⟩
        rw [sort]; simp only [hr]; rfl
      · have hk : (a % x.shape.length).toNat < x.shape.length := by
          have h1 := Int.emod_lt_of_pos a (show (0 : ℤ) < x.shape.length by omega)
          have h2 := Int.emod_nonneg a (show (x.shape.length : ℤ) ≠ 0 by omega)
          omega
        by_cases h1 : x.shape.getD (a % x.shape.length).toNat 0 ≤ 1
        · rw [sort_small false hk rfl h1]; exact ⟨_, rfl⟩
        · obtain ⟨y, e, s, -⟩ := sort_ok false hk rfl (by omega)
          rw [e]
          refine ⟨.index, ?_⟩
          show gatherFirst y a keepdims = _
          rw [gatherFirst, s, axisOf_none hno]

/-- All three cases occur. -/
example : (IsAxisArg [2, 0].length (some 1) (some 1) ∧ reduced [2, 0] (some 1) = 0) ∧ ∀ k, ¬ IsAxis [2, 0].length 2 k := by
  refine ⟨⟨by show IsAxis _ _ _; exact ⟨by simp, by simp⟩, by simp [reduced]⟩, fun k h => ?_⟩
  obtain ⟨h1, h2⟩ := h
  simp at h1 h2
  omega

end Verif.Aby3.ReduceMax
