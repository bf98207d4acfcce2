import Verif.Aby3.ArgmaxLemmas
import Verif.Aby3.ReduceMaxProps

/-!
# C95: the shapes and entries of `argmax`, for all axes and both output styles
-/

namespace Verif.Aby3.ReduceMax

open Verif.Tensor Verif.Keras

variable {α : Type} [LinearOrder α] {β : Type}

/-! ## Specification -/

/-- Along axis `k`, through the position `idx`, `j` is the last position of the largest entry. -/
def IsLast (x : Ten α) (k : ℕ) (idx : List ℕ) (j : ℕ) : Prop :=
  j < x.shape.getD k 0 ∧ (∀ q < x.shape.getD k 0, x.get (idx.set k q) ≤ x.get (idx.set k j)) ∧
    ∀ q < x.shape.getD k 0, j < q → x.get (idx.set k q) < x.get (idx.set k j)

/-- `z` holds the numbers of the largest entries along axis `k`: the shape is that of `tf.argmax(x, k)`, and every entry
is the position of the largest entry, the last one if there are several. -/
def IsIndex (x : Ten α) (k : ℕ) (z : Ten ℕ) : Prop :=
  z.shape = x.shape.eraseIdx k ∧ ∀ idx, InShape z.shape idx → IsLast x k (idx.insertIdx k 0) (z.get idx)

/-- `z` is one-hot along axis `k`: it has the shape of `x`, and is set exactly at the (last) largest entries. -/
def IsOneHot (x : Ten α) (k : ℕ) (z : Ten Bool) : Prop :=
  z.shape = x.shape ∧ ∀ idx, InShape z.shape idx → (z.get idx = true ↔ IsLast x k idx (idx.getD k 0))

/-! ## Helpers -/

theorem isLast_of {x : Ten α} {k j : ℕ} {idx : List ℕ} (h : LastIn x k idx (List.range (x.shape.getD k 0)) j) :
    IsLast x k idx j :=
  ⟨List.mem_range.1 h.1, fun q hq => (h.2 q (List.mem_range.2 hq)).1, fun q hq => (h.2 q (List.mem_range.2 hq)).2⟩

theorem isLast_unique {x : Ten α} {k i j : ℕ} {idx : List ℕ} (hi : IsLast x k idx i) (hj : IsLast x k idx j) : i = j := by
  rcases lt_trichotomy i j with h | h | h
  · exact absurd (hi.2.2 j hj.1 h) (not_lt.2 (hj.2.1 i hi.1))
  · exact h
  · exact absurd (hj.2.2 i hi.1 h) (not_lt.2 (hi.2.1 j hj.1))

theorem inShape_set_zero : ∀ {s i : List ℕ} {k : ℕ}, InShape s i → k < s.length → InShape (s.set k 1) (i.set k 0)
  | [], _, _, _, h => by simp at h
  | d :: s, [], _, h, _ => h.elim
  | d :: s, q :: i, 0, h, _ => ⟨by omega, h.2⟩
  | d :: s, q :: i, k + 1, h, hk => ⟨h.1, inShape_set_zero h.2 (by simpa using hk)⟩

theorem tile_shape : ∀ {s : List ℕ} {k : ℕ}, k < s.length →
    List.zipWith (· * ·) (List.replicate k 1 ++ s.getD k 0 :: List.replicate (s.length - k - 1) 1)
      (s.take k ++ 1 :: s.drop (k + 1)) = s
  | [], _, h => by simp at h
  | d :: s, 0, _ => by
      simp only [List.replicate_zero, List.nil_append, List.getD_cons_zero, List.take_zero, List.drop_succ_cons,
        List.drop_zero, List.zipWith_cons_cons, mul_one, List.cons.injEq, true_and, List.length_cons, Nat.sub_zero,
        Nat.add_sub_cancel]
      clear * -
      induction s with
      | nil => rfl
      | cons e s ih => simp only [List.length_cons, List.replicate_succ, List.zipWith_cons_cons, one_mul, ih]
  | d :: s, k + 1, h => by
      have := tile_shape (s := s) (k := k) (by simpa using h)
      simp only [List.replicate_succ, List.cons_append, List.take_succ_cons, List.zipWith_cons_cons, one_mul,
        List.getD_cons_succ, List.drop_succ_cons, List.length_cons, List.cons.injEq, true_and]
      rw [show s.length + 1 - (k + 1) - 1 = s.length - k - 1 by omega]
      exact this

theorem flat_ones : ∀ (m : ℕ) (i : List ℕ), flat (List.replicate m 1) (List.zipWith (· % ·) i (List.replicate m 1)) = 0
  | 0, i => by cases i <;> rfl
  | m + 1, [] => by simp [flat, List.replicate_succ]
  | m + 1, a :: i => by
      simp only [List.replicate_succ, List.zipWith_cons_cons, flat, Nat.mod_one, zero_mul, zero_add]
      exact flat_ones m i

theorem tile_read : ∀ {s i : List ℕ} {k : ℕ}, InShape s i → k < s.length →
    flat (List.replicate k 1 ++ s.getD k 0 :: List.replicate (s.length - k - 1) 1)
      (List.zipWith (· % ·) i (List.replicate k 1 ++ s.getD k 0 :: List.replicate (s.length - k - 1) 1)) = i.getD k 0
  | [], _, _, _, h => by simp at h
  | d :: s, [], _, h, _ => h.elim
  | d :: s, q :: i, 0, h, _ => by
      simp only [List.replicate_zero, List.nil_append, List.getD_cons_zero, List.zipWith_cons_cons, flat, flat_ones,
        Nat.mod_eq_of_lt h.1]
      simp
  | d :: s, q :: i, k + 1, h, hk => by
      have := tile_read (s := s) (i := i) (k := k) h.2 (by simpa using hk)
      simp only [List.replicate_succ, List.cons_append, List.zipWith_cons_cons, List.getD_cons_succ, List.length_cons, flat,
        Nat.mod_one, zero_mul, zero_add]
      rw [show s.length + 1 - (k + 1) - 1 = s.length - k - 1 by omega]
      exact this

theorem oneHot_ok {s : List ℕ} {k : ℕ} (hk : k < s.length) (i : ℕ) :
    ∃ t, oneHot s k (s.getD k 0) i = .ok t ∧ t.shape = s ∧
      ∀ idx, InShape s idx → t.get idx = decide (idx.getD k 0 = i) := by
  have hI : initShape s.length k (s.getD k 0) =
      List.replicate k 1 ++ s.getD k 0 :: List.replicate (s.length - k - 1) 1 := by
    rw [initShape, Int.toNat_natCast, show ((s.length : ℤ) - k - 1).toNat = s.length - k - 1 by omega]
    simp
  have hT : tileShape s k = s.take k ++ 1 :: s.drop (k + 1) := by
    rw [tileShape, pyTake, pyDrop, if_neg (by omega), if_neg (by omega), Int.toNat_natCast,
      show ((k : ℤ) + 1).toNat = k + 1 by omega]
    simp
  have hlI : (List.replicate k 1 ++ s.getD k 0 :: List.replicate (s.length - k - 1) 1).length = s.length := by simp; omega
  have hlT : (s.take k ++ 1 :: s.drop (k + 1)).length = s.length := by simp; omega
  refine ⟨tile ⟨List.replicate k 1 ++ s.getD k 0 :: List.replicate (s.length - k - 1) 1, fun idx =>
      decide ((unflat [s.getD k 0] (flat (List.replicate k 1 ++ s.getD k 0 :: List.replicate (s.length - k - 1) 1) idx)).headD 0 = i)⟩
      (s.take k ++ 1 :: s.drop (k + 1)), ?_, ?_, ?_⟩
  · rw [oneHot, hI, hT, Tensor.reshape, if_pos (by simp)]
    rfl
  · rw [tile]
    simp only [hlI, hlT, max_self, Nat.sub_self, List.replicate_zero, List.nil_append]
    exact tile_shape hk
  · intro idx hi
    rw [tile]
    simp only [hlI, hlT, max_self, Nat.sub_self, List.replicate_zero, List.nil_append, List.drop_zero]
    rw [tile_read hi hk]
    simp [unflat]

theorem mapM_ok {f : ℕ → Except Err β} {g : ℕ → β} : ∀ (l : List ℕ), (∀ i, f i = .ok (g i)) → l.mapM f = .ok (l.map g)
  | [], _ => rfl
  | a :: l, h => by
      rw [List.mapM_cons, h a]
      show (l.mapM f).bind _ = _
      rw [mapM_ok l h]; rfl

theorem mapM_mem {f : ℕ → Except Err β} : ∀ {l : List ℕ} {r : List β}, l.mapM f = .ok r → ∀ b ∈ r, ∃ i, f i = .ok b
  | [], r, h, b, hb => by
      have : r = [] := by simpa using (Except.ok.inj h).symm
      subst this; simp at hb
  | a :: l, r, h, b, hb => by
      rw [List.mapM_cons] at h
      match hf : f a with
      | .error e => rw [hf] at h; exact absurd h (by intro h; cases h)
      | .ok c =>
        rw [hf] at h
        match hm : l.mapM f with
        | .error e =>
          have : (l.mapM f).bind (fun bs => .ok (c :: bs)) = .ok r := h
          rw [hm] at this; cases this
        | .ok cs =>
          have : (l.mapM f).bind (fun bs => .ok (c :: bs)) = .ok r := h
          rw [hm] at this
          have : c :: cs = r := Except.ok.inj this
          subst this
          rcases List.mem_cons.1 hb with rfl | hb
          · exact ⟨a, hf⟩
          · exact mapM_mem hm b hb

theorem zip_slices (x : Ten α) (k : ℕ) (ix : ℕ → Ten β) :
    (split x k).zip ((List.range (x.shape.getD k 0)).map ix) = (List.range (x.shape.getD k 0)).map
      fun j => ((⟨x.shape.set k 1, fun idx => x.get (idx.set k j)⟩ : Ten α), ix j) := by
  rw [split, List.zip_map']

/-- The maximum that the tree returns. -/
theorem tree_max {x mx : Ten α} {k : ℕ} (hk : k < x.shape.length) (hs : mx.shape = x.shape.set k 1)
    (h : ∀ idx, InShape (x.shape.set k 1) idx → ∃ j, LastIn x k idx (List.range (x.shape.getD k 0)) j ∧
      mx.get idx = x.get (idx.set k j)) : IsReduceMax x (some k) true mx := by
  refine isReduceMax_of_lane hk hs fun idx hi => ?_
  obtain ⟨j, hj, hv⟩ := h idx (hs ▸ hi)
  refine ⟨⟨j, (isLast_of hj).1, hv⟩, fun q hq => ?_⟩
  rw [hv]
  exact (isLast_of hj).2.1 q hq

/-- Squeezing the maximum, or not. -/
theorem keep_or_drop {x mx : Ten α} {a : ℤ} {k : ℕ} (keepdims : Bool) (ha : IsAxis x.shape.length a k)
    (h : IsReduceMax x (some k) true mx) : ∃ y, dropUnless keepdims mx a = .ok y ∧
      IsReduceMax x (some k) keepdims y := by
  cases keepdims with
  | true => exact ⟨mx, rfl, h⟩
  | false =>
    refine ⟨_, ?_, drop_axis ha.1 h⟩
    have hs : mx.shape = x.shape.set k 1 := h.1
    show squeezeAt mx a = _
    rw [squeezeAt, hs, List.length_set, (axisOf_of ha).1]
    simp only
    rw [if_pos]
    simp [ha.1]

/-! ## Theorems -/

/-- **C95**, output style "onehot": for an axis counted from the front, the maximum is that of `tf.reduce_max`, and the other
result has the shape of the argument and is set exactly at the last of the largest entries along the axis. -/
theorem argmax_onehot_partial {x : Ten α} {k : ℕ} (keepdims : Bool) (hk : k < x.shape.length)
    (hn : 0 < x.shape.getD k 0) : ∃ y z, maxOneHot x k keepdims = .ok (y, z) ∧
      IsReduceMax x (some k) keepdims y ∧ IsOneHot x k z := by
  have ha : IsAxis x.shape.length (k : ℤ) k := ⟨hk, Or.inl rfl⟩
  choose T hT hTs hTg using fun i => oneHot_ok hk i
  obtain ⟨mx, ax, e, s1, s2, -, g⟩ := argTree_ok (x := x) (k := k) (Z := x.shape) (P := fun a => a = x.shape)
    (code := fun j idx => decide (idx.getD k 0 = j)) (ix := T) rfl rfl
    (by rintro a b rfl rfl; exact ⟨_, bcast_self _, bcast_set⟩) hTs
    (fun j idx hi => by rw [bget_fit _ (by rw [hTs]; exact hi), hTg j idx hi])
    (fun t idx ht hi => ⟨inShape_set_zero hi hk, bget_set ht hi hk⟩)
    _ (List.range (x.shape.getD k 0)) rfl (List.ne_nil_of_length_pos (by simpa using hn)) List.pairwise_lt_range
  have hm : IsReduceMax x (some k) true mx := tree_max hk s1 fun idx hi => by
    obtain ⟨j, h1, h2, -⟩ := g idx hi
    exact ⟨j, h1, h2⟩
  obtain ⟨y, hy, hy'⟩ := keep_or_drop keepdims ha hm
  refine ⟨y, ax, ?_, hy', s2, fun idx hi => ?_⟩
  · rw [maxOneHot, (axisOf_of ha).1]
    simp only
    rw [if_neg (by omega), mapM_ok _ hT]
    show (argTree _).bind _ = _
    rw [zip_slices, e]
    show (dropUnless keepdims mx k).bind _ = _
    rw [hy]; rfl
  · rw [s2] at hi
    obtain ⟨j, h1, -, h3⟩ := g _ (inShape_set_zero hi hk)
    have h4 := h3 idx hi rfl
    rw [bget_fit _ (by rw [s2]; exact hi)] at h4
    have h5 : IsLast x k idx j := by
      have := isLast_of h1
      simpa only [IsLast, List.set_set] using this
    rw [h4, decide_eq_true_eq]
    exact ⟨fun h => h ▸ h5, fun h => isLast_unique h h5⟩

/-- **C95**, output style "normal" (and SecureNN): along any axis with at least two entries, also counted from the end, the second result is what
`tf.argmax` returns, but with the last of several largest entries; it has no axis left over, also with `keepdims`. -/
theorem argmax_index_partial {x : Ten α} {a : ℤ} {k : ℕ} (keepdims : Bool) (ha : IsAxis x.shape.length a k)
    (hn : 2 ≤ x.shape.getD k 0) : ∃ y z, maxIndex x a keepdims = .ok (y, z) ∧
      IsReduceMax x (some k) keepdims y ∧ IsIndex x k z := by
  have hk := ha.1
  have hlen : 0 < (x.shape.set k 1).length := by rw [List.length_set]; omega
  have hself : ∀ idx, InShape (x.shape.set k 1) idx → idx.set k 0 = idx := by
    intro idx hi
    have := (inShape_set_src (j := 0) hi (by omega)).2
    rwa [List.set_set] at this
  obtain ⟨mx, ax, e, s1, -, s2, g⟩ := argTree_ok (x := x) (k := k) (Z := x.shape.set k 1)
    (P := fun a => a = [1] ∨ a = x.shape.set k 1)
    (code := fun j _ => j) (ix := fun i => (⟨[1], fun _ => i⟩ : Ten ℕ)) rfl (Or.inr rfl)
    (by
      rintro a b (rfl | rfl) (rfl | rfl)
      · exact ⟨_, bcast_self _, bcast_one_left hlen⟩
      · exact ⟨_, bcast_one_left hlen, bcast_self _⟩
      · exact ⟨_, bcast_one_right hlen, bcast_self _⟩
      · exact ⟨_, bcast_self _, bcast_self _⟩) (fun _ => Or.inl rfl)
    (fun j idx hi => rfl)
    (fun t idx ht hi => by rw [hself idx hi]; exact ⟨hi, bget_fit _ (by rw [ht]; exact hi)⟩)
    _ (List.range (x.shape.getD k 0)) rfl (List.ne_nil_of_length_pos (by rw [List.length_range]; omega)) List.pairwise_lt_range
  have s2 : ax.shape = x.shape.set k 1 := s2 (by simpa using hn)
  have hm : IsReduceMax x (some k) true mx := tree_max hk s1 fun idx hi => by
    obtain ⟨j, h1, h2, -⟩ := g idx hi
    exact ⟨j, h1, h2⟩
  obtain ⟨y, hy, hy'⟩ := keep_or_drop keepdims ha hm
  refine ⟨y, ⟨ax.shape.eraseIdx k, fun idx => ax.get (idx.insertIdx k 0)⟩, ?_, hy', ?_, fun idx hi => ?_⟩
  · rw [maxIndex, (axisOf_of ha).1]
    simp only
    rw [if_neg (by omega)]
    show (argTree _).bind _ = _
    rw [zip_slices, e]
    show (dropUnless keepdims mx a).bind _ = _
    rw [hy]
    show (squeezeAt ax a).bind _ = _
    rw [squeezeAt, s2, List.length_set, (axisOf_of ha).1]
    simp only
    rw [if_pos (by simp [hk])]
    rfl
  · show ax.shape.eraseIdx k = _
    rw [s2, List.eraseIdx_set_eq]
  · simp only [s2, List.eraseIdx_set_eq] at hi
    have hin := inShape_insert hi hk
    obtain ⟨j, h1, -, h3⟩ := g _ hin
    have h4 := h3 _ hin (hself _ hin)
    rw [bget_fit _ (by rw [s2]; exact hin)] at h4
    simp only
    rw [h4]
    exact isLast_of h1

/-- The two styles on the rows of a matrix of two rows: `[[0, 1, 2], [1, 2, 3]]`. -/
example : (∃ y z, maxOneHot (⟨[2, 3], fun i => (i.sum : ℤ)⟩ : Ten ℤ) 1 false = .ok (y, z) ∧ z.shape = [2, 3]) ∧
    ∃ y z, maxIndex (⟨[2, 3], fun i => (i.sum : ℤ)⟩ : Ten ℤ) (-1) true = .ok (y, z) ∧ y.shape = [2, 1] ∧ z.shape = [2] ∧
      z.get [1] = 2 := by
  constructor
  · obtain ⟨y, z, h1, -, h2, -⟩ := argmax_onehot_partial (x := (⟨[2, 3], fun i => (i.sum : ℤ)⟩ : Ten ℤ)) (k := 1) false
      (by simp) (by simp)
    exact ⟨y, z, h1, h2⟩
  · obtain ⟨y, z, h1, h2, h3, h4⟩ := argmax_index_partial (x := (⟨[2, 3], fun i => (i.sum : ℤ)⟩ : Ten ℤ)) (a := -1) (k := 1) true
      ⟨by simp, by simp⟩ (by simp)
    refine ⟨y, z, h1, h2.1, h3, ?_⟩
    obtain ⟨h5, h6, -⟩ := h4 [1] (by rw [h3]; simp [InShape])
    have := h6 2 (by simp)
    simp at this h5
    omega

theorem select_length {c : Ten Bool} {x y z : Ten β} (h : select c x y = .ok z) : x.shape.length ≤ z.shape.length := by
  rw [select] at h
  match h1 : bcastShape x.shape y.shape with
  | none => rw [h1] at h; cases h
  | some s =>
    rw [h1] at h
    match h2 : bcastShape s c.shape with
    | none =>
      have h : (orValue (bcastShape s c.shape)).bind _ = _ := h
      rw [h2] at h; cases h
    | some t =>
      have h : (orValue (bcastShape s c.shape)).bind (fun s => .ok
        (⟨s, fun idx => if Ten.bget c idx then Ten.bget y idx else Ten.bget x idx⟩ : Ten β)) = .ok z := h
      rw [h2] at h
      have h : (⟨t, _⟩ : Ten β) = z := Except.ok.inj h
      subst h
      have e1 := bcast_length h1
      have e2 := bcast_length h2
      show _ ≤ t.length
      omega

theorem argTree_length (L : ℕ) : ∀ (m : ℕ) (ts : List (Ten α × Ten β)), ts.length = m → (∀ t ∈ ts, L ≤ t.2.shape.length) →
    ∀ p, argTree ts = .ok p → L ≤ p.2.shape.length := by
  intro m
  induction m using Nat.strong_induction_on with
  | _ m ih =>
    intro ts hm hts p hp
    match ts, hm with
    | [], _ => rw [argTree] at hp; cases hp
    | [t], _ =>
      rw [argTree] at hp
      have := Except.ok.inj hp
      subst this
      exact hts t (by simp)
    | a :: b :: r, hm =>
      rw [argTree] at hp
      set l := a :: b :: r with hl
      have hlen : l.length = r.length + 2 := by simp [hl]
      match h1 : argTree (l.take (l.length / 2)) with
      | .error e => rw [h1] at hp; cases hp
      | .ok p1 =>
        rw [h1] at hp
        have hp : (argTree (l.drop (l.length / 2))).bind (fun right => (select (greater p1.1 right.1) right.1 p1.1).bind
          fun mx => (select (greater p1.1 right.1) right.2 p1.2).bind fun ax => .ok (mx, ax)) = .ok p := hp
        match h2 : argTree (l.drop (l.length / 2)) with
        | .error e => rw [h2] at hp; cases hp
        | .ok p2 =>
          rw [h2] at hp
          simp only [Except.bind] at hp
          have g2 := ih _ (by rw [List.length_drop]; omega) _ rfl (fun t ht => hts t (List.mem_of_mem_drop ht)) p2 h2
          split at hp
          · cases hp
          · split at hp
            · cases hp
            · rename_i ax hax
              have := Except.ok.inj hp
              subst this
              exact le_trans g2 (select_length hax)

/-- **C95 fails** for output style "onehot" and every axis counted from the end: whatever is returned has more axes than
the argument (the shape of the constants is computed from the negative number). -/
theorem onehot_negative_false {x : Ten α} {a : ℤ} (keepdims : Bool) (ha : a < 0) {y : Ten α} {z : Ten Bool}
    (h : maxOneHot x a keepdims = .ok (y, z)) : x.shape.length < z.shape.length := by
  rw [maxOneHot] at h
  match hax : axisOf x.shape.length a with
  | none => rw [hax] at h; cases h
  | some k =>
    rw [hax] at h
    simp only at h
    split at h
    · cases h
    · match hi : (List.range (x.shape.getD k 0)).mapM fun i => oneHot x.shape a (x.shape.getD k 0) i with
      | .error e => rw [hi] at h; cases h
      | .ok ix =>
        rw [hi] at h
        have h : (argTree ((split x k).zip ix)).bind (fun p => (dropUnless keepdims p.1 a).bind
          fun m => .ok (m, p.2)) = .ok (y, z) := h
        match ht : argTree ((split x k).zip ix) with
        | .error e => rw [ht] at h; cases h
        | .ok p =>
          rw [ht] at h
          simp only [Except.bind] at h
          have hz : z = p.2 := by
            split at h
            · cases h
            · exact (Prod.ext_iff.1 (Except.ok.inj h)).2.symm
          rw [hz]
          refine argTree_length (x.shape.length + 1) _ _ rfl (fun t ht => ?_) p ht
          obtain ⟨i, hi'⟩ := mapM_mem hi t.2 (List.of_mem_zip (show (t.1, t.2) ∈ _ from ht)).2
          rw [oneHot] at hi'
          match hr : Tensor.reshape (⟨[x.shape.getD k 0], fun idx => decide (idx.headD 0 = i)⟩ : Ten Bool)
              (initShape x.shape.length a (x.shape.getD k 0)) with
          | none => rw [hr] at hi'; cases hi'
          | some u =>
            rw [hr] at hi'
            have hi' : tile u (tileShape x.shape a) = t.2 := Except.ok.inj hi'
            have hu : u.shape = initShape x.shape.length a (x.shape.getD k 0) := by
              rw [Tensor.reshape] at hr
              split at hr
              · rw [← Option.some.inj hr]
              · cases hr
            rw [← hi', tile]
            simp only [List.length_zipWith, List.length_append, List.length_replicate, hu, initShape, List.length_singleton]
            omega

/-- It does return: for a vector of two numbers and axis -1, a matrix. -/
theorem onehot_vector_false : ∃ y z, maxOneHot (⟨[2], fun i => (i.sum : ℤ)⟩ : Ten ℤ) (-1) true = .ok (y, z) ∧ z.shape = [2, 2] := by
  have hax : axisOf ([2] : List ℕ).length (-1) = some 0 := by decide
  have hT : ∀ i, ∃ t, oneHot [2] (-1) 2 i = .ok t ∧ t.shape = [2, 2] := fun i => ⟨_, rfl, rfl⟩
  choose T hT hTs using hT
  have e1 := select_ok (c := greater (⟨[1], fun idx => ((idx.set 0 0).sum : ℤ)⟩ : Ten ℤ) ⟨[1], fun idx => ((idx.set 0 1).sum : ℤ)⟩)
    (x := (⟨[1], fun idx => ((idx.set 0 1).sum : ℤ)⟩ : Ten ℤ)) (y := ⟨[1], fun idx => ((idx.set 0 0).sum : ℤ)⟩) (s := [1]) (z := [1])
    (bcast_self _) (bcast_self _)
  have e2 := select_ok (c := greater (⟨[1], fun idx => ((idx.set 0 0).sum : ℤ)⟩ : Ten ℤ) ⟨[1], fun idx => ((idx.set 0 1).sum : ℤ)⟩)
    (x := T 1) (y := T 0) (s := [2, 2]) (z := [2, 2])
    (by rw [hTs, hTs]; exact bcast_self _) (bcast_one_right (by simp))
  have e0 : ∀ i, argTree [((⟨[1], fun idx => ((idx.set 0 i).sum : ℤ)⟩ : Ten ℤ), T i)] =
      .ok (⟨[1], fun idx => ((idx.set 0 i).sum : ℤ)⟩, T i) := fun i => by rw [argTree]
  have hts : (split (⟨[2], fun i => (i.sum : ℤ)⟩ : Ten ℤ) 0).zip ((List.range 2).map T) =
      [(⟨[1], fun idx => ((idx.set 0 0).sum : ℤ)⟩, T 0), (⟨[1], fun idx => ((idx.set 0 1).sum : ℤ)⟩, T 1)] := rfl
  have e3 := argTree_step (ts := [((⟨[1], fun idx => ((idx.set 0 0).sum : ℤ)⟩ : Ten ℤ), T 0), (⟨[1], fun idx => ((idx.set 0 1).sum : ℤ)⟩, T 1)])
    (p := (⟨[1], fun idx => ((idx.set 0 0).sum : ℤ)⟩, T 0)) (q := (⟨[1], fun idx => ((idx.set 0 1).sum : ℤ)⟩, T 1))
    (by simp)
    (by rw [show List.take _ _ = [((⟨[1], fun idx => ((idx.set 0 0).sum : ℤ)⟩ : Ten ℤ), T 0)] by simp]; exact e0 0)
    (by rw [show List.drop _ _ = [((⟨[1], fun idx => ((idx.set 0 1).sum : ℤ)⟩ : Ten ℤ), T 1)] by simp]; exact e0 1) e1 e2
  rw [← hts] at e3
  have e4 : maxOneHot (⟨[2], fun i => (i.sum : ℤ)⟩ : Ten ℤ) (-1) true =
      argTree ((split (⟨[2], fun i => (i.sum : ℤ)⟩ : Ten ℤ) 0).zip ((List.range 2).map T)) := by
    rw [maxOneHot, hax]
    simp only
    rw [if_neg (by simp)]
    show Except.bind ((List.range 2).mapM fun i => oneHot [2] (-1) 2 i) _ = _
    rw [mapM_ok _ hT]
    show (argTree _).bind _ = _
    rw [e3]; rfl
  exact ⟨_, _, e4.trans e3, rfl⟩

/-- **C95 fails** for output style "normal" (and SecureNN) along an axis of size one of a tensor with more than one axis: whatever is
returned has not the shape of `tf.argmax`, because the constant index of shape `[1]` is returned as it is. -/
theorem index_one_false {x : Ten α} {a : ℤ} {k : ℕ} (keepdims : Bool) (ha : IsAxis x.shape.length a k)
    (hn : x.shape.getD k 0 = 1) (hr : 2 ≤ x.shape.length) {y : Ten α} {z : Ten ℕ}
    (h : maxIndex x a keepdims = .ok (y, z)) : z.shape = [] ∧ z.shape ≠ x.shape.eraseIdx k := by
  have hz : z.shape = [] := by
    rw [maxIndex, (axisOf_of ha).1] at h
    simp only at h
    rw [if_neg (by omega), zip_slices, hn] at h
    rw [show List.range 1 = [0] from rfl, List.map_cons, List.map_nil, argTree] at h
    have h : (dropUnless keepdims (⟨x.shape.set k 1, fun idx => x.get (idx.set k 0)⟩ : Ten α) a).bind (fun m => (squeezeAt (⟨[1], fun _ => 0⟩ : Ten ℕ) a).bind fun z =>
        .ok (m, z)) = .ok (y, z) := h
    simp only [Except.bind] at h
    split at h
    · cases h
    · split at h
      · cases h
      · rename_i u hu
        have he := (Prod.ext_iff.1 (Except.ok.inj h)).2
        simp only at he
        subst he
        rw [squeezeAt] at hu
        split at hu
        · cases hu
        · rename_i q hq
          split at hu
          · rw [← Except.ok.inj hu]
            rw [axisOf] at hq
            split at hq
            · rename_i hh
              have : q = 0 := by
                have := Option.some.inj hq
                rw [← this]
                simp only [List.length_singleton, Nat.cast_one, Int.emod_one, Int.toNat_zero]
              subst this; rfl
            · cases hq
          · cases hu
  refine ⟨hz, fun h => ?_⟩
  have := congrArg List.length (hz.symm.trans h)
  rw [List.length_eraseIdx, if_pos ha.1] at this
  simp at this
  omega

/-- It does return, a single number for three columns. -/
example : ∃ y z, maxIndex (⟨[1, 3], fun i => (i.sum : ℤ)⟩ : Ten ℤ) 0 false = .ok (y, z) ∧ z.shape = [] ∧ y.shape = [3] := by
  refine ⟨⟨[3], fun idx => (((idx.insertIdx 0 0).set 0 0).sum : ℤ)⟩, ⟨[], fun _ => 0⟩, ?_, rfl, rfl⟩
  rw [maxIndex, show axisOf ([1, 3] : List ℕ).length 0 = some 0 by decide]
  simp only
  rw [if_neg (by simp), zip_slices]
  simp only [List.getD_cons_zero]
  rw [show List.range 1 = [0] from rfl, List.map_cons, List.map_nil, argTree]
  rfl

/-- An axis outside the tensor raises `IndexError`, an empty axis `ValueError`. -/
theorem argmax_errors (x : Ten α) (a : ℤ) (keepdims : Bool) :
    ((∀ k, ¬ IsAxis x.shape.length a k) →
      maxOneHot x a keepdims = .error .index ∧ maxIndex x a keepdims = .error .index) ∧
    ∀ k, IsAxis x.shape.length a k → x.shape.getD k 0 = 0 →
      maxOneHot x a keepdims = .error .value ∧ maxIndex x a keepdims = .error .value := by
  refine ⟨fun h => ?_, fun k hk h => ?_⟩
  · rw [maxOneHot, maxIndex, axisOf_none h]
    exact ⟨rfl, rfl⟩
  · rw [maxOneHot, maxIndex, (axisOf_of hk).1]
    simp only [h]
    exact ⟨rfl, rfl⟩

/-- Both cases occur. -/
example : (∀ k, ¬ IsAxis [2, 3].length 2 k) ∧ IsAxis [2, 0].length (-1) 1 ∧ [2, 0].getD 1 0 = 0 := by
  refine ⟨fun k h => ?_, ⟨by simp, by simp⟩, by simp⟩
  obtain ⟨h1, h2⟩ := h
  simp at h1 h2
  omega

end Verif.Aby3.ReduceMax
