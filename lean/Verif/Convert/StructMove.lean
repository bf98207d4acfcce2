import Verif.Convert.StructProps

/-!
# C78: converted nodes without layers: transposing, inserting and removing axes

See `StructProps.lean`.
-/

namespace Verif.Convert

open Verif.Tensor Verif.Keras Verif.Convert.Onnx

/-! ## Transpose -/

theorem axisOf_cast {r k : ℕ} (h : k < r) : axisOf r (k : ℤ) = some k := axisOf_iff.2 ⟨h, .inl rfl⟩

theorem permuted_ok (s : List ℤ) : ∀ p : List ℕ, (∀ k ∈ p, k < s.length) →
    permuted s (p.map fun k : ℕ => (k : ℤ)) = .ok (p.map fun k => s.getD k 0)
  | [], _ => rfl
  | k :: p, h => by
      rw [List.map_cons, List.map_cons, permuted, axisOf_cast (h k (by simp))]
      show (permuted s _).map _ = _
      rw [permuted_ok s p fun j hj => h j (by simp [hj])]; rfl

theorem range_getD (j : List ℕ) : (List.range j.length).map (fun a => j.getD a 0) = j := by
  apply ext_getD (by simp)
  intro k hk
  rw [List.length_map, List.length_range] at hk
  rw [List.getD_eq_getElem _ _ (by simpa using hk), List.getElem_map, List.getElem_range]

/-- **C78 (Transpose).** With the attribute `perm` the node computes `Transpose`, and declares the right shape. -/
theorem transpose_node_partial (rest : List Attr) (perm : List ℕ) (s : List ℤ) (X : Ten ℝ) (hs : Agrees s X.shape)
    (hp : perm.Perm (List.range X.shape.length)) :
    ∃ nd Y out, transposeNode (⟨"perm", .ints (perm.map fun k : ℕ => (k : ℤ))⟩ :: rest) [.shape s] = .ok nd ∧
      nd.forward [X] = .ok [Y] ∧ IsTranspose (⟨"perm", .ints (perm.map fun k : ℕ => (k : ℤ))⟩ :: rest) X Y ∧
      nd.outShapes = [out] ∧ Agrees out Y.shape := by
  obtain ⟨hl, hk⟩ := agrees_iff.1 hs
  have hlt : ∀ k ∈ perm, k < X.shape.length := fun k h => List.mem_range.1 (hp.mem_iff.1 h)
  have hmem : ∀ k, k < X.shape.length → k ∈ perm := fun k h => hp.mem_iff.2 (List.mem_range.2 h)
  have hlen : perm.length = X.shape.length := by rw [hp.length_eq, List.length_range]
  have e0 : (perm.map fun k : ℕ => (k : ℤ)).map Int.toNat = perm := by
    rw [List.map_map]
    conv_rhs => rw [← List.map_id perm]
    apply List.map_congr_left
    intro k _; simp
  have e1 : Tensor.transpose X perm = some ⟨perm.map fun a => X.shape.getD a 0,
      fun idx => X.get ((List.range X.shape.length).map fun a => idx.getD (perm.idxOf a) 0)⟩ := by
    unfold Tensor.transpose
    rw [if_pos ⟨hlen, fun a ha => hmem a (List.mem_range.1 ha)⟩]
  refine ⟨⟨[perm.map fun k => s.getD k 0], transposeBy (perm.map fun k : ℕ => (k : ℤ))⟩,
    ⟨perm.map fun a => X.shape.getD a 0, fun idx => X.get ((List.range X.shape.length).map fun a => idx.getD (perm.idxOf a) 0)⟩,
    perm.map fun k => s.getD k 0, ?_, ?_, ?_, rfl, ?_⟩
  · show (permuted s (perm.map fun k : ℕ => (k : ℤ))).bind _ = _
    rw [permuted_ok s perm fun k h => by rw [hl]; exact hlt k h]; rfl
  · show (if (perm.map fun k : ℕ => (k : ℤ)).any (· < 0) then _ else (orShape (Tensor.transpose X ((perm.map fun k : ℕ => (k : ℤ)).map Int.toNat))).bind _) = _
    rw [if_neg (by simp), e0, e1]; rfl
  · refine ⟨perm, ?_, hp, rfl, fun j hj => ?_⟩
    · simp [intsAttr, attr]
    · show X.get _ = _
      congr 1
      have hj' := (inShape_iff.1 hj).1
      conv_rhs => rw [← range_getD j, hj']
      apply List.map_congr_left
      intro a ha
      have ha' := hmem a (List.mem_range.1 ha)
      have h1 : perm.idxOf a < perm.length := List.idxOf_lt_length_iff.2 ha'
      rw [List.getD_eq_getElem _ _ (by simpa using h1), List.getElem_map, List.getElem_idxOf h1]
  · rw [agrees_iff]
    refine ⟨by simp, fun k h => ?_⟩
    rw [List.length_map] at h
    rw [List.getD_eq_getElem _ _ (by simpa using h), List.getD_eq_getElem _ _ (by simpa using h), List.getElem_map, List.getElem_map]
    exact hk _ (hlt _ (List.getElem_mem _))

example : [0, 2, 3, 1].Perm (List.range 4) := by decide

/-- Without the attribute, which then means that the axes are reversed, the conversion fails. -/
theorem transpose_default_false (s : List ℤ) : transposeNode [] [.shape s] = .error .index := rfl

/-! ## Unsqueeze -/

theorem insertAt_spec (d : ℤ) : ∀ (s : List ℤ) (i k : ℕ), i ≤ k → k < i + s.length →
    insertAt (k : ℤ) d i s = s.insertIdx (k - i) d
  | [], i, k, h1, h2 => by simp at h2; omega
  | x :: s, i, k, h1, h2 => by
      rw [insertAt]
      by_cases e : i = k
      · subst e
        rw [if_pos rfl, Nat.sub_self, List.insertIdx_zero]
        congr 2
        clear h1 h2
        suffices h : ∀ (s : List ℤ) (j : ℕ), i < j → insertAt (i : ℤ) d j s = s from h s (i + 1) (by omega)
        intro s
        induction s with
        | nil => intro j _; rfl
        | cons y s ih => intro j hj; rw [insertAt, if_neg (by omega), ih _ (by omega)]
      · rw [if_neg (by omega), insertAt_spec d s (i + 1) k (by omega) (by simp at h2; omega),
          show k - i = (k - (i + 1)) + 1 by omega, List.insertIdx_succ_cons]

theorem insertAt_beyond (d a : ℤ) : ∀ (s : List ℤ) (i : ℕ), a < i ∨ (i + s.length : ℤ) ≤ a → insertAt a d i s = s
  | [], _, _ => rfl
  | x :: s, i, h => by
      simp only [List.length_cons] at h
      push_cast at h
      rw [insertAt, if_neg (by omega), insertAt_beyond d a s (i + 1) (by push_cast; omega)]

theorem dropAxes_shift {β : Type} (ks : List ℕ) : ∀ (s : List β) (i : ℕ) (d : β),
    dropAxes ks i s = ((List.range s.length).filter fun k => i + k ∉ ks).map fun k => s.getD k d
  | [], _, _ => rfl
  | x :: s, i, d => by
      rw [dropAxes, List.length_cons, List.range_succ_eq_map, List.filter_cons, List.filter_map, dropAxes_shift ks s (i + 1) d]
      have e : (fun k => decide (i + k ∉ ks)) ∘ Nat.succ = fun k => decide (i + 1 + k ∉ ks) := by
        funext k; simp only [Function.comp]; congr 3; omega
      rw [e]
      by_cases h : i ∈ ks
      · rw [if_pos h]
        simp [h, Function.comp_def]
      · rw [if_neg h]
        simp [h, Function.comp_def]

theorem dropAxes_without (ks s : List ℕ) : dropAxes ks 0 s = without ks s := by
  rw [dropAxes_shift ks s 0 0]; simp [without]

theorem dropAxes_none {β : Type} (k : ℕ) : ∀ (s : List β) (i : ℕ), k < i → dropAxes [k] i s = s
  | [], _, _ => rfl
  | x :: s, i, h => by rw [dropAxes, if_neg (by simp; omega), dropAxes_none k s (i + 1) (by omega)]

theorem dropAxes_insert {β : Type} (d : β) : ∀ (s : List β) (i k : ℕ), i ≤ k → k ≤ i + s.length →
    dropAxes [k] i (s.insertIdx (k - i) d) = s
  | s, i, k, h1, h2 => by
      by_cases e : i = k
      · subst e
        rw [Nat.sub_self, List.insertIdx_zero, dropAxes, if_pos (by simp), dropAxes_none _ _ _ (by omega)]
      · match s, h2 with
        | [], h2 => simp at h2; omega
        | x :: s, h2 =>
          rw [show k - i = (k - (i + 1)) + 1 by omega, List.insertIdx_succ_cons, dropAxes, if_neg (by simp; omega),
            dropAxes_insert d s (i + 1) k (by omega) (by simp at h2; omega)]

theorem prod_insert (s : List ℕ) (k : ℕ) (h : k ≤ s.length) : (s.insertIdx k 1).prod = s.prod := by
  rw [(List.perm_insertIdx 1 s h).prod_eq, List.prod_cons, one_mul]

theorem expandTo_ok (a : ℤ) (k : ℕ) (X : Ten ℝ) (h : IsAxis (X.shape.length + 1) a k) :
    ∃ Y, expandTo a [X] = .ok [Y] ∧ Y.shape = X.shape.insertIdx k 1 ∧ IsUnsqueeze [a] X Y := by
  have hk : k ≤ X.shape.length := by have := h.1; omega
  obtain ⟨Y, e, hs, hS⟩ := reshape_ok X (X.shape.insertIdx k 1) (prod_insert _ _ hk)
  have hl : Y.shape.length = X.shape.length + 1 := by rw [hs, List.length_insertIdx_of_le_length hk]
  refine ⟨Y, ?_, hs, hl, [k], ?_, by simp, ?_, ?_, hS⟩
  · show (orShape ((axisOf (X.shape.length + 1) a).bind _)).bind _ = _
    rw [axisOf_iff.2 h, Option.bind_some, e]; rfl
  · rw [hl]; exact .cons h .nil
  · intro j hj
    rw [List.mem_singleton] at hj
    subst hj
    rw [hs, List.getD_eq_getElem _ _ (by rw [List.length_insertIdx_of_le_length hk]; omega), List.getElem_insertIdx_self]
  · rw [← dropAxes_without, hs]
    have := dropAxes_insert (1 : ℕ) X.shape 0 k (by omega) (by omega)
    simpa using this

/-- **C78 (Unsqueeze).** One new axis, in front of an existing one, is computed and declared. -/
theorem unsqueeze_node_partial (s : List ℤ) (X : Ten ℝ) (hs : Agrees s X.shape) (k : ℕ) (hk : k < X.shape.length) (dims : List ℕ) :
    ∃ nd Y out, expandNode [.shape s, .nums dims [(k : ℤ)]] = .ok nd ∧ nd.forward [X] = .ok [Y] ∧
      IsUnsqueeze [(k : ℤ)] X Y ∧ nd.outShapes = [out] ∧ Agrees out Y.shape := by
  obtain ⟨Y, e, hY, hU⟩ := expandTo_ok k k X ⟨by omega, .inl rfl⟩
  obtain ⟨hl, hd⟩ := agrees_iff.1 hs
  refine ⟨⟨[insertAt k 1 0 s], expandTo k⟩, Y, _, rfl, e, hU, rfl, ?_⟩
  rw [insertAt_spec 1 s 0 k (by omega) (by omega), hY, agrees_iff]
  have h1 : k ≤ s.length := by omega
  have h2 : k ≤ X.shape.length := by omega
  refine ⟨by simp [List.length_insertIdx, h1, h2, hl], fun j hj => ?_⟩
  rw [List.length_insertIdx_of_le_length h2] at hj
  have hj1 : j < (s.insertIdx (k - 0) 1).length := by rw [Nat.sub_zero, List.length_insertIdx_of_le_length h1]; omega
  have hj2 : j < (X.shape.insertIdx k 1).length := by rw [List.length_insertIdx_of_le_length h2]; omega
  rw [List.getD_eq_getElem _ _ hj1, List.getD_eq_getElem _ _ hj2, List.getElem_insertIdx, List.getElem_insertIdx]
  simp only [Nat.sub_zero]
  split_ifs with h3 h4
  · have := hd j (by omega)
    rwa [List.getD_eq_getElem _ _ (by omega), List.getD_eq_getElem _ _ (by omega)] at this
  · right; rfl
  · have := hd (j - 1) (by omega)
    rwa [List.getD_eq_getElem _ _ (by omega), List.getD_eq_getElem _ _ (by omega)] at this

/-- An axis behind the last one, and one that counts from the end, are computed rightly, but the declared shape
lacks the new axis. -/
theorem unsqueeze_declared_false (s : List ℤ) (X : Ten ℝ) (hs : Agrees s X.shape) (a : ℤ) (k : ℕ)
    (h : IsAxis (X.shape.length + 1) a k) (ha : a < 0 ∨ a = X.shape.length) (dims : List ℕ) :
    ∃ nd Y, expandNode [.shape s, .nums dims [a]] = .ok nd ∧ nd.forward [X] = .ok [Y] ∧
      IsUnsqueeze [a] X Y ∧ nd.outShapes = [s] ∧ ¬Agrees s Y.shape := by
  obtain ⟨Y, e, hY, hU⟩ := expandTo_ok a k X h
  obtain ⟨hl, hd⟩ := agrees_iff.1 hs
  refine ⟨⟨[insertAt a 1 0 s], expandTo a⟩, Y, rfl, e, hU, ?_, ?_⟩
  · show [insertAt a 1 0 s] = [s]
    rw [insertAt_beyond 1 a s 0 (by rw [hl]; push_cast; omega)]
  · intro hag
    have := (agrees_iff.1 hag).1
    have := hU.1
    simp at this
    omega

example : ∃ k, IsAxis ((⟨[4, 3], fun _ => 0⟩ : Ten ℝ).shape.length + 1) (-1) k := ⟨2, by decide, by decide⟩

/-- Several new axes raise when the graph is converted. -/
theorem unsqueeze_axes_false (s : List ℤ) (a b : ℤ) (l : List ℤ) (dims : List ℕ) :
    expandNode [.shape s, .nums dims (a :: b :: l)] = .error .value := rfl

/-- So does the form, before opset 13, with the axes as an attribute. -/
theorem unsqueeze_attribute_false (s : List ℤ) : expandNode [.shape s] = .error .index := rfl

/-! ## Squeeze -/

theorem prod_dropAxes (ks : List ℕ) : ∀ (s : List ℕ) (i : ℕ), (∀ k ∈ ks, i ≤ k → k < i + s.length → s.getD (k - i) 0 = 1) →
    (dropAxes ks i s).prod = s.prod
  | [], _, _ => rfl
  | d :: s, i, h => by
      have ih := prod_dropAxes ks s (i + 1) fun k hk h1 h2 => by
        have := h k hk (by omega) (by simp; omega)
        rwa [show k - i = (k - (i + 1)) + 1 by omega, List.getD_cons_succ] at this
      rw [dropAxes]
      split_ifs with hi
      · have := h i hi le_rfl (by simp)
        rw [Nat.sub_self, List.getD_cons_zero] at this
        rw [ih, List.prod_cons, this, one_mul]
      · rw [List.prod_cons, List.prod_cons, ih]

theorem squeezeAxes_some (s : List ℕ) : ∀ ks : List ℕ, (∀ k ∈ ks, k < s.length ∧ s.getD k 0 = 1) →
    squeezeAxes s (some (ks.map fun k : ℕ => (k : ℤ))) = some ks
  | [], _ => rfl
  | k :: ks, h => by
      have ih := squeezeAxes_some s ks fun j hj => h j (by simp [hj])
      have e : ∀ l, squeezeAxes s (some l) = l.mapM fun a => (axisOf s.length a).bind fun k => if s.getD k 0 = 1 then some k else none :=
        fun _ => rfl
      rw [e] at ih ⊢
      rw [List.map_cons, List.mapM_cons, ih, axisOf_cast (h k (by simp)).1, Option.bind_some, if_pos (h k (by simp)).2]
      rfl

theorem squeezeDecl_agrees (ks : List ℕ) : ∀ (s : List ℤ) (t : List ℕ) (i : ℕ), List.Forall₂ (fun (a : ℤ) (b : ℕ) => a = -1 ∨ a = b) s t →
    (∀ k ∈ ks, i ≤ k → k < i + s.length → s.getD (k - i) 0 = 1) →
    List.Forall₂ (fun (a : ℤ) (b : ℕ) => a = -1 ∨ a = b) (squeezeDecl (some (ks.map fun k : ℕ => (k : ℤ))) i s) (dropAxes ks i t)
  | [], [], _, _, _ => .nil
  | a :: s, b :: t, i, .cons h1 h2, hk => by
      have ih := squeezeDecl_agrees ks s t (i + 1) h2 fun k hk' h3 h4 => by
        have := hk k hk' (by omega) (by simp; omega)
        rwa [show k - i = (k - (i + 1)) + 1 by omega, List.getD_cons_succ] at this
      rw [squeezeDecl, dropAxes]
      by_cases hi : i ∈ ks
      · have := hk i hi le_rfl (by simp)
        rw [Nat.sub_self, List.getD_cons_zero] at this
        rw [if_pos hi, if_pos ⟨this, by simpa using hi⟩]
        exact ih
      · rw [if_neg hi, if_neg (by rintro ⟨-, h⟩; exact hi (by simpa using h))]
        exact .cons h1 ih

/-- **C78 (Squeeze).** With the axes as the second input, none of them negative, and of declared size 1. -/
theorem squeeze_node_partial (as : List Attr) (s : List ℤ) (X : Ten ℝ) (hs : Agrees s X.shape) (ks : List ℕ) (dims : List ℕ)
    (hne : ks ≠ []) (hk : ∀ k ∈ ks, k < X.shape.length ∧ s.getD k 0 = 1) :
    ∃ nd Y out, squeezeNode as [.shape s, .nums dims (ks.map fun k : ℕ => (k : ℤ))] = .ok nd ∧ nd.forward [X] = .ok [Y] ∧
      IsSqueeze as (some (ks.map fun k : ℕ => (k : ℤ))) X Y ∧ nd.outShapes = [out] ∧ Agrees out Y.shape := by
  obtain ⟨hl, hd⟩ := agrees_iff.1 hs
  have h1 : ∀ k ∈ ks, k < X.shape.length ∧ X.shape.getD k 0 = 1 := fun k h => by
    obtain ⟨h2, h3⟩ := hk k h
    have := hd k h2
    exact ⟨h2, by omega⟩
  obtain ⟨Y, e, hY, hS⟩ := reshape_ok X (dropAxes ks 0 X.shape) (prod_dropAxes ks _ 0 fun k h _ _ => (h1 k h).2)
  refine ⟨⟨[squeezeDecl (some (ks.map fun k : ℕ => (k : ℤ))) 0 s], squeezeBy (some (ks.map fun k : ℕ => (k : ℤ)))⟩, Y, _, rfl, ?_,
    ⟨ks, ?_, by simp, fun k h => (h1 k h).2, by rw [hY, dropAxes_without], hS⟩, rfl, ?_⟩
  · show (orShape ((squeezeAxes X.shape (if ks.map (fun k : ℕ => (k : ℤ)) = [] then none else some (ks.map fun k : ℕ => (k : ℤ)))).bind _)).bind _ = _
    rw [if_neg (by simpa using hne), squeezeAxes_some _ _ h1, Option.bind_some, e]; rfl
  · intro l hl'
    have : l = ks.map fun k : ℕ => (k : ℤ) := by
      rcases hl' with h | ⟨h, -⟩
      · simpa using h.symm
      · simp at h
    subst this
    refine ⟨fun k => ⟨fun h => ⟨k, List.mem_map.2 ⟨k, h, rfl⟩, (h1 k h).1, .inl rfl⟩, ?_⟩, ?_⟩
    · rintro ⟨a, ha, hax⟩
      obtain ⟨k', hk', rfl⟩ := List.mem_map.1 ha
      have := (h1 k' hk').1
      have : k = k' := by have := hax.1; have := hax.2; omega
      rw [this]; exact hk'
    · intro a ha
      obtain ⟨k', hk', rfl⟩ := List.mem_map.1 ha
      exact ⟨k', (h1 k' hk').1, .inl rfl⟩
  · rw [hY]
    exact squeezeDecl_agrees ks s X.shape 0 hs fun k h _ _ => (hk k h).2

example : ∀ k ∈ [2, 3], k < (⟨[5, 8, 1, 1], fun _ => 0⟩ : Ten ℝ).shape.length ∧ ([-1, 8, 1, 1] : List ℤ).getD k 0 = 1 := by
  decide

/-- Axes given as an attribute (before opset 13) are ignored: all axes of size 1 go. -/
theorem squeeze_attribute_false : ∃ nd Y, squeezeNode [⟨"axes", .ints [2]⟩] [.shape [-1, 1, 1]] = .ok nd ∧
    nd.forward [⟨[4, 1, 1], fun i => i.sum⟩] = .ok [Y] ∧ Y.shape = [4] ∧
    ¬IsSqueeze [⟨"axes", .ints [2]⟩] none ⟨[4, 1, 1], fun i => i.sum⟩ Y := by
  obtain ⟨Y, e, hY, -⟩ := reshape_ok ⟨[4, 1, 1], fun i => (i.sum : ℝ)⟩ [4] (by decide)
  refine ⟨⟨[[-1]], squeezeBy none⟩, Y, rfl, ?_, hY, ?_⟩
  · show (orShape (Tensor.reshape ⟨[4, 1, 1], fun i => (i.sum : ℝ)⟩ [4])).bind (fun y => Except.ok [y]) = _
    rw [e]; rfl
  · rintro ⟨ks, h, -, -, h2, -⟩
    have h3 := (h [2] (.inr ⟨rfl, by simp [attr]⟩)).1 1
    have h4 : 1 ∉ ks := fun h => by
      obtain ⟨a, ha, hax⟩ := h3.1 h
      rw [List.mem_singleton] at ha
      subst ha
      have := hax.2
      simp at this
    have h5 := (h [2] (.inr ⟨rfl, by simp [attr]⟩)).1 0
    have h6 : 0 ∉ ks := fun h => by
      obtain ⟨a, ha, hax⟩ := h5.1 h
      rw [List.mem_singleton] at ha
      subst ha
      have := hax.2
      simp at this
    rw [hY] at h2
    have : (without ks [4, 1, 1]).length = 1 := by rw [← h2]; rfl
    simp only [without, List.length_map, List.length_cons, List.length_nil, List.range_succ, List.range_zero,
      List.nil_append, List.filter_append, List.length_append, List.filter_cons, h4, h6] at this
    simp at this
    omega

/-- An axis that counts from the end is removed, but still declared. A batch of one sample is removed with the
other axes of size 1 if no axes are listed. -/
theorem squeeze_declared_false :
    (∃ nd Y, squeezeNode [] [.shape [-1, 3, 1], .nums [1] [-1]] = .ok nd ∧
      nd.forward [⟨[4, 3, 1], fun _ => 0⟩] = .ok [Y] ∧ Y.shape = [4, 3] ∧ nd.outShapes = [[-1, 3, 1]] ∧ ¬Agrees [-1, 3, 1] Y.shape) ∧
    ∃ nd Y, squeezeNode [] [.shape [-1, 3, 1]] = .ok nd ∧
      nd.forward [⟨[1, 3, 1], fun _ => 0⟩] = .ok [Y] ∧ Y.shape = [3] ∧ nd.outShapes = [[-1, 3]] ∧ ¬Agrees [-1, 3] Y.shape := by
  obtain ⟨Y, e, hY, -⟩ := reshape_ok ⟨[4, 3, 1], fun _ => 0⟩ [4, 3] (by decide)
  obtain ⟨Y', e', hY', -⟩ := reshape_ok ⟨[1, 3, 1], fun _ => 0⟩ [3] (by decide)
  refine ⟨⟨⟨[[-1, 3, 1]], squeezeBy (some [-1])⟩, Y, rfl, ?_, hY, rfl, ?_⟩, ⟨⟨[[-1, 3]], squeezeBy none⟩, Y', rfl, ?_, hY', rfl, ?_⟩⟩
  · show (orShape (Tensor.reshape ⟨[4, 3, 1], fun _ => 0⟩ [4, 3])).bind (fun y => Except.ok [y]) = _
    rw [e]; rfl
  · rw [hY]; intro h; have := (agrees_iff.1 h).1; simp at this
  · show (orShape (Tensor.reshape ⟨[1, 3, 1], fun _ => 0⟩ [3])).bind (fun y => Except.ok [y]) = _
    rw [e']; rfl
  · rw [hY']; intro h; have := (agrees_iff.1 h).1; simp at this

end Verif.Convert
