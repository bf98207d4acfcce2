import Verif.Convert.StructLemmas
import Mathlib.Tactic.IntervalCases
import Verif.Keras.ShapesProps

/-!
# C78: converted nodes without layers: arithmetic and shapes

`IsPointwise`, `IsReshape`, … say what the ONNX operators compute (`OnnxStruct.lean`); `Agrees` says that a declared
shape is right wherever it is known. Each theorem takes a tensor whose shape agrees with the declared shape of the
node's input.
-/

namespace Verif.Convert

open Verif.Tensor Verif.Keras Verif.Convert.Onnx

/-! ## Add, Sub, Mul, Neg, Relu -/

theorem pointBoth_ok (f : ℝ → ℝ → ℝ) (A B : Ten ℝ) (s : List ℕ) (h : Broadcast A.shape B.shape s) :
    ∃ Y, pointBoth f [A, B] = .ok [Y] ∧ Y.shape = s ∧ IsPointwise f A B Y := by
  obtain ⟨Y, e, hs, hY⟩ := bcastOp_pointwise f A B s h
  refine ⟨Y, ?_, hs, hY⟩
  show pointCall f A B = _
  unfold pointCall; rw [e]; rfl

/-- **C78 (Add).** The sum of two computed tensors, or of a computed tensor and a constant, is `Add`. The
declared shape is right if broadcasting does not change the shape of the first one. -/
theorem add_node_partial (s s' : List ℤ) (A B : Ten ℝ) (hA : Agrees s A.shape) (hb : Broadcast A.shape B.shape A.shape) :
    (∃ nd Y, addNode [.shape s, .shape s'] = .ok nd ∧ nd.forward [A, B] = .ok [Y] ∧ IsPointwise (· + ·) A B Y ∧
      nd.outShapes = [s] ∧ Agrees s Y.shape) ∧
    ∃ nd Y, addNode [.shape s, .real B] = .ok nd ∧ nd.forward [A] = .ok [Y] ∧ IsPointwise (· + ·) A B Y ∧
      nd.outShapes = [s] ∧ Agrees s Y.shape := by
  obtain ⟨Y, e, hs, hY⟩ := pointBoth_ok (· + ·) A B _ hb
  refine ⟨⟨⟨[s], pointBoth (· + ·)⟩, Y, rfl, e, hY, rfl, by rw [hs]; exact hA⟩,
    ⟨⟨[s], fun xs => (argAt xs 0).bind fun a => pointCall (· + ·) a B⟩, Y, rfl, ?_, hY, rfl, by rw [hs]; exact hA⟩⟩
  exact e

/-- A constant cannot be the first operand of `Add`, although addition is commutative. -/
theorem add_constant_first_false (c : Ten ℝ) (s : List ℤ) : addNode [.real c, .shape s] = .error .assertion := rfl

/-- The declared shape of a sum is wrong if broadcasting enlarges the first operand. -/
theorem add_declared_false : ∃ nd Y, addNode [.shape [-1, 1], .real ⟨[3], fun _ => 1⟩] = .ok nd ∧
    nd.forward [⟨[2, 1], fun _ => 0⟩] = .ok [Y] ∧ Y.shape = [2, 3] ∧ nd.outShapes = [[-1, 1]] ∧ ¬Agrees [-1, 1] Y.shape := by
  have hb : Broadcast [2, 1] [3] [2, 3] := bcastShape_iff.1 (by decide)
  obtain ⟨Y, e, hs, -⟩ := pointBoth_ok (· + ·) ⟨[2, 1], fun _ => 0⟩ ⟨[3], fun _ => 1⟩ _ hb
  refine ⟨⟨[[-1, 1]], fun xs => (argAt xs 0).bind fun a => pointCall (· + ·) a ⟨[3], fun _ => 1⟩⟩, Y, rfl, e, hs, rfl, ?_⟩
  rw [hs]
  intro h
  have := (agrees_iff.1 h).2 1 (by decide)
  revert this; decide

/-- **C78 (Sub, Mul).** Two computed tensors. -/
theorem bin_node_partial (f : ℝ → ℝ → ℝ) (s s' : List ℤ) (A B : Ten ℝ) (hA : Agrees s A.shape)
    (hb : Broadcast A.shape B.shape A.shape) :
    ∃ nd Y, binNode f [.shape s, .shape s'] = .ok nd ∧ nd.forward [A, B] = .ok [Y] ∧ IsPointwise f A B Y ∧
      nd.outShapes = [s] ∧ Agrees s Y.shape := by
  obtain ⟨Y, e, hs, hY⟩ := pointBoth_ok f A B _ hb
  exact ⟨⟨[s], pointBoth f⟩, Y, rfl, e, hY, rfl, by rw [hs]; exact hA⟩

/-- Subtracting a constant, or multiplying with one, is refused with an assertion on either side. -/
theorem bin_constant_false (f : ℝ → ℝ → ℝ) (c : Ten ℝ) (s : List ℤ) :
    binNode f [.real c, .shape s] = .error .assertion ∧ binNode f [.shape s, .real c] = .error .assertion := ⟨rfl, rfl⟩

/-- **C78 (Neg, Relu).** -/
theorem map_node (f : ℝ → ℝ) (s : List ℤ) (X : Ten ℝ) (hX : Agrees s X.shape) :
    ∃ nd Y, mapNode f [.shape s] = .ok nd ∧ nd.forward [X] = .ok [Y] ∧ IsMap f X Y ∧ nd.outShapes = [s] ∧ Agrees s Y.shape :=
  ⟨⟨[s], fun xs => (argAt xs 0).map fun x => [⟨x.shape, fun i => f (x.get i)⟩]⟩, ⟨X.shape, fun i => f (X.get i)⟩,
    rfl, rfl, ⟨rfl, fun _ _ => rfl⟩, rfl, hX⟩

theorem broadcast_self (s : List ℕ) : Broadcast s s s := by
  refine ⟨by simp, fun k _ => ?_⟩
  simp [lead]

example : ∃ nd Y, binNode (· * ·) [.shape [-1, 2], .shape [-1, 2]] = .ok nd ∧
    nd.forward [⟨[3, 2], fun i => (i.sum : ℝ)⟩, ⟨[3, 2], fun i => (i.sum : ℝ)⟩] = .ok [Y] ∧
    IsPointwise (· * ·) ⟨[3, 2], fun i => (i.sum : ℝ)⟩ ⟨[3, 2], fun i => (i.sum : ℝ)⟩ Y ∧
    nd.outShapes = [[-1, 2]] ∧ Agrees [-1, 2] Y.shape :=
  bin_node_partial _ _ _ _ _ (by simp [Agrees]) (broadcast_self _)

/-! ## Softmax -/

theorem set_last {i : List ℕ} (q : ℕ) (h : i ≠ []) : i.set (i.length - 1) q = i.dropLast ++ [q] := by
  induction i with
  | nil => exact absurd rfl h
  | cons a r ih =>
      cases r with
      | nil => rfl
      | cons b r =>
          simp only [List.length_cons, Nat.add_sub_cancel, List.dropLast_cons_cons, List.cons_append, List.set_cons_succ]
          have := ih (by simp)
          simp only [List.length_cons, Nat.add_sub_cancel] at this
          rw [this]

/-- **C78 (Softmax).** Along the last axis. -/
theorem softmax_node_partial (as : List Attr) (s : List ℤ) (X : Ten ℝ) (hX : Agrees s X.shape) (h0 : X.shape ≠ [])
    (ha : intAttr as "axis" (-1) = -1 ∨ intAttr as "axis" (-1) = (X.shape.length : ℤ) - 1) :
    ∃ nd Y, softmaxNode as [.shape s] = .ok nd ∧ nd.forward [X] = .ok [Y] ∧ IsSoftmax as X Y ∧
      nd.outShapes = [s] ∧ Agrees s Y.shape := by
  have hp : 0 < X.shape.length := List.length_pos_of_ne_nil h0
  refine ⟨⟨[s], fun xs => (argAt xs 0).bind fun x => (softmaxLast x).map fun y => [y]⟩, ⟨X.shape, fun i => Real.exp (X.get i) /
    ∑ q ∈ Finset.range (X.shape.getLastD 0), Real.exp (X.get (i.dropLast ++ [q]))⟩, rfl, ?_, ?_, rfl, hX⟩
  · show (softmaxLast X).map _ = _
    unfold softmaxLast; rw [if_neg h0]; rfl
  · refine ⟨X.shape.length - 1, ⟨by omega, by omega⟩, rfl, fun i hi => ?_⟩
    have hl := (inShape_iff.1 hi).1
    have hd : X.shape.getLastD 0 = X.shape.getD (X.shape.length - 1) 0 := by
      rw [List.getLastD_eq_getLast?, List.getLast?_eq_getElem?, List.getD_eq_getElem?_getD]
    show _ / _ = _ / _
    rw [hd]
    congr 1
    apply Finset.sum_congr rfl
    intro q _
    rw [← hl, set_last q (by intro e; rw [e] at hl; simp at hl; omega)]

/-- The attribute `axis` is ignored. -/
theorem softmax_axis_false : ∃ nd Y, softmaxNode [⟨"axis", .int 1⟩] [.shape [-1, 2, 1]] = .ok nd ∧
    nd.forward [⟨[1, 2, 1], fun _ => 0⟩] = .ok [Y] ∧ ¬IsSoftmax [⟨"axis", .int 1⟩] ⟨[1, 2, 1], fun _ => 0⟩ Y := by
  refine ⟨_, _, rfl, rfl, ?_⟩
  rintro ⟨k, ⟨hk, hk'⟩, -, h⟩
  have hk1 : k = 1 := by
    have e : intAttr [⟨"axis", .int 1⟩] "axis" (-1) = 1 := by decide
    rw [e] at hk'
    simp only [List.length_cons, List.length_nil] at hk hk'
    omega
  subst hk1
  have h1 := h [0, 0, 0] ⟨by decide, by decide, by decide, trivial⟩
  simp [Finset.sum_range_succ] at h1

/-! ## Reshape and Flatten -/

theorem ext_getD {β : Type} [Zero β] {l l' : List β} (hl : l.length = l'.length)
    (h : ∀ k, k < l.length → l.getD k 0 = l'.getD k 0) : l = l' := by
  apply List.ext_getElem hl
  intro k h1 h2
  have := h k h1
  rwa [List.getD_eq_getElem _ _ h1, List.getD_eq_getElem _ _ h2] at this

theorem reshapeTo_ok (l : List ℤ) (X Y₀ : Ten ℝ) (h0 : 0 ∉ l) (hY : IsReshape l X Y₀) :
    ∃ Y, reshapeTo l [X] = .ok [Y] ∧ Y.shape = Y₀.shape ∧ SameEntries X Y := by
  obtain ⟨hl, hc, hk, hp, -⟩ := hY
  have hpos : ∀ k, k < l.length → l.getD k 0 = -1 ∨ (0 < l.getD k 0 ∧ (Y₀.shape.getD k 0 : ℤ) = l.getD k 0) := by
    intro k hk'
    rcases hk k hk' with ⟨h, -⟩ | h | h
    · exact absurd (by rw [← h, List.getD_eq_getElem _ _ hk']; exact List.getElem_mem _) h0
    · exact .inl h
    · exact .inr h
  have key : inferShape X.shape.prod l = some Y₀.shape := by
    rcases dims_cases l with hn | ⟨pre, d, post, rfl, hpre, hd, hpost⟩
    · have e : l.map Int.toNat = Y₀.shape := by
        apply ext_getD (by simp [hl])
        intro k hk'
        rw [List.length_map] at hk'
        rw [List.getD_eq_getElem _ _ (by simpa using hk'), List.getElem_map]
        have h1 := hn l[k] (List.getElem_mem _)
        rcases hpos k hk' with h | ⟨h, h'⟩
        · rw [List.getD_eq_getElem _ _ hk'] at h; omega
        · rw [List.getD_eq_getElem _ _ hk'] at h'; omega
      rw [infer_known hn, if_pos (by unfold size; rw [e, hp]), e]
    · have hd1 : d = -1 := by
        have := hpos pre.length (by simp)
        rw [getD_append_cons _ _ _ _ _ rfl] at this
        omega
      subst hd1
      have hq : Known post := by
        rcases hpost with h | ⟨mid, e, rest, rfl, -, he⟩
        · exact h
        · exfalso
          have h1 := hpos (pre.length + 1 + mid.length) (by simp only [List.length_append, List.length_cons]; omega)
          have e1 : (pre ++ -1 :: (mid ++ e :: rest)).getD (pre.length + 1 + mid.length) 0 = e := by
            rw [show pre ++ -1 :: (mid ++ e :: rest) = (pre ++ -1 :: mid) ++ e :: rest by simp]
            exact getD_append_cons _ _ _ _ _ (by simp; omega)
          rw [e1] at h1
          have he1 : e = -1 := by omega
          subst he1
          simp only [List.count_append, List.count_cons_self] at hc
          omega
      have e : ∃ v, Y₀.shape = pre.map Int.toNat ++ v :: post.map Int.toNat := by
        refine ⟨Y₀.shape.getD pre.length 0, ?_⟩
        apply ext_getD (by rw [hl]; simp)
        intro k hk'
        rw [hl] at hk'
        have h1 := hpos k hk'
        rcases lt_trichotomy k pre.length with h | rfl | h
        · rw [List.getD_append _ _ _ _ (by simpa using h), List.getD_eq_getElem (pre.map Int.toNat) _ (by simpa using h), List.getElem_map]
          rw [List.getD_append _ _ _ _ h, List.getD_eq_getElem _ _ h] at h1
          have h2 := hpre pre[k] (List.getElem_mem _)
          omega
        · rw [getD_append_cons _ _ _ _ _ (by simp)]
        · have h3 : k - pre.length - 1 < post.length := by simp at hk'; omega
          have h4 : k - pre.length = (k - pre.length - 1) + 1 := by omega
          rw [List.getD_append_right _ _ _ _ (by simp; omega), List.length_map, h4, List.getD_cons_succ,
            List.getD_eq_getElem (post.map Int.toNat) _ (by simpa using h3), List.getElem_map]
          rw [List.getD_append_right _ _ _ _ (by omega), h4, List.getD_cons_succ, List.getD_eq_getElem _ _ h3] at h1
          have h2 := hq post[k - pre.length - 1] (List.getElem_mem _)
          omega
      obtain ⟨v, e⟩ := e
      have hnz : ∀ m : List ℤ, (∀ d ∈ m, 0 < d) → 0 < size m := by
        intro m hm
        unfold size
        apply Nat.pos_of_ne_zero
        rw [Ne, List.prod_eq_zero_iff]
        intro h
        obtain ⟨d, hd, h⟩ := List.mem_map.1 h
        have := hm d hd
        omega
      have hpp : 0 < size pre := hnz pre fun d hd => by
        have h1 := hpre d hd
        have h2 : d ≠ 0 := fun h => h0 (by rw [← h]; exact List.mem_append_left _ hd)
        omega
      have hqp : 0 < size post := hnz post fun d hd => by
        have h1 := hq d hd
        have h2 : d ≠ 0 := fun h => h0 (by rw [← h]; exact List.mem_append_right _ (List.mem_cons_of_mem _ hd))
        omega
      have hpr : X.shape.prod = v * (size pre * size post) := by
        rw [← hp, e, List.prod_append, List.prod_cons]
        unfold size; ring
      rw [infer_unknown hpre hq, hpr, if_neg, e, Nat.mul_div_cancel _ (Nat.mul_pos hpp hqp)]
      rw [Nat.mul_mod_left]
      have := Nat.mul_pos hpp hqp
      omega
  obtain ⟨Y, eY, hYs, hS⟩ := reshape_ok X Y₀.shape hp
  refine ⟨Y, ?_, hYs, hS⟩
  show (orShape (tfReshape X l)).bind _ = _
  unfold tfReshape
  rw [key, Option.bind_some, eY]; rfl

/-- **C78 (Reshape).** Whenever `Reshape` of the input to a constant shape without zeros is defined, the node
computes it, and the constant is a right declaration. -/
theorem reshape_node_partial (s l : List ℤ) (X Y₀ : Ten ℝ) (h0 : 0 ∉ l) (hY : IsReshape l X Y₀) (dims : List ℕ) :
    ∃ nd Y, reshapeNode [.shape s, .nums dims l] = .ok nd ∧ nd.forward [X] = .ok [Y] ∧ IsReshape l X Y ∧
      nd.outShapes = [l] ∧ Agrees l Y.shape := by
  obtain ⟨Y, eY, hYs, hS⟩ := reshapeTo_ok l X Y₀ h0 hY
  obtain ⟨hl, hc, hk, hp, -⟩ := hY
  refine ⟨⟨[l], reshapeTo l⟩, Y, rfl, eY, ⟨by rw [hYs]; exact hl, hc, ?_, hS⟩, rfl, ?_⟩
  · intro k hk'
    rw [hYs]; exact hk k hk'
  · rw [hYs, agrees_iff]
    refine ⟨hl.symm, fun k hk' => ?_⟩
    rcases hk k (by rw [← hl]; exact hk') with ⟨h, -⟩ | h | ⟨-, h⟩
    · exact absurd (by rw [← h, List.getD_eq_getElem _ _ (hl ▸ hk')]; exact List.getElem_mem _) h0
    · exact .inl h
    · exact .inr h.symm

example : ∃ Y₀ : Ten ℝ, (0 : ℤ) ∉ [-1, 6] ∧ IsReshape [-1, 6] ⟨[4, 2, 3], fun i => (i.sum : ℝ)⟩ Y₀ := by
  obtain ⟨Y, -, hs, hS⟩ := reshape_ok ⟨[4, 2, 3], fun i => (i.sum : ℝ)⟩ [4, 6] (by decide)
  refine ⟨Y, by decide, by rw [hs]; rfl, by decide, ?_, hS⟩
  intro k hk
  rw [hs]
  have : k < 2 := hk
  interval_cases k
  · right; left; decide
  · right; right; decide

/-- A 0, which stands for the dimension of the input (and is how exporters keep the batch), raises. -/
theorem reshape_zero_false : ∃ nd Y₀, reshapeNode [.shape [-1, 2, 3], .nums [2] [0, -1]] = .ok nd ∧
    IsReshape [0, -1] ⟨[4, 2, 3], fun i => (i.sum : ℝ)⟩ Y₀ ∧
    nd.forward [⟨[4, 2, 3], fun i => (i.sum : ℝ)⟩] = .error .shape := by
  obtain ⟨Y, e, hs, hS⟩ := reshape_ok ⟨[4, 2, 3], fun i => (i.sum : ℝ)⟩ [4, 6] (by decide)
  refine ⟨⟨[[0, -1]], reshapeTo [0, -1]⟩, Y, rfl, ⟨by rw [hs]; rfl, by decide, ?_, hS⟩, ?_⟩
  · intro k hk
    rw [hs]
    have : k < 2 := hk
    interval_cases k
    · left; decide
    · right; left; decide
  · have : inferShape 24 [0, -1] = none := by decide
    have e : tfReshape (⟨[4, 2, 3], fun i => (i.sum : ℝ)⟩ : Ten ℝ) [0, -1] = none := by
      show (inferShape 24 [0, -1]).bind _ = none
      rw [this]; rfl
    show (orShape (tfReshape (⟨[4, 2, 3], fun i => (i.sum : ℝ)⟩ : Ten ℝ) [0, -1])).bind (fun y => .ok [y]) = _
    rw [e]; rfl

/-- **C78 (Flatten).** From axis 1 on, if the dimensions from there on are known. -/
theorem flatten_node_partial (as : List Attr) (b : ℤ) (n : ℕ) (r : List ℕ) (X : Ten ℝ) (ha : intAttr as "axis" 1 = 1)
    (hX : X.shape = n :: r) (hr : r ≠ []) (h0 : 0 ∉ r) :
    ∃ nd Y, flattenNode as [.shape (b :: r.map fun d : ℕ => (d : ℤ))] = .ok nd ∧ nd.forward [X] = .ok [Y] ∧
      IsFlatten as X Y ∧ nd.outShapes = [[-1, (r.prod : ℤ)]] ∧ Agrees [-1, (r.prod : ℤ)] Y.shape := by
  have hprod : (r.map fun d : ℕ => (d : ℤ)).prod = (r.prod : ℤ) := by
    clear hX hr h0
    induction r with
    | nil => rfl
    | cons d r ih => simp only [List.map_cons, List.prod_cons, ih]; push_cast; rfl
  have hp : r.prod ≠ 0 := by rw [Ne, List.prod_eq_zero_iff]; exact h0
  have hn : Known [(r.prod : ℤ)] := by intro d hd; simp only [List.mem_singleton] at hd; omega
  have hi : inferShape X.shape.prod [-1, (r.prod : ℤ)] = some [n, r.prod] := by
    have := infer_unknown (pre := []) (post := [(r.prod : ℤ)]) (fun d hd => by simp at hd) hn X.shape.prod
    rw [List.nil_append] at this
    rw [this, hX, List.prod_cons]
    have e1 : size [] * size [(r.prod : ℤ)] = r.prod := by
      unfold size
      rw [List.map_singleton, List.map_nil, List.prod_singleton, List.prod_nil, Int.toNat_natCast, one_mul]
    rw [e1, if_neg (by rw [Nat.mul_mod_left]; omega), Nat.mul_div_cancel _ (by omega), List.map_singleton, List.map_nil, Int.toNat_natCast, List.nil_append]
  obtain ⟨Y, eY, hYs, hS⟩ := reshape_ok X [n, r.prod] (by rw [hX]; simp)
  refine ⟨⟨[[-1, (r.prod : ℤ)]], reshapeTo [-1, (r.prod : ℤ)]⟩, Y, ?_, ?_, ⟨1, by rw [hX]; simp, by left; rw [ha]; rfl, ?_, hS⟩, rfl, ?_⟩
  · show (if (b :: r.map fun d : ℕ => (d : ℤ)).tail = [] then _ else _) = _
    rw [if_neg (by simpa using hr)]
    rw [List.tail_cons, hprod]
  · show (orShape (tfReshape X [-1, (r.prod : ℤ)])).bind _ = _
    unfold tfReshape
    rw [hi, Option.bind_some, eY]; rfl
  · rw [hYs, hX]; simp
  · rw [hYs]; simp [Agrees]

example : intAttr [] "axis" 1 = 1 ∧ [2, 3] ≠ ([] : List ℕ) ∧ 0 ∉ [2, 3] := by decide

/-- The attribute `axis` is ignored. -/
theorem flatten_axis_false : ∃ nd Y, flattenNode [⟨"axis", .int 2⟩] [.shape [-1, 2, 3]] = .ok nd ∧
    nd.forward [⟨[4, 2, 3], fun _ => 0⟩] = .ok [Y] ∧ Y.shape = [4, 6] ∧ ¬IsFlatten [⟨"axis", .int 2⟩] ⟨[4, 2, 3], fun _ => 0⟩ Y := by
  obtain ⟨nd, Y, e1, e2, ⟨k, hkl, hk, hs, -⟩, -, -⟩ := flatten_node_partial [] (-1) 4 [2, 3] ⟨[4, 2, 3], fun _ => 0⟩ rfl rfl (by decide) (by decide)
  have hk1 : k = 1 := by
    have e : intAttr [] "axis" 1 = 1 := rfl
    rw [e] at hk
    have hkl : k ≤ 3 := hkl
    simp only [List.length_cons, List.length_nil] at hk
    push_cast at hk
    omega
  subst hk1
  refine ⟨nd, Y, e1, e2, hs, ?_⟩
  rintro ⟨k, hkl, hk, hs', -⟩
  have hk1 : k = 2 := by
    have e : intAttr [⟨"axis", .int 2⟩] "axis" 1 = 2 := by decide
    rw [e] at hk
    have hkl : k ≤ 3 := hkl
    simp only [List.length_cons, List.length_nil] at hk
    push_cast at hk
    omega
  subst hk1
  rw [hs] at hs'
  revert hs'; decide

/-- A batch of numbers (shape `[n]`), which `Flatten` makes a column, raises when it is converted. -/
theorem flatten_vector_false (as : List Attr) (b : ℤ) : flattenNode as [.shape [b]] = .error .type := rfl

end Verif.Convert
