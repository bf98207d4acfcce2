import Verif.Convert.StructMove

/-!
# C78: converted nodes without layers: Concat and Split

See `StructProps.lean`.
-/

namespace Verif.Convert

open Verif.Tensor Verif.Keras Verif.Convert.Onnx

/-! ## Concat -/

theorem getD_set_self {β : Type} (l : List β) (k : ℕ) (v d : β) (h : k < l.length) : (l.set k v).getD k d = v := by
  simp [List.getD_eq_getElem?_getD, h]

theorem getD_set_ne {β : Type} (l : List β) (k j : ℕ) (v d : β) (h : j ≠ k) : (l.set k v).getD j d = l.getD j d := by
  simp [List.getD_eq_getElem?_getD, List.getElem?_set_ne (Ne.symm h)]

theorem set_getD (l : List ℕ) (k : ℕ) : l.set k (l.getD k 0) = l := by
  by_cases h : k < l.length
  · rw [List.getD_eq_getElem _ _ h, List.set_getElem_self]
  · rw [List.set_eq_of_length_le (by omega)]

theorem concatGet_spec (k : ℕ) : ∀ (Xs : List (Ten ℝ)) (p : ℕ) (h : p < Xs.length) (i : List ℕ), k < Xs[p].shape.length →
    InShape Xs[p].shape i →
    concatGet k Xs (i.set k (((Xs.take p).map fun X => X.shape.getD k 0).sum + i.getD k 0)) = Xs[p].get i
  | [], _, h, _, _, _ => by simp at h
  | X :: Xs, 0, h, i, hk, hi => by
      obtain ⟨h1, h2⟩ := inShape_iff.1 hi
      simp only [List.getElem_cons_zero] at hk hi h1 h2 ⊢
      rw [List.take_zero, List.map_nil, List.sum_nil, Nat.zero_add, set_getD, concatGet, if_pos (h2 k hk)]
  | X :: Xs, p + 1, h, i, hk, hi => by
      obtain ⟨h1, h2⟩ := inShape_iff.1 hi
      simp only [List.getElem_cons_succ] at hk hi h1 h2 ⊢
      rw [List.take_succ_cons, List.map_cons, List.sum_cons, concatGet, getD_set_self _ _ _ _ (by omega), if_neg (by omega),
        List.set_set]
      have := concatGet_spec k Xs p (by simpa using h) i hk hi
      rw [← this]
      congr 2
      omega

theorem shapesOf_ok : ∀ ss : List (List ℤ), shapesOf (ss.map Inp.shape) = .ok ss
  | [] => rfl
  | s :: ss => by rw [List.map_cons, shapesOf, shapesOf_ok ss]; rfl

theorem sumDims_ok (a : ℤ) (k r : ℕ) (ha : IsAxis r a k) : ∀ (ss : List (List ℤ)), (∀ s ∈ ss, s.length = r) →
    sumDims a ss = .ok (ss.map fun s => s.getD k 0).sum
  | [], _ => rfl
  | s :: ss, h => by
      have h1 : axisOf s.length a = some k := by rw [h s (by simp)]; exact axisOf_iff.2 ha
      unfold sumDims
      rw [h1, sumDims_ok a k r ha ss fun t ht => h t (by simp [ht])]; rfl

/-- **C78 (Concat).** Tensors whose shapes agree except along the axis, along which all declared sizes are known. -/
theorem concat_node_partial (rest : List Attr) (a : ℤ) (k : ℕ) (ss : List (List ℤ)) (Xs : List (Ten ℝ)) (sh : List ℕ)
    (hne : Xs ≠ []) (hs : List.Forall₂ (fun s (X : Ten ℝ) => Agrees s X.shape ∧ s.getD k 0 = X.shape.getD k 0) ss Xs)
    (ha : IsAxis sh.length a k) (hsh : ∀ X ∈ Xs, X.shape.set k 0 = sh.set k 0) :
    ∃ nd Y out, concatNode (⟨"axis", .int a⟩ :: rest) (ss.map Inp.shape) = .ok nd ∧ nd.forward Xs = .ok [Y] ∧
      IsConcat (⟨"axis", .int a⟩ :: rest) Xs Y ∧ nd.outShapes = [out] ∧ Agrees out Y.shape := by
  have hlen : ∀ X ∈ Xs, X.shape.length = sh.length := fun X hX => by
    have := congrArg List.length (hsh X hX); simpa using this
  have hoff : ∀ X ∈ Xs, ∀ l, l ≠ k → X.shape.getD l 0 = sh.getD l 0 := fun X hX l hl => by
    have := congrArg (·.getD l 0) (hsh X hX)
    simpa only [getD_set_ne _ _ _ _ _ hl] using this
  obtain ⟨hk, ha'⟩ := ha
  have hax : ∀ X ∈ Xs, axisOf X.shape.length a = some k := fun X hX => by rw [hlen X hX]; exact axisOf_iff.2 ⟨hk, ha'⟩
  have hslen : ∀ s ∈ ss, s.length = sh.length := by
    clear hne hsh hoff hax
    induction hs with
    | nil => intro s h; simp at h
    | cons h _ ih =>
        intro t ht
        rcases List.mem_cons.1 ht with rfl | ht
        · rw [(agrees_iff.1 h.1).1]; exact hlen _ (by simp)
        · exact ih (fun X hX => hlen X (by simp [hX])) t ht
  have hsum : (ss.map fun s => s.getD k 0).sum = (((Xs.map fun X => X.shape.getD k 0).sum : ℕ) : ℤ) := by
    clear hne hsh hlen hoff hax hslen
    induction hs with
    | nil => rfl
    | cons h _ ih => simp only [List.map_cons, List.sum_cons, ih, h.2]; push_cast; rfl
  cases hs with
  | nil => exact absurd rfl hne
  | @cons s X ss Xs h1 h2 =>
    have hs0 : s.length = sh.length := hslen s (by simp)
    obtain ⟨hl, hd⟩ := agrees_iff.1 h1.1
    refine ⟨⟨[s.set k ((s :: ss).map fun s => s.getD k 0).sum], fun xs => (orShape (concatT a xs)).map fun y => [y]⟩,
      ⟨X.shape.set k ((X :: Xs).map fun y => y.shape.getD k 0).sum, concatGet k (X :: Xs)⟩, _, ?_, ?_,
      ⟨k, a, by simp [attr], ⟨by simp only [List.length_set]; rw [hlen X (by simp)]; exact hk,
        by simp only [List.length_set]; rw [hlen X (by simp)]; exact ha'⟩, ?_, ?_, ?_⟩, rfl, ?_⟩
    · show (axisAt s.length a).bind (fun k => (shapesOf ((s :: ss).map Inp.shape)).bind fun ss => (sumDims a ss).bind fun d => _) = _
      unfold axisAt
      rw [hs0, axisOf_iff.2 ⟨hk, ha'⟩, shapesOf_ok]
      show (sumDims a (s :: ss)).bind _ = _
      rw [sumDims_ok a k sh.length ⟨hk, ha'⟩ _ hslen]; rfl
    · have e : concatT a (X :: Xs) = some ⟨X.shape.set k ((X :: Xs).map fun y => y.shape.getD k 0).sum, concatGet k (X :: Xs)⟩ := by
        rw [concatT, hax X (by simp)]
        show (if ∀ y ∈ Xs, y.shape.set k 0 = X.shape.set k 0 then
          some (⟨X.shape.set k ((X :: Xs).map fun y => y.shape.getD k 0).sum, concatGet k (X :: Xs)⟩ : Ten ℝ) else none) = _
        rw [if_pos fun y hy => by rw [hsh y (by simp [hy]), hsh X (by simp)]]
      show (orShape (concatT a (X :: Xs))).map _ = _
      rw [e]; rfl
    · show (X.shape.set k _).getD k 0 = _
      rw [getD_set_self _ _ _ _ (by rw [hlen X (by simp)]; exact hk)]
    · intro Z hZ
      refine ⟨by simp only [List.length_set]; rw [hlen Z hZ, hlen X (by simp)], fun l hl => ?_⟩
      show _ = (X.shape.set k _).getD l 0
      rw [getD_set_ne _ _ _ _ _ hl, hoff Z hZ l hl, hoff X (by simp) l hl]
    · intro p h i hi
      exact concatGet_spec k _ p h i (by rw [hlen _ (List.getElem_mem _)]; exact hk) hi
    · rw [agrees_iff]
      refine ⟨by simp only [List.length_set]; exact hl, fun j hj => ?_⟩
      simp only [List.length_set] at hj
      by_cases e : j = k
      · subst e
        rw [getD_set_self _ _ _ _ (by omega), getD_set_self _ _ _ _ hj, hsum]; right; rfl
      · rw [getD_set_ne _ _ _ _ _ e, getD_set_ne _ _ _ _ _ e]; exact hd j hj

example : List.Forall₂ (fun (s : List ℤ) (X : Ten ℝ) => Agrees s X.shape ∧ s.getD 1 0 = X.shape.getD 1 0)
    [[-1, 3], [-1, 2]] [⟨[7, 3], fun _ => 0⟩, ⟨[7, 2], fun _ => 0⟩] :=
  .cons ⟨by simp [Agrees], by decide⟩ (.cons ⟨by simp [Agrees], by decide⟩ .nil)

/-- Along the batch, whose size is unknown, the declared size is the sum of the unknowns: for two tensors -2,
which `reshape` does not take. -/
theorem concat_batch_false : ∃ nd Y, concatNode [⟨"axis", .int 0⟩] [.shape [-1, 3], .shape [-1, 3]] = .ok nd ∧
    nd.forward [⟨[4, 3], fun _ => 0⟩, ⟨[5, 3], fun _ => 1⟩] = .ok [Y] ∧ Y.shape = [9, 3] ∧
    nd.outShapes = [[-2, 3]] ∧ ¬Agrees [-2, 3] Y.shape :=
  ⟨⟨[[-2, 3]], fun xs => (orShape (concatT 0 xs)).map fun y => [y]⟩,
    ⟨[9, 3], concatGet 0 [⟨[4, 3], fun _ => 0⟩, ⟨[5, 3], fun _ => 1⟩]⟩, rfl, rfl, rfl, rfl, by
    intro h
    have := (agrees_iff.1 h).2 0 (by decide)
    revert this; decide⟩

/-! ## Split -/

theorem splitParts_length (k : ℕ) (X : Ten ℝ) : ∀ (ns : List ℕ) (o : ℕ), (splitParts k X o ns).length = ns.length
  | [], _ => rfl
  | n :: ns, o => by rw [splitParts, List.length_cons, List.length_cons, splitParts_length k X ns]

theorem splitParts_get (k : ℕ) (X : Ten ℝ) : ∀ (ns : List ℕ) (o p : ℕ) (h : p < (splitParts k X o ns).length),
    (splitParts k X o ns)[p] = ⟨X.shape.set k (ns.getD p 0), fun i => X.get (i.set k (o + (ns.take p).sum + i.getD k 0))⟩
  | [], _, _, h => by simp [splitParts] at h
  | n :: ns, o, 0, h => by simp [splitParts]
  | n :: ns, o, p + 1, h => by
      have := splitParts_get k X ns (o + n) p (by rw [splitParts_length] at h ⊢; simpa using h)
      simp only [splitParts, List.getElem_cons_succ, this, List.getD_cons_succ, List.take_succ_cons, List.sum_cons]
      simp only [Nat.add_assoc]

theorem splitParts_isSplit (as : List Attr) (outs : ℕ) (input : Option (List ℤ)) (X : Ten ℝ) (k : ℕ) (ns : List ℕ)
    (ha : IsAxis X.shape.length (intAttr as "axis" 0) k) (hp : partSizes as outs input (X.shape.getD k 0) ns)
    (hn : ns.sum = X.shape.getD k 0) : IsSplit as outs input X (splitParts k X 0 ns) := by
  refine ⟨k, ns, ha, hp, hn, splitParts_length _ _ _ _, fun p h => ?_⟩
  rw [splitParts_get]
  refine ⟨rfl, fun i _ => ?_⟩
  show X.get _ = X.get _
  rw [Nat.zero_add]

theorem agrees_set {s : List ℤ} {t : List ℕ} (h : Agrees s t) (k n : ℕ) : Agrees (s.set k (n : ℤ)) (t.set k n) := by
  obtain ⟨hl, hd⟩ := agrees_iff.1 h
  rw [agrees_iff]
  refine ⟨by simpa using hl, fun j hj => ?_⟩
  rw [List.length_set] at hj
  by_cases e : j = k
  · subst e; rw [getD_set_self _ _ _ _ (by omega), getD_set_self _ _ _ _ hj]; right; rfl
  · rw [getD_set_ne _ _ _ _ _ e, getD_set_ne _ _ _ _ _ e]; exact hd j hj

theorem agrees_parts {s : List ℤ} {X : Ten ℝ} (h : Agrees s X.shape) (k : ℕ) : ∀ (ns : List ℕ) (o : ℕ),
    List.Forall₂ (fun out (Y : Ten ℝ) => Agrees out Y.shape) (ns.map fun n : ℕ => s.set k (n : ℤ)) (splitParts k X o ns)
  | [], _ => .nil
  | n :: ns, o => .cons (agrees_set h k n) (agrees_parts h k ns (o + n))

/-- **C78 (Split).** With the sizes as the second input. -/
theorem split_node_partial (rest : List Attr) (a : ℤ) (k outs : ℕ) (s : List ℤ) (X : Ten ℝ) (ns dims : List ℕ)
    (hs : Agrees s X.shape) (ha : IsAxis X.shape.length a k) (hn : ns.sum = X.shape.getD k 0) :
    ∃ nd Ys, splitNode (⟨"axis", .int a⟩ :: rest) outs [.shape s, .nums dims (ns.map fun n : ℕ => (n : ℤ))] = .ok nd ∧
      nd.forward [X] = .ok Ys ∧ IsSplit (⟨"axis", .int a⟩ :: rest) outs (some (ns.map fun n : ℕ => (n : ℤ))) X Ys ∧
      List.Forall₂ (fun out (Y : Ten ℝ) => Agrees out Y.shape) nd.outShapes Ys := by
  obtain ⟨hl, -⟩ := agrees_iff.1 hs
  have e0 : (ns.map fun n : ℕ => (n : ℤ)).map Int.toNat = ns := by
    rw [List.map_map]
    conv_rhs => rw [← List.map_id ns]
    apply List.map_congr_left
    intro n _; simp
  have e1 : splitT a (ns.map fun n : ℕ => (n : ℤ)) X = some (splitParts k X 0 ns) := by
    unfold splitT
    rw [axisOf_iff.2 ha]
    show (if (ns.map fun n : ℕ => (n : ℤ)).all (0 ≤ ·) ∧ ((ns.map fun n : ℕ => (n : ℤ)).map Int.toNat).sum = X.shape.getD k 0 then
      some (splitParts k X 0 ((ns.map fun n : ℕ => (n : ℤ)).map Int.toNat)) else none) = _
    rw [e0, if_pos ⟨by simp, hn⟩]
  refine ⟨⟨(ns.map fun n : ℕ => (n : ℤ)).map fun d => s.set k d,
    fun xs => (argAt xs 0).bind fun x => orShape (splitT a (ns.map fun n : ℕ => (n : ℤ)) x)⟩, splitParts k X 0 ns, ?_, ?_,
    splitParts_isSplit _ _ _ _ _ _ (by simpa [intAttr, attr] using ha) rfl hn, ?_⟩
  · show splitSized s a (ns.map fun n : ℕ => (n : ℤ)) = _
    unfold splitSized
    rw [hl, axisOf_iff.2 ha]
  · show orShape (splitT a (ns.map fun n : ℕ => (n : ℤ)) X) = _
    rw [e1]; rfl
  · show List.Forall₂ _ ((ns.map fun n : ℕ => (n : ℤ)).map fun d => s.set k d) _
    rw [List.map_map]
    exact agrees_parts hs k ns 0

example : ([1, 3].sum : ℕ) = (⟨[5, 4], fun _ => 0⟩ : Ten ℝ).shape.getD 1 0 ∧
    IsAxis (⟨[5, 4], fun _ => 0⟩ : Ten ℝ).shape.length (-1) 1 := ⟨by decide, by decide, by decide⟩

/-- **C78 (Split).** Without sizes, into equal parts along an axis of known size. -/
theorem split_even_partial (rest : List Attr) (a : ℤ) (k outs : ℕ) (s : List ℤ) (X : Ten ℝ)
    (hs : Agrees s X.shape) (ha : IsAxis X.shape.length a k) (ho : outs ≠ 0) (hd : outs ∣ X.shape.getD k 0)
    (hk : s.getD k 0 = X.shape.getD k 0) (hno : attr rest "split" = none) :
    ∃ nd Ys, splitNode (⟨"axis", .int a⟩ :: rest) outs [.shape s] = .ok nd ∧
      nd.forward [X] = .ok Ys ∧ IsSplit (⟨"axis", .int a⟩ :: rest) outs none X Ys ∧
      List.Forall₂ (fun out (Y : Ten ℝ) => Agrees out Y.shape) nd.outShapes Ys := by
  obtain ⟨hl, -⟩ := agrees_iff.1 hs
  obtain ⟨c, hc⟩ := hd
  have e1 : splitEven a outs X = some (splitParts k X 0 (List.replicate outs (X.shape.getD k 0 / outs))) := by
    unfold splitEven
    rw [axisOf_iff.2 ha]
    show (if outs = 0 ∨ X.shape.getD k 0 % outs ≠ 0 then none else some (splitParts k X 0 (List.replicate outs (X.shape.getD k 0 / outs)))) = _
    rw [if_neg (by rw [hc, Nat.mul_mod_right]; omega)]
  have hno' : attr (⟨"axis", .int a⟩ :: rest) "split" = none := by
    simpa [attr, List.find?_cons] using hno
  refine ⟨⟨List.replicate outs (s.set k (s.getD k 0 / outs)),
          fun xs => (argAt xs 0).bind fun x => orShape (splitEven a outs x)⟩, _, ?_, ?_,
    splitParts_isSplit _ _ _ X k (List.replicate outs (X.shape.getD k 0 / outs)) (by simpa [intAttr, attr] using ha) ?_ ?_, ?_⟩
  · show splitEqual s a outs = _
    unfold splitEqual
    rw [hl, axisOf_iff.2 ha]
    dsimp only
    rw [if_neg ho, if_neg (by rw [hk, hc]; push_cast; rw [Int.mul_emod_right]; simp)]
  · show orShape (splitEven a outs X) = _
    rw [e1]; rfl
  · unfold partSizes; rw [hno']
  · rw [List.sum_replicate, hc, smul_eq_mul, Nat.mul_div_cancel_left _ (by omega)]
  · have := agrees_parts hs k (List.replicate outs (X.shape.getD k 0 / outs)) 0
    rw [List.map_replicate] at this
    show List.Forall₂ _ (List.replicate outs (s.set k (s.getD k 0 / outs))) _
    rw [hk, ← Int.natCast_ediv]
    exact this

/-- Sizes given as an attribute (before opset 13) are ignored: the parts are equal. -/
theorem split_attribute_false : ∃ nd Ys, splitNode [⟨"axis", .int 1⟩, ⟨"split", .ints [1, 3]⟩] 2 [.shape [-1, 4]] = .ok nd ∧
    nd.forward [⟨[5, 4], fun _ => 0⟩] = .ok Ys ∧ Ys.map (·.shape) = [[5, 2], [5, 2]] ∧
    ¬IsSplit [⟨"axis", .int 1⟩, ⟨"split", .ints [1, 3]⟩] 2 none ⟨[5, 4], fun _ => 0⟩ Ys := by
  refine ⟨⟨[[-1, 2], [-1, 2]], fun xs => (argAt xs 0).bind fun x => orShape (splitEven 1 2 x)⟩,
    splitParts 1 ⟨[5, 4], fun _ => 0⟩ 0 [2, 2], rfl, rfl, rfl, ?_⟩
  rintro ⟨k, ns, hk, hp, -, -, h⟩
  have h0 := (h 0 (by simp [splitParts])).1
  have e : intAttr [⟨"axis", .int 1⟩, ⟨"split", .ints [1, 3]⟩] "axis" 0 = 1 := by simp [intAttr, attr]
  have hk1 : k = 1 := by
    rw [e] at hk
    obtain ⟨h1, h2⟩ := hk
    have h1 : k < 2 := h1
    have h2 : (1 : ℤ) = k ∨ (1 : ℤ) = (k : ℤ) - 2 := h2
    omega
  have hns : [1, 3] = ns.map fun n : ℕ => (n : ℤ) := by
    have e2 : attr [⟨"axis", .int 1⟩, ⟨"split", .ints [1, 3]⟩] "split" = some (.ints [1, 3]) := by simp [attr]
    unfold partSizes at hp; rw [e2] at hp; exact hp
  match ns, hns with
  | n :: ns, hns =>
    rw [List.map_cons, List.cons.injEq] at hns
    have : n = 1 := by omega
    subst this hk1
    simp [splitParts] at h0

/-- Without any attribute, which means equal parts along axis 0, the conversion fails. -/
theorem split_default_false (outs : ℕ) (s : List ℤ) (ins : List Inp) : splitNode [] outs (.shape s :: ins) = .error .index := rfl

end Verif.Convert
