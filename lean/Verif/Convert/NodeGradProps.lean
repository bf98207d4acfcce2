import Verif.Convert.NodeGradLemmas
import Verif.Convert.StructBack
import Verif.Convert.StructMove
import Verif.Convert.StructParts
import Verif.Convert.StructSlice

/-!
# C79: gradients of converted nodes without layers

`IsGradientOf f xs dys dxs` (`NodeGradSpec.lean`) says that `dxs` are the gradients with respect to the inputs `xs`
of `f`, if `dys` are those with respect to its outputs. Each theorem takes a node as the converter builds it, and an
input whose shape agrees with the declared shape.
-/

namespace Verif.Convert

open Verif.Tensor Verif.Keras Verif.Convert.Onnx

/-! ## Reshape, Flatten, Unsqueeze, Squeeze -/

theorem reshapeBack_ok (s : List ℤ) (X dY : Ten ℝ) (hs : Agrees s X.shape) (h0 : 0 ∉ s) (hc : s.count (-1) ≤ 1)
    (hp : dY.shape.prod = X.shape.prod) :
    ∃ dX, reshapeBack s [dY] = .ok [dX] ∧ dX.shape = X.shape ∧ SameEntries dY dX := by
  obtain ⟨hl, hk⟩ := agrees_iff.1 hs
  obtain ⟨Y₀, -, hY, hS⟩ := reshape_ok dY X.shape hp.symm
  obtain ⟨dX, e, hX, hS'⟩ := reshapeTo_ok s dY Y₀ h0 ⟨by rw [hY, hl], hc, fun k h => by
    rw [hl] at h
    have h1 : s.getD k 0 ≠ 0 := fun e => h0 (by
      rw [← e, List.getD_eq_getElem _ _ (by rw [hl]; exact h)]; exact List.getElem_mem _)
    rcases hk k h with h2 | h2
    · exact .inr (.inl h2)
    · rw [hY]; right; right; omega, hS⟩
  exact ⟨dX, e, hX.trans hY, hS'⟩

/-- **C79 (Reshape).** If at most one dimension of the declared input shape is unknown, and none is 0. -/
theorem reshape_gradient_partial (s l : List ℤ) (X Y₀ dY : Ten ℝ) (dims : List ℕ) (hs : Agrees s X.shape)
    (h0 : 0 ∉ s) (hc : s.count (-1) ≤ 1) (hl : 0 ∉ l) (hY : IsReshape l X Y₀) (hd : dY.shape = Y₀.shape) :
    ∃ nd dX, reshapeNode [.shape s, .nums dims l] = .ok nd ∧ reshapeBack s [dY] = .ok [dX] ∧
      IsGradientOf nd.forward [X] [dY] [dX] := by
  have hp := hY.2.2.2.1
  obtain ⟨dX, e, hX, hS⟩ := reshapeBack_ok s X dY hs h0 hc (by rw [hd, hp])
  refine ⟨⟨[l], reshapeTo l⟩, dX, rfl, e, gradient_same _ X dY dX Y₀.shape hp (fun Z hZ => ?_) hd hX hS⟩
  obtain ⟨Z₀, -, hZ₀, hS₀⟩ := reshape_ok Z Y₀.shape (by rw [hZ, hp])
  obtain ⟨Y, e', hY', hS'⟩ := reshapeTo_ok l Z Z₀ hl ⟨by rw [hZ₀]; exact hY.1, hY.2.1, by rw [hZ, hZ₀]; exact hY.2.2.1, hS₀⟩
  exact ⟨Y, e', hY'.trans hZ₀, hS'⟩

/-- **C79 (Flatten).** -/
theorem flatten_gradient_partial (as : List Attr) (n : ℕ) (r : List ℕ) (X dY : Ten ℝ) (ha : intAttr as "axis" 1 = 1)
    (hX : X.shape = n :: r) (hr : r ≠ []) (h0 : 0 ∉ r) (hd : dY.shape = [n, r.prod]) :
    ∃ nd dX, flattenNode as [.shape (-1 :: r.map fun d : ℕ => (d : ℤ))] = .ok nd ∧
      reshapeBack (-1 :: r.map fun d : ℕ => (d : ℤ)) [dY] = .ok [dX] ∧ IsGradientOf nd.forward [X] [dY] [dX] := by
  have hp : dY.shape.prod = X.shape.prod := by rw [hd, hX]; simp
  obtain ⟨dX, e, hdX, hS⟩ := reshapeBack_ok (-1 :: r.map fun d : ℕ => (d : ℤ)) X dY (by
    rw [hX, agrees_iff]
    refine ⟨by simp, fun k hk => ?_⟩
    cases k with
    | zero => left; rfl
    | succ k =>
        right
        have h : k < r.length := by simpa using hk
        rw [List.getD_cons_succ, List.getD_cons_succ, List.getD_eq_getElem _ _ (by simpa using h), List.getD_eq_getElem _ _ h,
          List.getElem_map]) (by
    simp only [List.mem_cons, List.mem_map, not_or, not_exists, not_and]
    exact ⟨by decide, fun d hd e => h0 (by have : d = 0 := by exact_mod_cast e
                                           rw [← this]; exact hd)⟩) (by
    rw [List.count_cons_self, List.count_eq_zero_of_not_mem]
    simp only [List.mem_map, not_exists, not_and]
    intro d _; omega) hp
  obtain ⟨nd, -, e1, -⟩ := flatten_node_partial as (-1) n r X ha hX hr h0
  refine ⟨nd, dX, e1, e, gradient_same _ X dY dX [n, r.prod] (by rw [← hd, hp]) (fun Z hZ => ?_) hd hdX hS⟩
  obtain ⟨nd', Y, e2, e3, ⟨k, hk, hka, hY, hSY⟩, -⟩ := flatten_node_partial as (-1) n r Z ha (hZ.trans hX) hr h0
  obtain rfl : nd = nd' := by rw [e1] at e2; exact Except.ok.inj e2
  refine ⟨Y, e3, ?_, hSY⟩
  rw [ha] at hka
  obtain rfl : k = 1 := by omega
  rw [hY, hZ, hX]; simp

/-- **C79 (Unsqueeze).** -/
theorem unsqueeze_gradient_partial (s : List ℤ) (X dY : Ten ℝ) (a : ℤ) (k : ℕ) (dims : List ℕ) (hs : Agrees s X.shape)
    (h0 : 0 ∉ s) (hc : s.count (-1) ≤ 1) (ha : IsAxis (X.shape.length + 1) a k) (hd : dY.shape = X.shape.insertIdx k 1) :
    ∃ nd dX, expandNode [.shape s, .nums dims [a]] = .ok nd ∧ reshapeBack s [dY] = .ok [dX] ∧
      IsGradientOf nd.forward [X] [dY] [dX] := by
  have hp : (X.shape.insertIdx k 1).prod = X.shape.prod := prod_insert _ _ (by have := ha.1; omega)
  obtain ⟨dX, e, hdX, hS⟩ := reshapeBack_ok s X dY hs h0 hc (by rw [hd, hp])
  refine ⟨⟨[insertAt a 1 0 s], expandTo a⟩, dX, rfl, e, gradient_same _ X dY dX _ hp (fun Z hZ => ?_) hd hdX hS⟩
  obtain ⟨Y, e1, e2, h⟩ := expandTo_ok a k Z (by rw [hZ]; exact ha)
  obtain ⟨-, -, -, -, -, -, hSY⟩ := h
  exact ⟨Y, e1, by rw [e2, hZ], hSY⟩

/-- **C79 (Squeeze).** With the axes as the second input. -/
theorem squeeze_gradient_partial (as : List Attr) (s : List ℤ) (X dY : Ten ℝ) (ks dims : List ℕ) (hs : Agrees s X.shape)
    (h0 : 0 ∉ s) (hc : s.count (-1) ≤ 1) (hne : ks ≠ []) (hk : ∀ k ∈ ks, k < X.shape.length ∧ X.shape.getD k 0 = 1)
    (hd : dY.shape = without ks X.shape) :
    ∃ nd dX, squeezeNode as [.shape s, .nums dims (ks.map fun k : ℕ => (k : ℤ))] = .ok nd ∧ reshapeBack s [dY] = .ok [dX] ∧
      IsGradientOf nd.forward [X] [dY] [dX] := by
  have hp : (without ks X.shape).prod = X.shape.prod := by
    rw [← dropAxes_without]; exact prod_dropAxes ks _ 0 fun k h _ _ => (hk k h).2
  obtain ⟨dX, e, hdX, hS⟩ := reshapeBack_ok s X dY hs h0 hc (by rw [hd, hp])
  refine ⟨⟨[squeezeDecl (some (ks.map fun k : ℕ => (k : ℤ))) 0 s], squeezeBy (some (ks.map fun k : ℕ => (k : ℤ)))⟩, dX, rfl, e,
    gradient_same _ X dY dX _ hp (fun Z hZ => ?_) hd hdX hS⟩
  obtain ⟨Y, e1, hY, hSY⟩ := reshape_ok Z (dropAxes ks 0 Z.shape) (by rw [dropAxes_without, hZ, hp])
  refine ⟨Y, ?_, by rw [hY, dropAxes_without, hZ], hSY⟩
  show (orShape ((squeezeAxes Z.shape (if ks.map (fun k : ℕ => (k : ℤ)) = [] then none else some (ks.map fun k : ℕ => (k : ℤ)))).bind _)).bind _ = _
  rw [if_neg (by simpa using hne), squeezeAxes_some _ _ (by rw [hZ]; exact hk), Option.bind_some, e1]; rfl

/-- Models with an unknown batch dimension meet the hypotheses: adding an axis to
`[n, 3]`, removing one from `[n, 1, 3]`, flattening `[n, 2, 3]`. -/
example (n : ℕ) (X : Ten ℝ) (hX : X.shape = [n, 1, 3]) (dY : Ten ℝ) (hd : dY.shape = [n, 3]) :
    ∃ nd dX, squeezeNode [] [.shape [-1, 1, 3], .nums [1] [1]] = .ok nd ∧ reshapeBack [-1, 1, 3] [dY] = .ok [dX] ∧
      IsGradientOf nd.forward [X] [dY] [dX] :=
  squeeze_gradient_partial [] [-1, 1, 3] X dY [1] [1] (by rw [hX]; simp [Agrees]) (by decide) (by decide) (by decide)
    (by rw [hX]; simp) (by rw [hX, hd]; rfl)

example (n : ℕ) (X : Ten ℝ) (hX : X.shape = [n, 3]) (dY : Ten ℝ) (hd : dY.shape = [n, 1, 3]) :
    ∃ nd dX, expandNode [.shape [-1, 3], .nums [] [1]] = .ok nd ∧ reshapeBack [-1, 3] [dY] = .ok [dX] ∧
      IsGradientOf nd.forward [X] [dY] [dX] :=
  unsqueeze_gradient_partial [-1, 3] X dY 1 1 [] (by rw [hX]; simp [Agrees]) (by decide) (by decide)
    (by rw [hX]; simp [IsAxis]) (by rw [hX, hd]; rfl)

example (n : ℕ) (X : Ten ℝ) (hX : X.shape = [n, 2, 3]) (dY : Ten ℝ) (hd : dY.shape = [n, 6]) :
    ∃ nd dX, flattenNode [] [.shape [-1, 2, 3]] = .ok nd ∧ reshapeBack [-1, 2, 3] [dY] = .ok [dX] ∧
      IsGradientOf nd.forward [X] [dY] [dX] :=
  flatten_gradient_partial [] n [2, 3] X dY rfl hX (by decide) (by decide) hd

/-- With two unknown dimensions in the declared input shape there is no gradient at all. -/
theorem reshape_gradient_unknown_false (s : List ℤ) (dY : Ten ℝ) (h : 2 ≤ s.count (-1)) :
    reshapeBack s [dY] = .error .shape := by
  show (orShape (tfReshape dY s)).bind _ = _
  have : inferShape dY.shape.prod s = none := by
    unfold inferShape
    by_cases h1 : s.any (· < -1) = true
    · rw [if_pos h1]
    · rw [if_neg h1, if_neg (by omega), if_neg (by omega)]
  unfold tfReshape
  rw [this]; rfl

/-! ## Transpose -/

theorem transposeBy_ok (perm : List ℕ) (X : Ten ℝ) (hp : perm.Perm (List.range X.shape.length)) :
    ∃ Y, transposeBy (perm.map fun k : ℕ => (k : ℤ)) [X] = .ok [Y] ∧ Y.shape = perm.map (fun k => X.shape.getD k 0) ∧
      ∀ j, InShape X.shape j → Y.get (perm.map fun k => j.getD k 0) = X.get j := by
  obtain ⟨nd, Y, out, e, e1, ⟨q, hq, -, hY, h⟩, -⟩ := transpose_node_partial [] perm (X.shape.map fun d : ℕ => (d : ℤ)) X (by
    rw [agrees_iff]
    refine ⟨by simp, fun k hk => .inr ?_⟩
    rw [List.getD_eq_getElem _ _ (by simpa using hk), List.getD_eq_getElem _ _ hk, List.getElem_map]) hp
  have hqp : perm = q := by
    have h1 : (perm.map fun k : ℕ => (k : ℤ)) = q.map fun k : ℕ => (k : ℤ) := by rw [← hq]; simp [intsAttr, attr]
    exact List.map_injective_iff.2 (fun a b h => by exact_mod_cast h) h1
  subst hqp
  refine ⟨Y, ?_, hY, h⟩
  have e2 : nd.forward = transposeBy (perm.map fun k : ℕ => (k : ℤ)) := by
    have e3 : (permuted (X.shape.map fun d : ℕ => (d : ℤ)) (perm.map fun k : ℕ => (k : ℤ))).bind
        (fun out => Except.ok ⟨[out], transposeBy (perm.map fun k : ℕ => (k : ℤ))⟩) = .ok nd := e
    rw [permuted_ok _ perm fun k h => by rw [List.length_map]; exact List.mem_range.1 (hp.mem_iff.1 h)] at e3
    rw [← Except.ok.inj e3]
  rw [← e2]; exact e1

/-- The argument sort of a permutation is its inverse. -/
theorem argsort_perm {perm : List ℕ} {n : ℕ} (hp : perm.Perm (List.range n)) :
    (argsort (perm.map fun k : ℕ => (k : ℤ))).Perm (List.range n) ∧
      ∀ k, k < n → perm.getD ((argsort (perm.map fun k : ℕ => (k : ℤ))).getD k 0) 0 = k := by
  have hlen : perm.length = n := by rw [hp.length_eq, List.length_range]
  have hg : ∀ k, (perm.map fun n : ℕ => (n : ℤ)).getD k 0 = (perm.getD k 0 : ℤ) := fun k => by
    by_cases h : k < perm.length
    · rw [List.getD_eq_getElem _ _ (by simpa using h), List.getD_eq_getElem _ _ h, List.getElem_map]
    · rw [List.getD_eq_default _ _ (by simpa using h), List.getD_eq_default _ _ (by omega)]; rfl
  have h1 : (argsort (perm.map fun k : ℕ => (k : ℤ))).Perm (List.range n) := by
    unfold argsort; rw [List.length_map, hlen]; exact List.mergeSort_perm _ _
  refine ⟨h1, ?_⟩
  have h2 : (argsort (perm.map fun k : ℕ => (k : ℤ))).Pairwise (fun a b => perm.getD a 0 ≤ perm.getD b 0) := by
    have h : (argsort (perm.map fun k : ℕ => (k : ℤ))).Pairwise (fun a b =>
        (decide ((perm.map fun k : ℕ => (k : ℤ)).getD a 0 ≤ (perm.map fun k : ℕ => (k : ℤ)).getD b 0)) = true) :=
      List.pairwise_mergeSort (fun a b c h1 h2 => by simp only [decide_eq_true_eq] at *; exact h1.trans h2)
        (fun a b => by simp only [Bool.or_eq_true, decide_eq_true_eq]; exact le_total _ _) _
    refine h.imp fun {a b} h => ?_
    rw [decide_eq_true_eq, hg, hg] at h
    exact_mod_cast h
  have h3 : ((argsort (perm.map fun k : ℕ => (k : ℤ))).map fun a => perm.getD a 0) = List.range n := by
    refine List.Perm.eq_of_pairwise (le := (· ≤ ·)) (fun a b _ _ h1 h2 => le_antisymm h1 h2) (List.pairwise_map.2 h2)
      (List.pairwise_lt_range.imp fun h => h.le) ?_
    have h4 := h1.map fun a => perm.getD a 0
    refine h4.trans ?_
    have h5 := range_getD perm
    rw [hlen] at h5
    rw [h5]; exact hp
  intro k hk
  have h4 : k < (argsort (perm.map fun k : ℕ => (k : ℤ))).length := by rw [h1.length_eq, List.length_range]; exact hk
  have h5 : ((argsort (perm.map fun k : ℕ => (k : ℤ))).map fun a => perm.getD a 0).getD k 0 = k := by
    rw [h3, List.getD_eq_getElem _ _ (by simpa using hk), List.getElem_range]
  rw [List.getD_eq_getElem _ _ (by simpa using h4), List.getElem_map] at h5
  rw [List.getD_eq_getElem (argsort _) _ h4]
  exact h5

theorem getD_map_range (f : ℕ → ℕ) (n k : ℕ) (h : k < n) : ((List.range n).map f).getD k 0 = f k := by
  rw [List.getD_eq_getElem _ _ (by simpa using h), List.getElem_map, List.getElem_range]

theorem getD_map_lt (f : ℕ → ℕ) (l : List ℕ) (k : ℕ) (h : k < l.length) : (l.map f).getD k 0 = f (l.getD k 0) := by
  rw [List.getD_eq_getElem _ _ (by simpa using h), List.getElem_map, List.getD_eq_getElem _ _ h]

/-- **C79 (Transpose).** The gradient is transposed back. -/
theorem transpose_gradient (rest : List Attr) (perm : List ℕ) (s : List ℤ) (X dY : Ten ℝ) (hs : Agrees s X.shape)
    (hp : perm.Perm (List.range X.shape.length)) (hd : dY.shape = perm.map fun k => X.shape.getD k 0) :
    ∃ nd dX, transposeNode (⟨"perm", .ints (perm.map fun k : ℕ => (k : ℤ))⟩ :: rest) [.shape s] = .ok nd ∧
      transposeBack (perm.map fun k : ℕ => (k : ℤ)) [dY] = .ok [dX] ∧ IsGradientOf nd.forward [X] [dY] [dX] := by
  have hlen : perm.length = X.shape.length := by rw [hp.length_eq, List.length_range]
  obtain ⟨hq, hpq⟩ := argsort_perm hp
  set q := argsort (perm.map fun k : ℕ => (k : ℤ)) with hqd
  have hql : q.length = X.shape.length := by rw [hq.length_eq, List.length_range]
  have hplt : ∀ k, k < X.shape.length → perm.getD k 0 < X.shape.length := fun k hk => by
    rw [List.getD_eq_getElem _ _ (by rw [hlen]; exact hk)]
    exact List.mem_range.1 (hp.mem_iff.1 (List.getElem_mem _))
  have hqlt : ∀ k, k < X.shape.length → q.getD k 0 < X.shape.length := fun k hk => by
    rw [List.getD_eq_getElem _ _ (by rw [hql]; exact hk)]
    exact List.mem_range.1 (hq.mem_iff.1 (List.getElem_mem _))
  have hqp : ∀ k, k < X.shape.length → q.getD (perm.getD k 0) 0 = k := fun k hk => by
    have h1 := hpq _ (hplt k hk)
    have hnd : perm.Nodup := hp.nodup_iff.2 List.nodup_range
    have h2 : q.getD (perm.getD k 0) 0 < perm.length := by rw [hlen]; exact hqlt _ (hplt k hk)
    have h3 : k < perm.length := by rw [hlen]; exact hk
    have h4 : perm[q.getD (perm.getD k 0) 0] = perm[k] := by
      rw [← List.getD_eq_getElem perm 0 h2, ← List.getD_eq_getElem perm 0 h3]; exact h1
    exact (hnd.getElem_inj_iff).1 h4
  have back : ∀ i : List ℕ, i.length = X.shape.length → (q.map fun k => (perm.map fun k => i.getD k 0).getD k 0) = i := by
    intro i hi
    apply ext_getD (by rw [List.length_map, hql, hi])
    intro k hk
    rw [List.length_map, hql] at hk
    rw [getD_map_lt _ _ _ (by rw [hql]; exact hk), getD_map_lt _ _ _ (by rw [hlen]; exact hqlt k hk), hpq k hk]
  have forth : ∀ j : List ℕ, j.length = X.shape.length → (perm.map fun k => (q.map fun k => j.getD k 0).getD k 0) = j := by
    intro i hi
    apply ext_getD (by rw [List.length_map, hlen, hi])
    intro k hk
    rw [List.length_map, hlen] at hk
    rw [getD_map_lt _ _ _ (by rw [hlen]; exact hk), getD_map_lt _ _ _ (by rw [hql]; exact hplt k hk), hqp k hk]
  have hin : ∀ i, InShape X.shape i → InShape (perm.map fun k => X.shape.getD k 0) (perm.map fun k => i.getD k 0) := by
    intro i hi
    rw [inShape_iff]
    refine ⟨by simp, fun k hk => ?_⟩
    rw [List.length_map] at hk
    rw [getD_map_lt _ _ _ hk, getD_map_lt _ _ _ hk]
    exact (inShape_iff.1 hi).2 _ (hplt k (by rw [← hlen]; exact hk))
  obtain ⟨dX, e, hdX, hget⟩ := transposeBy_ok q dY (by rw [hd, List.length_map, hlen]; exact hq)
  obtain ⟨nd, -, -, e1, -⟩ := transpose_node_partial rest perm s X hs hp
  have hnd : nd.forward = transposeBy (perm.map fun k : ℕ => (k : ℤ)) := by
    have e3 : (permuted s (perm.map fun k : ℕ => (k : ℤ))).bind
        (fun out => Except.ok ⟨[out], transposeBy (perm.map fun k : ℕ => (k : ℤ))⟩) = .ok nd := e1
    rw [permuted_ok _ perm fun k h => by rw [(agrees_iff.1 hs).1]; exact List.mem_range.1 (hp.mem_iff.1 h)] at e3
    rw [← Except.ok.inj e3]
  refine ⟨nd, dX, e1, e, ?_⟩
  rw [hnd]
  refine gradient_place _ X dY dX (perm.map fun k => X.shape.getD k 0) (fun i => perm.map fun k => i.getD k 0) ?_ hin ?_ hd ?_ ?_
  · intro Z hZ
    obtain ⟨Y, e4, hY, hg⟩ := transposeBy_ok perm Z (by rw [hZ]; exact hp)
    refine ⟨Y, e4, by rw [hY, hZ], fun i hi => hg i (by rw [hZ]; exact hi), fun j hj hn => ?_⟩
    have hjl : j.length = X.shape.length := by rw [(inShape_iff.1 hj).1, List.length_map, hlen]
    refine absurd (forth j hjl) (hn _ ?_)
    rw [inShape_iff]
    refine ⟨by rw [List.length_map, hql], fun k hk => ?_⟩
    rw [getD_map_lt _ _ _ (by rw [hql]; exact hk)]
    have := (inShape_iff.1 hj).2 (q.getD k 0) (by rw [List.length_map, hlen]; exact hqlt k hk)
    rwa [getD_map_lt _ _ _ (by rw [hlen]; exact hqlt k hk), hpq k hk] at this
  · intro i j hi hj h
    rw [← back i (inShape_iff.1 hi).1, ← back j (inShape_iff.1 hj).1]
    beta_reduce at h
    rw [h]
  · rw [hdX, hd]; exact back _ rfl
  · intro i hi
    have := hget _ (by rw [hd]; exact hin i hi)
    rwa [back i (inShape_iff.1 hi).1] at this

example : [0, 2, 3, 1].Perm (List.range (⟨[7, 2, 3, 4], fun _ => 0⟩ : Ten ℝ).shape.length) := by decide

end Verif.Convert
