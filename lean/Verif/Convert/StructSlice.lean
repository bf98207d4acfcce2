import Verif.Convert.StructParts

/-!
# C78: converted nodes without layers: Slice, Gather and Pad

See `StructProps.lean`.
-/

namespace Verif.Convert

open Verif.Tensor Verif.Keras Verif.Convert.Onnx

/-! ## Slice -/

theorem okBind {β γ : Type} (a : β) (f : β → Except NErr γ) : (Except.ok a : Except NErr β).bind f = f a := rfl

theorem setAxes_ok (r : ℕ) : ∀ (axes vs t : List ℤ), t.length = r → axes.length = vs.length →
    (∀ a ∈ axes, ∃ k, IsAxis r a k) → axes.Pairwise (fun a b => ∀ k, IsAxis r a k → ¬IsAxis r b k) →
    ∃ t', setAxes t axes vs = .ok t' ∧ t'.length = r ∧
      (∀ p k, p < axes.length → IsAxis r (axes.getD p 0) k → t'.getD k 0 = vs.getD p 0) ∧
      ∀ k, (∀ a ∈ axes, ¬IsAxis r a k) → t'.getD k 0 = t.getD k 0
  | [], vs, t, ht, _, _, _ => ⟨t, by rw [setAxes], ht, fun p k hp => by simp at hp, fun _ _ => rfl⟩
  | a :: axes, [], t, _, hl, _, _ => by simp at hl
  | a :: axes, v :: vs, t, ht, hl, hv, hpw => by
      obtain ⟨k, hk⟩ := hv a (by simp)
      rw [List.pairwise_cons] at hpw
      obtain ⟨t', e, hl', h1, h2⟩ := setAxes_ok r axes vs (t.set k v) (by simpa using ht) (by simpa using hl)
        (fun b hb => hv b (by simp [hb])) hpw.2
      refine ⟨t', ?_, hl', ?_, ?_⟩
      · rw [setAxes, ht, axisOf_iff.2 hk]; exact e
      · intro p j hp hj
        cases p with
        | zero =>
            rw [List.getD_cons_zero] at hj ⊢
            have : j = k := by obtain ⟨_, _⟩ := hj; obtain ⟨_, _⟩ := hk; omega
            subst this
            rw [h2 j fun b hb => hpw.1 b hb j hj, getD_set_self _ _ _ _ (by rw [ht]; exact hj.1)]
        | succ p =>
            rw [List.getD_cons_succ] at hj ⊢
            exact h1 p j (by simpa using hp) hj
      · intro j hj
        rw [h2 j fun b hb => hj b (by simp [hb]), getD_set_ne]
        rintro rfl
        exact hj a (by simp) hk

/-- The steps along an axis of `d` entries that are taken as documented: positive ones, and negative ones if there
are entries and the start is not before all of them. -/
def StepOk (d : ℕ) (b s : ℤ) : Prop := 0 < s ∨ s < 0 ∧ 0 < d ∧ -(d : ℤ) ≤ b

/-- What `tf.strided_slice` takes along one axis. -/
theorem sliceDim_ok (d : ℕ) (b e s : ℤ) (hs : StepOk d b s) :
    ∃ (o : ℤ) (n : ℕ), sliceDim d b e s = some (o, n) ∧ SliceDim d b e s o n := by
  rcases hs with hs | ⟨hs, hd, hb⟩
  · unfold sliceDim SliceDim
    rw [if_neg (by omega), if_pos hs]
    dsimp only
    generalize (if b < 0 then b + (d : ℤ) else b) = b'
    generalize (if e < 0 then e + (d : ℤ) else e) = e'
    refine ⟨_, _, rfl, fun _ => ⟨by omega, ?_⟩, fun h => absurd hs (by omega)⟩
    intro q
    rw [Int.lt_toNat, show max 0 (min (d : ℤ) e') = min (max e' 0) (d : ℤ) by omega]
    generalize min (max b' 0) (d : ℤ) = u
    generalize min (max e' 0) (d : ℤ) = w
    have h := Int.ediv_lt_iff_lt_mul (a := u - w) (b := -(q : ℤ)) hs
    constructor
    · intro h'
      have := h.1 (by omega)
      linarith
    · intro h'
      have := h.2 (by linarith)
      omega
  · unfold sliceDim SliceDim
    rw [if_neg (by omega), if_neg (by omega)]
    dsimp only
    have hb' : 0 ≤ (if b < 0 then b + (d : ℤ) else b) := by split <;> omega
    generalize (if b < 0 then b + (d : ℤ) else b) = b' at hb'
    generalize (if e < 0 then e + (d : ℤ) else e) = e'
    refine ⟨_, _, rfl, fun h => absurd hs (by omega), fun _ => ⟨by omega, ?_⟩⟩
    intro q
    rw [Int.lt_toNat, show max (-1) (min ((d : ℤ) - 1) e') = min (max e' (-1)) ((d : ℤ) - 1) by omega]
    generalize min (max b' (-1)) ((d : ℤ) - 1) = u
    generalize min (max e' (-1)) ((d : ℤ) - 1) = w
    have h := Int.ediv_lt_iff_lt_mul (a := w - u) (b := -(q : ℤ)) (c := -s) (by omega)
    constructor
    · intro h'
      have := h.1 (by omega)
      linarith
    · intro h'
      have := h.2 (by linarith)
      omega

theorem sliceDims_ok : ∀ (ds : List ℕ) (bs es ss : List ℤ), bs.length = ds.length → es.length = ds.length → ss.length = ds.length →
    (∀ k, k < ds.length → StepOk (ds.getD k 0) (bs.getD k 0) (ss.getD k 0)) →
    ∃ ps : List (ℤ × ℕ × ℤ), sliceDims ds bs es ss = some ps ∧ ps.length = ds.length ∧
      ∀ k, k < ds.length → (ps.getD k 0).2.2 = ss.getD k 0 ∧
        SliceDim (ds.getD k 0) (bs.getD k 0) (es.getD k 0) (ss.getD k 0) (ps.getD k 0).1 (ps.getD k 0).2.1
  | [], [], [], [], _, _, _, _ => ⟨[], rfl, rfl, fun k h => by simp at h⟩
  | d :: ds, b :: bs, e :: es, s :: ss, h1, h2, h3, h4 => by
      obtain ⟨ps, eps, hl, hps⟩ := sliceDims_ok ds bs es ss (by simpa using h1) (by simpa using h2) (by simpa using h3)
        fun k hk => by have := h4 (k + 1) (by simpa using hk); simpa only [List.getD_cons_succ] using this
      obtain ⟨o, n, eo, ho⟩ := sliceDim_ok d b e s (by have := h4 0 (by simp); simpa only [List.getD_cons_zero] using this)
      refine ⟨(o, n, s) :: ps, ?_, by simp [hl], ?_⟩
      · rw [sliceDims, eo, eps]; rfl
      · intro k hk
        cases k with
        | zero => exact ⟨rfl, ho⟩
        | succ k =>
            simp only [List.getD_cons_succ]
            exact hps k (by simpa using hk)
  | [], _ :: _, _, _, h, _, _, _ | [], _, _ :: _, _, _, h, _, _ | [], _, _, _ :: _, _, _, h, _ => by simp at h
  | _ :: _, [], _, _, h, _, _, _ | _ :: _, _, [], _, _, h, _, _ | _ :: _, _, _, [], _, _, h, _ => by simp at h

/-- The inputs of `Slice`: the tensor, starts and ends; optionally the axes; and with them optionally the steps. -/
def sliceInputs (s starts ends : List ℤ) : Option (List ℤ × Option (List ℤ)) → List Inp
  | none => [.shape s, .nums [starts.length] starts, .nums [ends.length] ends]
  | some (axes, none) => [.shape s, .nums [starts.length] starts, .nums [ends.length] ends, .nums [axes.length] axes]
  | some (axes, some steps) => [.shape s, .nums [starts.length] starts, .nums [ends.length] ends, .nums [axes.length] axes,
      .nums [steps.length] steps]

theorem getD_replicate {β : Type} (n k : ℕ) (v d : β) (h : k < n) : (List.replicate n v).getD k d = v := by
  rw [List.getD_eq_getElem _ _ (by simpa using h), List.getElem_replicate]

theorem sliceNode_run (s starts ends : List ℤ) (o : Option (List ℤ × Option (List ℤ))) (axes steps b e t : List ℤ)
    (hax : axes = (o.map (·.1)).getD ((List.range s.length).map fun k : ℕ => (k : ℤ)))
    (hsteps : steps = (o.bind (·.2)).getD (List.replicate axes.length 1))
    (ht : setAxes (List.replicate s.length 1) axes steps = .ok t ∨ (o.bind (·.2) = none ∧ t = List.replicate s.length 1))
    (ht' : o.bind (·.2) = none → t = List.replicate s.length 1)
    (hb : setAxes (List.replicate s.length 0) axes starts = .ok b) (he : setAxes s axes ends = .ok e) :
    sliceNode (sliceInputs s starts ends o) =
      .ok ⟨[e], fun xs => (argAt xs 0).bind fun x => (orShape (sliceT b e t x)).map fun y => [y]⟩ := by
  rcases o with _ | ⟨ax, _ | st⟩
  · subst hax
    rw [ht' rfl]
    show (setAxes (List.replicate s.length 0) ((List.range s.length).map fun k : ℕ => (k : ℤ)) starts).bind (fun b =>
      (setAxes s ((List.range s.length).map fun k : ℕ => (k : ℤ)) ends).bind fun e => _) = _
    have hb : setAxes (List.replicate s.length 0) ((List.range s.length).map fun k : ℕ => (k : ℤ)) starts = .ok b := hb
    have he : setAxes s ((List.range s.length).map fun k : ℕ => (k : ℤ)) ends = .ok e := he
    rw [hb, okBind, he]; rfl
  · have hax : axes = ax := hax
    subst hax
    rw [ht' rfl]
    show (setAxes (List.replicate s.length 0) axes starts).bind (fun b => (setAxes s axes ends).bind fun e => _) = _
    rw [hb, okBind, he]; rfl
  · have hax : axes = ax := hax
    subst hax
    have hst : steps = st := hsteps
    subst hst
    have ht : setAxes (List.replicate s.length 1) axes steps = .ok t := by
      rcases ht with h | ⟨h, -⟩
      · exact h
      · simp at h
    show (setAxes (List.replicate s.length 1) axes steps).bind (fun t => (setAxes (List.replicate s.length 0) axes starts).bind fun b => (setAxes s axes ends).bind fun e => _) = _
    rw [ht, okBind, hb, okBind, he]; rfl

/-- **C78 (Slice).** With distinct axes, as long as the declared size of every axis that is not listed is known,
the node computes `Slice`, for positive steps, and for negative ones unless the axis is empty or the start is
before its first entry (`slice_start_false`). The declared size of a listed axis is its end. -/
theorem slice_node_partial (s starts ends : List ℤ) (o : Option (List ℤ × Option (List ℤ))) (axes steps : List ℤ)
    (hax : axes = (o.map (·.1)).getD ((List.range s.length).map fun k : ℕ => (k : ℤ)))
    (hsteps : steps = (o.bind (·.2)).getD (List.replicate axes.length 1)) (X : Ten ℝ) (hs : Agrees s X.shape)
    (h1 : starts.length = axes.length) (h2 : ends.length = axes.length) (h3 : steps.length = axes.length)
    (hv : ∀ a ∈ axes, ∃ k, IsAxis s.length a k) (hd : axes.Pairwise fun a b => ∀ k, IsAxis s.length a k → ¬IsAxis s.length b k)
    (hpos : ∀ p k, p < axes.length → IsAxis s.length (axes.getD p 0) k →
      StepOk (X.shape.getD k 0) (starts.getD p 0) (steps.getD p 0))
    (hk : ∀ k, k < s.length → (∀ a ∈ axes, ¬IsAxis s.length a k) → s.getD k 0 = X.shape.getD k 0) :
    ∃ nd Y out, sliceNode (sliceInputs s starts ends o) = .ok nd ∧ nd.forward [X] = .ok [Y] ∧
      IsSlice starts ends (o.map (·.1)) (o.bind (·.2)) X Y ∧ nd.outShapes = [out] ∧ out.length = s.length ∧
      (∀ p k, p < axes.length → IsAxis s.length (axes.getD p 0) k → out.getD k 0 = ends.getD p 0) ∧
      ∀ k, (∀ a ∈ axes, ¬IsAxis s.length a k) → out.getD k 0 = s.getD k 0 := by
  obtain ⟨hl, hag⟩ := agrees_iff.1 hs
  obtain ⟨b, eb, lb, b1, b2⟩ := setAxes_ok s.length axes starts (List.replicate s.length 0) (by simp) h1.symm hv hd
  obtain ⟨e, ee, le, e1, e2⟩ := setAxes_ok s.length axes ends s rfl h2.symm hv hd
  obtain ⟨t, et, lt, t1, t2⟩ := setAxes_ok s.length axes steps (List.replicate s.length 1) (by simp) h3.symm hv hd
  have ht0 : o.bind (·.2) = none → t = List.replicate s.length 1 := by
    intro hn
    rw [hn, Option.getD_none] at hsteps
    apply ext_getD (by simpa using lt)
    intro k hk'
    rw [getD_replicate _ _ _ _ (by omega)]
    by_cases h : ∃ a ∈ axes, IsAxis s.length a k
    · obtain ⟨a, ha, hak⟩ := h
      obtain ⟨p, hp, rfl⟩ := List.getElem_of_mem ha
      rw [t1 p k hp (by rw [List.getD_eq_getElem _ _ hp]; exact hak), hsteps, getD_replicate _ _ _ _ hp]
    · rw [t2 k fun a ha hak => h ⟨a, ha, hak⟩, getD_replicate _ _ _ _ (by omega)]
  have htp : ∀ k, k < X.shape.length → StepOk (X.shape.getD k 0) (b.getD k 0) (t.getD k 0) := by
    intro k hk'
    by_cases h : ∃ a ∈ axes, IsAxis s.length a k
    · obtain ⟨a, ha, hak⟩ := h
      obtain ⟨p, hp, rfl⟩ := List.getElem_of_mem ha
      have hak' : IsAxis s.length (axes.getD p 0) k := by rw [List.getD_eq_getElem _ _ hp]; exact hak
      rw [t1 p k hp hak', b1 p k hp hak']
      exact hpos p k hp hak'
    · rw [t2 k fun a ha hak => h ⟨a, ha, hak⟩, getD_replicate _ _ _ _ (by omega)]; exact .inl (by decide)
  obtain ⟨ps, eps, lps, hps⟩ := sliceDims_ok X.shape b e t (by omega) (by omega) (by omega) htp
  refine ⟨_, ⟨ps.map fun p => p.2.1, fun i => X.get (List.zipWith (fun (p : ℤ × ℕ × ℤ) (q : ℕ) => (p.1 + q * p.2.2).toNat) ps i)⟩, e,
    sliceNode_run s starts ends o axes steps b e t hax hsteps (.inl et) ht0 eb ee, ?_, ?_, rfl, le, e1, e2⟩
  · show (orShape (sliceT b e t X)).map _ = _
    unfold sliceT
    rw [eps]; rfl
  · have hget : ∀ k, k < X.shape.length → (ps.map fun p => p.2.1).getD k 0 = (ps.getD k 0).2.1 := fun k h => by
      rw [List.getD_eq_getElem _ _ (by simp; omega), List.getElem_map, List.getD_eq_getElem _ _ (by omega)]
    unfold IsSlice
    rw [← hl, ← hax]
    dsimp only
    rw [← hsteps]
    refine ⟨h1, h2, h3, hv, ?_, by simp [lps, hl], fun k => (ps.getD k 0).1, fun k => t.getD k 0, ?_, ?_, ?_⟩
    · intro v hv'
      obtain ⟨p, hp, rfl⟩ := List.getElem_of_mem hv'
      obtain ⟨k, hk'⟩ := hv (axes.getD p 0) (by
        rw [List.getD_eq_getElem _ _ (by omega)]; exact List.getElem_mem _)
      have := hpos p k (by omega) hk'
      rw [List.getD_eq_getElem steps _ hp] at this
      rcases this with h | ⟨h, -⟩ <;> omega
    · intro p k hp hax'
      have hkX : k < X.shape.length := by rw [← hl]; exact hax'.1
      obtain ⟨hq2, hq3⟩ := hps k hkX
      rw [t1 p k hp hax', b1 p k hp hax', e1 p k hp hax'] at hq3
      simp only [hget k hkX]
      exact ⟨(t1 p k hp hax').symm, hq3⟩
    · intro k hkX hno
      obtain ⟨hq2, hq3⟩ := hps k (by omega)
      have hsk := hk k hkX hno
      rw [t2 k hno, b2 k hno, e2 k hno, getD_replicate _ _ _ _ (by omega), getD_replicate _ _ _ _ (by omega), hsk] at hq3
      obtain ⟨hq3, h4⟩ := hq3.1 (by decide)
      have hq0 : (ps.getD k 0).1 = 0 := by
        rw [hq3, if_neg (by omega)]; omega
      refine ⟨hq0, by beta_reduce; rw [t2 k hno, getD_replicate _ _ _ _ hkX], ?_⟩
      rw [hget k (by omega)]
      rw [hq0] at h4
      have h5 : ∀ u : ℕ, u < (ps.getD k 0).2.1 ↔ u < X.shape.getD k 0 := fun u => by
        rw [h4 u, if_neg (by omega)]; omega
      have h6 := h5 (ps.getD k 0).2.1
      have h7 := h5 (X.shape.getD k 0)
      omega
    · intro i hi
      have hil := (inShape_iff.1 hi).1
      rw [List.length_map] at hil
      show X.get _ = X.get _
      congr 1
      apply ext_getD (by simp; omega)
      intro k hk'
      have hkp : k < ps.length := by simp at hk'; omega
      obtain ⟨hq2, -⟩ := hps k (by omega)
      rw [List.getD_eq_getElem _ _ hk', List.getElem_zipWith, List.getD_eq_getElem _ _ (by simp; omega), List.getElem_map,
        List.getElem_range]
      beta_reduce
      rw [← hq2, List.getD_eq_getElem _ _ hkp, List.getD_eq_getElem _ _ (by omega : k < i.length)]

/-- A start before the first entry and a negative step: `Slice` takes the first entry (its start is clamped to 0),
the node takes nothing. -/
theorem slice_start_false : ∃ nd Y, sliceNode (sliceInputs [2] [-5] [-9] (some ([0], some [-1]))) = .ok nd ∧
    nd.forward [⟨[2], fun _ => 0⟩] = .ok [Y] ∧ Y.shape = [0] ∧
    ¬IsSlice [-5] [-9] (some [0]) (some [-1]) ⟨[2], fun _ => 0⟩ Y := by
  refine ⟨⟨[[-9]], fun xs => (argAt xs 0).bind fun x => (orShape (sliceT [-5] [-9] [-1] x)).map fun y => [y]⟩,
    ⟨[0], fun _ => 0⟩, rfl, rfl, rfl, ?_⟩
  rintro ⟨-, -, -, -, -, -, b, s, h, -, -⟩
  have h1 := (h 0 0 (by simp) ⟨by decide, by decide⟩).2.2 (by decide)
  have h2 := h1.1
  have h3 := (h1.2 0).2 (by rw [h2]; decide)
  simp at h3

/-- The hypothesis about the steps, for `x[::-1, -1:0:-2]` of a tensor of shape `[3, 5]`. -/
example : ∀ p k, p < ([0, 1] : List ℤ).length → IsAxis 2 (([0, 1] : List ℤ).getD p 0) k →
    StepOk (([3, 5] : List ℕ).getD k 0) (([2, -1] : List ℤ).getD p 0) (([-1, -2] : List ℤ).getD p 0) := by
  intro p k hp hk
  have hp : p < 2 := hp
  have hk' := hk.1
  interval_cases p <;> interval_cases k <;> exact .inr ⟨by decide, by decide, by decide⟩

/-- The hypotheses, for `x[:, 1:4, -2:]` of a batch whose first dimension is listed too. -/
example : (∀ a ∈ ([0, 1, -1] : List ℤ), ∃ k, IsAxis ([-1, 5, 6] : List ℤ).length a k) ∧
    ([0, 1, -1] : List ℤ).Pairwise (fun a b => ∀ k, IsAxis ([-1, 5, 6] : List ℤ).length a k → ¬IsAxis ([-1, 5, 6] : List ℤ).length b k) ∧
    ∀ k, k < ([-1, 5, 6] : List ℤ).length → (∀ a ∈ ([0, 1, -1] : List ℤ), ¬IsAxis ([-1, 5, 6] : List ℤ).length a k) →
      ([-1, 5, 6] : List ℤ).getD k 0 = ([3, 5, 6] : List ℕ).getD k 0 := by
  refine ⟨?_, ?_, ?_⟩
  · intro a ha
    simp only [List.mem_cons, List.not_mem_nil, or_false] at ha
    rcases ha with rfl | rfl | rfl
    · exact ⟨0, by decide, by decide⟩
    · exact ⟨1, by decide, by decide⟩
    · exact ⟨2, by decide, by decide⟩
  · simp only [List.pairwise_cons, List.mem_cons, List.not_mem_nil, or_false, forall_eq_or_imp, forall_eq, IsAxis,
      List.length_cons, List.length_nil]
    refine ⟨⟨?_, ?_⟩, ?_, by simp, .nil⟩ <;> rintro k ⟨h1, h2⟩ ⟨h3, h4⟩ <;> norm_num at h2 h4 <;> omega
  · intro k hk h
    have hk : k < 3 := hk
    interval_cases k
    · exact absurd ⟨by decide, by decide⟩ (h 0 (by simp))
    · exact absurd ⟨by decide, by decide⟩ (h 1 (by simp))
    · exact absurd ⟨by decide, by decide⟩ (h (-1) (by simp))

/-- If the batch, whose declared size is -1, is not listed, then its end is -1 and the last sample is dropped. -/
theorem slice_batch_false (n : ℕ) (X : Ten ℝ) (hX : X.shape = [n + 1, 4]) :
    Agrees [-1, 4] X.shape ∧ ∃ nd Y, sliceNode [.shape [-1, 4], .nums [1] [0], .nums [1] [2], .nums [1] [1]] = .ok nd ∧
      nd.forward [X] = .ok [Y] ∧ Y.shape = [n, 2] ∧ ¬IsSlice [0] [2] (some [1]) none X Y := by
  refine ⟨by rw [hX]; simp [Agrees], ⟨[[-1, 2]], fun xs => (argAt xs 0).bind fun x => (orShape (sliceT [0, 0] [-1, 2] [1, 1] x)).map fun y => [y]⟩,
    ⟨[n, 2], fun i => X.get (List.zipWith (fun (p : ℤ × ℕ × ℤ) (q : ℕ) => (p.1 + q * p.2.2).toNat) [(0, n, 1), (0, 2, 1)] i)⟩, rfl, ?_, rfl, ?_⟩
  · have e1 : sliceDim (n + 1) 0 (-1) 1 = some (0, n) := by
      unfold sliceDim
      simp only [Int.ediv_one]
      rw [if_neg (by decide), if_pos (by decide), if_neg (by decide), if_pos (by decide)]
      congr 2
      push_cast; omega
    have e2 : sliceDim 4 0 2 1 = some (0, 2) := by decide
    have e : sliceDims [n + 1, 4] [0, 0] [-1, 2] [1, 1] = some [(0, n, 1), (0, 2, 1)] := by
      rw [sliceDims, e1, sliceDims, e2]; rfl
    show (orShape (sliceT [0, 0] [-1, 2] [1, 1] X)).map _ = _
    unfold sliceT
    rw [hX, e]; rfl
  · rintro ⟨-, -, -, -, -, -, b, s, -, h, -⟩
    have := (h 0 (by rw [hX]; simp) (by
      intro a ha hx
      simp only [Option.getD_some, List.mem_singleton] at ha
      subst ha
      rw [hX] at hx
      have := hx.2
      simp at this)).2.2
    rw [hX] at this
    simp at this

/-- The declared size is the end of the slice, not its length. -/
theorem slice_declared_false : ∃ nd Y, sliceNode [.shape [5, 4], .nums [1] [1], .nums [1] [3], .nums [1] [1]] = .ok nd ∧
    nd.forward [⟨[5, 4], fun _ => 0⟩] = .ok [Y] ∧ Y.shape = [5, 2] ∧ nd.outShapes = [[5, 3]] ∧ ¬Agrees [5, 3] Y.shape := by
  refine ⟨⟨[[5, 3]], fun xs => (argAt xs 0).bind fun x => (orShape (sliceT [0, 1] [5, 3] [1, 1] x)).map fun y => [y]⟩,
    ⟨[5, 2], fun _ => 0⟩, rfl, rfl, rfl, rfl, ?_⟩
  intro h
  have := (agrees_iff.1 h).2 1 (by decide)
  revert this; decide

/-! ## Gather -/

theorem gatherDecl_skip (a : ℤ) (n : ℕ) : ∀ (s : List ℤ) (i : ℕ), a < i ∨ (i + s.length : ℤ) ≤ a → gatherDecl a n i s = s
  | [], _, _ => rfl
  | x :: s, i, h => by
      simp only [List.length_cons] at h
      push_cast at h
      rw [gatherDecl, if_neg (by omega), gatherDecl_skip a n s (i + 1) (by push_cast; omega)]

theorem gatherDecl_set (n : ℕ) : ∀ (s : List ℤ) (i k : ℕ), i ≤ k → gatherDecl (k : ℤ) n i s = s.set (k - i) n
  | [], _, _, _ => rfl
  | x :: s, i, k, h => by
      rw [gatherDecl]
      by_cases e : i = k
      · subst e
        rw [if_pos rfl, gatherDecl_skip _ _ _ _ (by left; push_cast; omega), Nat.sub_self, List.set_cons_zero]
      · rw [if_neg (by omega), gatherDecl_set n s (i + 1) k (by omega), show k - i = (k - (i + 1)) + 1 by omega, List.set_cons_succ]

theorem attrOf_axis (rest : List Attr) (a : ℤ) (h : attrOf rest "axis" = none) : attrKey (⟨"axis", .int a⟩ :: rest) "axis" = .ok ⟨"axis", .int a⟩ := by
  unfold attrOf at h
  unfold attrKey attrOf
  rw [List.reverse_cons, List.find?_append, h]
  simp

theorem gatherT_ok (dims : List ℕ) (data : List ℤ) (a : ℤ) (k : ℕ) (X : Ten ℝ) (hk : IsAxis X.shape.length a k)
    (hlen : data.length = dims.prod) (hv : ∀ v ∈ data, 0 ≤ v ∧ v < (X.shape.getD k 0 : ℤ)) (as : List Attr) (ha : intAttr as "axis" 0 = a) :
    ∃ Y, gatherT dims data a X = some Y ∧ Y.shape = X.shape.take k ++ dims ++ X.shape.drop (k + 1) ∧ IsGather as dims data X Y := by
  refine ⟨⟨X.shape.take k ++ dims ++ X.shape.drop (k + 1), fun i =>
    X.get (i.take k ++ [(data.getD (flat dims ((i.drop k).take dims.length)) 0).toNat] ++ i.drop (k + dims.length))⟩, ?_, rfl, k, by rw [ha]; exact hk, rfl, ?_⟩
  · unfold gatherT
    rw [axisOf_iff.2 hk]
    dsimp only
    rw [if_pos hv]
  · intro pre mid post h1 h2 h3
    have l1 : pre.length = k := by rw [(inShape_iff.1 h1).1, List.length_take]; have := hk.1; omega
    have l2 : mid.length = dims.length := (inShape_iff.1 h2).1
    have hf : flat dims mid < data.length := by rw [hlen]; exact flat_lt dims mid h2
    obtain ⟨v1, v2⟩ := hv _ (List.getElem_mem hf)
    refine ⟨data[flat dims mid].toNat, ⟨by omega, .inl ?_⟩, ?_⟩
    · rw [List.getD_eq_getElem _ _ hf]; omega
    · show X.get _ = X.get _
      congr 1
      rw [List.append_assoc pre mid post, List.take_append_of_le_length (by omega), ← l1, List.take_length, List.drop_left, ← l2,
        List.take_left, List.getD_eq_getElem _ _ hf, ← List.append_assoc, ← List.length_append, List.drop_left]

/-- **C78 (Gather).** A vector of constant indices that do not count from the end. -/
theorem gather_node_partial (rest : List Attr) (hrest : attrOf rest "axis" = none) (k n : ℕ) (s data : List ℤ) (X : Ten ℝ)
    (hs : Agrees s X.shape) (hk : k < X.shape.length) (hn : data.length = n)
    (hv : ∀ v ∈ data, 0 ≤ v ∧ v < (X.shape.getD k 0 : ℤ)) :
    ∃ nd Y out, gatherNode (⟨"axis", .int k⟩ :: rest) [.shape s, .nums [n] data] = .ok nd ∧ nd.forward [X] = .ok [Y] ∧
      IsGather (⟨"axis", .int k⟩ :: rest) [n] data X Y ∧ nd.outShapes = [out] ∧ Agrees out Y.shape := by
  obtain ⟨Y, e, hY, hG⟩ := gatherT_ok [n] data k k X ⟨hk, .inl rfl⟩ (by simpa using hn) hv (⟨"axis", .int k⟩ :: rest)
    (by simp [intAttr, attr])
  refine ⟨⟨[gatherDecl k n 0 s], fun xs => (argAt xs 0).bind fun x => (orShape (gatherT [n] data k x)).map fun y => [y]⟩, Y, _, ?_, ?_, hG, rfl, ?_⟩
  · show (attrKey (⟨"axis", .int k⟩ :: rest) "axis").bind _ = _
    rw [attrOf_axis _ _ hrest]; rfl
  · show (orShape (gatherT [n] data k X)).map _ = _
    rw [e]; rfl
  · rw [gatherDecl_set n s 0 k (by omega), Nat.sub_zero, hY]
    have := agrees_set hs k n
    rw [List.set_eq_take_append_cons_drop (l := X.shape), if_pos hk] at this
    simpa using this

example : attrOf [] "axis" = none ∧ ∀ v ∈ ([2, 0, 2] : List ℤ), 0 ≤ v ∧ v < ((⟨[7, 3], fun _ => 0⟩ : Ten ℝ).shape.getD 1 0 : ℤ) := by
  refine ⟨rfl, ?_⟩; decide

/-- A single index, which removes the axis, raises when the graph is converted. -/
theorem gather_scalar_false (k : ℕ) (d : ℤ) (s data : List ℤ) (h : k < s.length) :
    gatherNode [⟨"axis", .int k⟩] [.shape s, .nums [] (d :: data)] = .error .type := by
  show (gatherLen s.length k []).bind _ = _
  rw [gatherLen, if_pos (by omega)]; rfl

/-- Negative indices, which count from the end, raise when the model is used. -/
theorem gather_negative_false : ∃ nd, gatherNode [⟨"axis", .int 1⟩] [.shape [-1, 3], .nums [1] [-1]] = .ok nd ∧
    (∃ Y, IsGather [⟨"axis", .int 1⟩] [1] [-1] ⟨[4, 3], fun i => i.sum⟩ Y) ∧
    nd.forward [⟨[4, 3], fun i => i.sum⟩] = .error .shape := by
  refine ⟨⟨[[-1, 1]], fun xs => (argAt xs 0).bind fun x => (orShape (gatherT [1] [-1] 1 x)).map fun y => [y]⟩, rfl, ?_, rfl⟩
  obtain ⟨Y, -, hY, k, hk, -, h⟩ := gatherT_ok [1] [2] 1 1 ⟨[4, 3], fun i => (i.sum : ℝ)⟩ ⟨by decide, by decide⟩ rfl (by decide)
    [⟨"axis", .int 1⟩] (by simp [intAttr, attr])
  have e : intAttr [⟨"axis", .int 1⟩] "axis" 0 = 1 := by simp [intAttr, attr]
  have hk1 : k = 1 := by
    rw [e] at hk
    obtain ⟨h1, h2⟩ := hk
    have h1 : k < 2 := h1
    have h2 : (1 : ℤ) = k ∨ (1 : ℤ) = (k : ℤ) - 2 := h2
    omega
  subst hk1
  refine ⟨Y, 1, hk, hY, fun pre mid post h1 h2 h3 => ?_⟩
  obtain ⟨v, hv, hg⟩ := h pre mid post h1 h2 h3
  refine ⟨v, ⟨hv.1, ?_⟩, hg⟩
  have hf : flat [1] mid < 1 := flat_lt [1] mid h2
  have hf0 : flat [1] mid = 0 := by omega
  have h4 := hv.2
  have h5 := hv.1
  rw [hf0] at h4 ⊢
  have h5 : v < 3 := h5
  have h4 : (2 : ℤ) = v ∨ (2 : ℤ) = (v : ℤ) - 3 := h4
  show (-1 : ℤ) = v ∨ (-1 : ℤ) = (v : ℤ) - 3
  omega

/-- Without the attribute, which means axis 0, the conversion fails. -/
theorem gather_default_false (s : List ℤ) (i : Inp) : gatherNode [] [.shape s, i] = .error .key := rfl

/-- An axis that counts from the end is not changed in the declared shape, and a matrix of indices does not add
an axis to it. -/
theorem gather_declared_false :
    (∃ nd Y, gatherNode [⟨"axis", .int (-1)⟩] [.shape [-1, 3], .nums [2] [0, 1]] = .ok nd ∧
      nd.forward [⟨[4, 3], fun _ => 0⟩] = .ok [Y] ∧ Y.shape = [4, 2] ∧ nd.outShapes = [[-1, 3]] ∧ ¬Agrees [-1, 3] Y.shape) ∧
    ∃ nd Y, gatherNode [⟨"axis", .int 1⟩] [.shape [-1, 3], .nums [2, 2] [0, 1, 1, 2]] = .ok nd ∧
      nd.forward [⟨[4, 3], fun _ => 0⟩] = .ok [Y] ∧ Y.shape = [4, 2, 2] ∧ nd.outShapes = [[-1, 2]] ∧ ¬Agrees [-1, 2] Y.shape := by
  refine ⟨⟨⟨[[-1, 3]], fun xs => (argAt xs 0).bind fun x => (orShape (gatherT [2] [0, 1] (-1) x)).map fun y => [y]⟩,
    ⟨[4, 2], fun _ => 0⟩, rfl, rfl, rfl, rfl, ?_⟩,
    ⟨⟨[[-1, 2]], fun xs => (argAt xs 0).bind fun x => (orShape (gatherT [2, 2] [0, 1, 1, 2] 1 x)).map fun y => [y]⟩,
    ⟨[4, 2, 2], fun _ => 0⟩, rfl, rfl, rfl, rfl, ?_⟩⟩
  · intro h
    have := (agrees_iff.1 h).2 1 (by decide)
    revert this; decide
  · intro h
    have := (agrees_iff.1 h).1
    revert this; decide

/-! ## Pad -/

theorem original_spec : ∀ (ps : List (ℕ × ℕ)) (ds is : List ℕ), ps.length = ds.length → is.length = ds.length →
    ((∀ k, k < ds.length → (ps.getD k 0).1 ≤ is.getD k 0 ∧ is.getD k 0 < (ps.getD k 0).1 + ds.getD k 0) ∧
      original ps ds is = some ((List.range ds.length).map fun k => is.getD k 0 - (ps.getD k 0).1)) ∨
    ((∃ k, k < ds.length ∧ ¬((ps.getD k 0).1 ≤ is.getD k 0 ∧ is.getD k 0 < (ps.getD k 0).1 + ds.getD k 0)) ∧
      original ps ds is = none)
  | [], [], [], _, _ => .inl ⟨fun k h => by simp at h, rfl⟩
  | (b, c) :: ps, d :: ds, i :: is, h1, h2 => by
      by_cases h : b ≤ i ∧ i < b + d
      · rcases original_spec ps ds is (by simpa using h1) (by simpa using h2) with ⟨h3, h4⟩ | ⟨⟨k, hk, h3⟩, h4⟩
        · left
          refine ⟨fun k hk => ?_, ?_⟩
          · cases k with
            | zero => exact h
            | succ k => simp only [List.getD_cons_succ]; exact h3 k (by simpa using hk)
          · rw [original, if_pos h, h4, List.length_cons, List.range_succ_eq_map, List.map_cons, List.map_map]; rfl
        · right
          refine ⟨⟨k + 1, by simpa using hk, by simpa only [List.getD_cons_succ] using h3⟩, ?_⟩
          rw [original, if_pos h, h4]; rfl
      · right
        exact ⟨⟨0, by simp, by simpa only [List.getD_cons_zero] using h⟩, by rw [original, if_neg h]⟩
  | [], _ :: _, _, h, _ | _ :: _, [], _, h, _ => by simp at h
  | [], [], _ :: _, _, h | _ :: _, _ :: _, [], _, h => by simp at h

theorem paddedShape_spec : ∀ (ps : List (ℕ × ℕ)) (ds : List ℕ), ps.length = ds.length →
    paddedShape ps ds = (List.range ds.length).map fun k => ds.getD k 0 + (ps.getD k 0).1 + (ps.getD k 0).2
  | [], [], _ => rfl
  | (b, c) :: ps, d :: ds, h => by
      rw [paddedShape, paddedShape_spec ps ds (by simpa using h), List.length_cons, List.range_succ_eq_map, List.map_cons, List.map_map]
      congr 1
      simp only [List.getD_cons_zero]; omega
  | [], _ :: _, h | _ :: _, [], h => by simp at h

/-- **C78 (Pad).** In the mode `constant`, by zeros; only dimensions of declared size are padded. -/
theorem pad_node_partial (as : List Attr) (hm : strAttr as "mode" "constant" = "constant") (value : Option ℝ) (hval : value.getD 0 = 0)
    (s : List ℤ) (X : Ten ℝ) (hs : Agrees s X.shape) (pads dims : List ℕ) (rest : List Inp) (hp : pads.length = 2 * X.shape.length)
    (hu : ∀ k, k < X.shape.length → s.getD k 0 = -1 → pads.getD k 0 = 0 ∧ pads.getD (k + X.shape.length) 0 = 0) :
    ∃ nd Y out, padNode as (.shape s :: .nums dims (pads.map fun n : ℕ => (n : ℤ)) :: rest) = .ok nd ∧ nd.forward [X] = .ok [Y] ∧
      IsPad as pads value X Y ∧ nd.outShapes = [out] ∧ Agrees out Y.shape := by
  obtain ⟨hl, hd⟩ := agrees_iff.1 hs
  have hg : ∀ k, (pads.map fun n : ℕ => (n : ℤ)).getD k 0 = (pads.getD k 0 : ℤ) := fun k => by
    by_cases h : k < pads.length
    · rw [List.getD_eq_getElem _ _ (by simpa using h), List.getD_eq_getElem _ _ h, List.getElem_map]
    · rw [List.getD_eq_default _ _ (by simpa using h), List.getD_eq_default _ _ (by omega)]; rfl
  have hhalf : (pads.map fun n : ℕ => (n : ℤ)).length / 2 = X.shape.length := by rw [List.length_map, hp]; omega
  have ep : padPairs (pads.map fun n : ℕ => (n : ℤ)) =
      some ((List.range X.shape.length).map fun k => (pads.getD k 0, pads.getD (k + X.shape.length) 0)) := by
    unfold padPairs
    rw [if_neg (by simp), hhalf]
    simp only [hg, Int.toNat_natCast]
  have hpl : ((List.range X.shape.length).map fun k => (pads.getD k 0, pads.getD (k + X.shape.length) 0)).length = X.shape.length := by simp
  have hpg : ∀ k, k < X.shape.length →
      ((List.range X.shape.length).map fun k => (pads.getD k 0, pads.getD (k + X.shape.length) 0)).getD k 0 =
        (pads.getD k 0, pads.getD (k + X.shape.length) 0) := fun k h => by
    rw [List.getD_eq_getElem _ _ (by simpa using h), List.getElem_map, List.getElem_range]
  obtain ⟨Y, e, hY, hget⟩ := padLoop_isPadded X _ hpl.le
  have hYs : Y.shape = (List.range X.shape.length).map fun k => X.shape.getD k 0 + pads.getD k 0 + pads.getD (k + X.shape.length) 0 := by
    rw [hY, paddedShape_spec _ _ hpl]
    apply List.map_congr_left
    intro k hk
    rw [hpg k (List.mem_range.1 hk)]
  refine ⟨⟨[(List.range s.length).map fun i => s.getD i 0 + (pads.map fun n : ℕ => (n : ℤ)).getD i 0 +
      (pads.map fun n : ℕ => (n : ℤ)).getD (i + (pads.map fun n : ℕ => (n : ℤ)).length / 2) 0],
    fun xs => (argAt xs 0).bind fun x => (orShape ((padPairs (pads.map fun n : ℕ => (n : ℤ))).bind fun ps => padLoop x 0 ps)).map fun y => [y]⟩,
    Y, _, ?_, ?_, ⟨hp, hYs, ?_⟩, rfl, ?_⟩
  · show (padDecl (pads.map fun n : ℕ => (n : ℤ)) s).bind _ = _
    unfold padDecl
    rw [if_neg (by rw [hhalf]; omega)]; rfl
  · show (orShape ((padPairs (pads.map fun n : ℕ => (n : ℤ))).bind fun ps => padLoop X 0 ps)).map _ = _
    rw [ep, Option.bind_some, e]; rfl
  · intro i hi
    rw [hm]
    have hil : i.length = X.shape.length := by rw [(inShape_iff.1 hi).1, hYs]; simp
    rw [hval, hget i hi]
    rcases original_spec _ X.shape i hpl hil with ⟨h3, h4⟩ | ⟨⟨k, hk, h3⟩, h4⟩
    · left
      rw [h4]
      refine ⟨fun k hk => ?_, ?_⟩
      · have := h3 k hk
        rwa [hpg k hk] at this
      · show X.get _ = X.get _
        congr 1
        apply List.map_congr_left
        intro k hk
        rw [hpg k (List.mem_range.1 hk)]
    · right
      rw [h4]
      refine ⟨⟨k, hk, ?_⟩, rfl⟩
      rwa [hpg k hk] at h3
  · rw [agrees_iff, hYs]
    refine ⟨by simp [hl], fun k hk => ?_⟩
    rw [List.length_map, List.length_range] at hk
    rw [List.getD_eq_getElem _ _ (by rw [List.length_map, List.length_range, hl]; exact hk), List.getElem_map, List.getElem_range,
      List.getD_eq_getElem ((List.range X.shape.length).map _) _ (by simpa using hk), List.getElem_map, List.getElem_range, hg, hg, hhalf]
    have h1 := hd k hk
    have h2 := hu k hk
    push_cast
    rcases h1 with h1 | h1
    · obtain ⟨h3, h4⟩ := h2 h1
      left; rw [h1, h3, h4]; rfl
    · right; rw [h1]

example : strAttr [] "mode" "constant" = "constant" ∧
    ∀ k, k < (⟨[7, 2, 3], fun _ => 0⟩ : Ten ℝ).shape.length → ([-1, 2, 3] : List ℤ).getD k 0 = -1 →
      [0, 1, 1, 0, 0, 2].getD k 0 = 0 ∧ [0, 1, 1, 0, 0, 2].getD (k + (⟨[7, 2, 3], fun _ => 0⟩ : Ten ℝ).shape.length) 0 = 0 :=
  ⟨rfl, by decide⟩

/-- The third input, the value to pad with, is ignored: zeros are used. -/
theorem pad_value_false : ∃ nd Y, padNode [] [.shape [-1, 2], .nums [4] [0, 1, 0, 0], .real ⟨[], fun _ => 7⟩] = .ok nd ∧
    nd.forward [⟨[1, 2], fun _ => 5⟩] = .ok [Y] ∧ Y.get [0, 0] = 0 ∧ ¬IsPad [] [0, 1, 0, 0] (some 7) ⟨[1, 2], fun _ => 5⟩ Y := by
  obtain ⟨nd, Y, -, e1, e2, ⟨-, hY, h⟩, -, -⟩ := pad_node_partial [] rfl none rfl [-1, 2] ⟨[1, 2], fun _ => 5⟩ (by simp [Agrees])
    [0, 1, 0, 0] [4] [.real ⟨[], fun _ => 7⟩] rfl (by decide)
  have hin : InShape Y.shape [0, 0] := by rw [hY]; simp [InShape, List.range_succ]
  have h0 : Y.get [0, 0] = 0 := by
    rcases h [0, 0] hin with ⟨h, -⟩ | ⟨-, h⟩
    · exact absurd (h 1 (by decide)).1 (by decide)
    · exact h
  refine ⟨nd, Y, e1, e2, h0, ?_⟩
  rintro ⟨-, -, h'⟩
  rcases h' [0, 0] hin with ⟨h, -⟩ | ⟨-, h⟩
  · exact absurd (h 1 (by decide)).1 (by decide)
  · rw [h0] at h; simp at h

/-- The mode is ignored: where the nearest entries, mirrored entries or repeated entries were asked for, too,
zeros are used. -/
theorem pad_mode_false (m : String) (hm : m = "edge" ∨ m = "reflect" ∨ m = "wrap") :
    ∃ nd Y, padNode [⟨"mode", .other m⟩] [.shape [-1, 2], .nums [4] [0, 1, 0, 0]] = .ok nd ∧
    nd.forward [⟨[1, 2], fun _ => 5⟩] = .ok [Y] ∧ Y.get [0, 0] = 0 ∧
    ¬IsPad [⟨"mode", .other m⟩] [0, 1, 0, 0] none ⟨[1, 2], fun _ => 5⟩ Y := by
  obtain ⟨nd, Y, -, e1, e2, ⟨-, hY, h⟩, -, -⟩ := pad_node_partial [] rfl none rfl [-1, 2] ⟨[1, 2], fun _ => 5⟩ (by simp [Agrees])
    [0, 1, 0, 0] [4] [] rfl (by decide)
  have hin : InShape Y.shape [0, 0] := by rw [hY]; simp [InShape, List.range_succ]
  have h0 : Y.get [0, 0] = 0 := by
    rcases h [0, 0] hin with ⟨h, -⟩ | ⟨-, h⟩
    · exact absurd (h 1 (by decide)).1 (by decide)
    · exact h
  refine ⟨nd, Y, e1, e2, h0, ?_⟩
  rintro ⟨-, -, h'⟩
  have hm' : strAttr [⟨"mode", .other m⟩] "mode" "constant" = m := by simp [strAttr, attr]
  have := h' [0, 0] hin
  rw [hm'] at this
  rcases hm with rfl | rfl | rfl
  · dsimp only at this
    rw [h0] at this
    simp at this
  · obtain ⟨v, hv, -⟩ := this
    rw [h0] at hv
    simp at hv
  · obtain ⟨v, hv, -⟩ := this
    rw [h0] at hv
    simp at hv

/-- What the modes mean: `[1, 2, 3]` with two entries in front. Mirrored `[3, 2, 1, 2, 3]`, repeated
`[2, 3, 1, 2, 3]`. -/
example : IsPad [⟨"mode", .other "reflect"⟩] [2, 0] none ⟨[3], fun i => i.getD 0 0 + 1⟩
      ⟨[5], fun i => ([3, 2, 1, 2, 3] : List ℝ).getD (i.getD 0 0) 0⟩ ∧
    IsPad [⟨"mode", .other "wrap"⟩] [2, 0] none ⟨[3], fun i => i.getD 0 0 + 1⟩
      ⟨[5], fun i => ([2, 3, 1, 2, 3] : List ℝ).getD (i.getD 0 0) 0⟩ := by
  have hm (m : String) : strAttr [⟨"mode", .other m⟩] "mode" "constant" = m := by simp [strAttr, attr]
  constructor
  · refine ⟨rfl, rfl, fun i hi => ?_⟩
    rw [hm]
    obtain ⟨hl, hi⟩ := inShape_iff.1 hi
    have hi : i.getD 0 0 < 5 := hi 0 (by decide)
    refine ⟨fun _ => ([2, 1, 0, 1, 2] : List ℕ).getD (i.getD 0 0) 0, ?_, fun k hk => ?_⟩
    · dsimp only
      generalize i.getD 0 0 = q at hi
      interval_cases q <;> norm_num [List.range_succ]
    · have hk : k < 1 := hk
      interval_cases k
      generalize i.getD 0 0 = q at hi
      interval_cases q <;> decide
  · refine ⟨rfl, rfl, fun i hi => ?_⟩
    rw [hm]
    obtain ⟨hl, hi⟩ := inShape_iff.1 hi
    have hi : i.getD 0 0 < 5 := hi 0 (by decide)
    refine ⟨fun _ => ([1, 2, 0, 1, 2] : List ℕ).getD (i.getD 0 0) 0, ?_, fun k hk => ?_⟩
    · dsimp only
      generalize i.getD 0 0 = q at hi
      interval_cases q <;> norm_num [List.range_succ]
    · have hk : k < 1 := hk
      interval_cases k
      generalize i.getD 0 0 = q at hi
      interval_cases q <;> decide

/-- Amounts given as an attribute (before opset 11) raise. -/
theorem pad_attribute_false (as : List Attr) (s : List ℤ) : padNode as [.shape s] = .error .index := rfl

end Verif.Convert
