import Verif.Keras.FitLemmas
import Mathlib.Tactic.Linarith
import Mathlib.Tactic.Set

/-!
# C64: which samples training, prediction and evaluation see

`fit` is documented to go over the entire data once per epoch, in batches of the given size; `predict`
to return one prediction per sample; `evaluate` to measure on all samples. What the loops do instead is
stated here for every data set, batch size, number of epochs and number of steps. The only fuel
requirement is `limit < fuel`, so the results say also that the loops end.
-/

namespace Verif.Keras

variable {X Y W R : Type}

/-- The specification of batching: consecutive groups of `k` samples, `count` of them. -/
def groups {α : Type} (k count : ℕ) (l : List α) : List (List α) :=
  (List.range count).map fun i => (l.drop (i * k)).take k

/-- One training pass over a list of batches. -/
def trainOn (train : W → List X × List Y → Except LoopErr W) (w : W) (bs : List (List X × List Y)) :
    Except LoopErr W :=
  bs.foldlM (fitBatch train) w

theorem batchList_pair (k c : ℕ) (x : List X) (y : List Y) :
    (batchList k c fun a b => (slice a b x, slice a b y)) = (groups k c x).zip (groups k c y) := by
  unfold batchList groups
  rw [List.zip_map', List.map_congr_left]
  intro i _
  simp only [slice_eq]

theorem batchList_single (k c : ℕ) (x : List X) : (batchList k c fun a b => slice a b x) = groups k c x := by
  unfold batchList groups
  refine List.map_congr_left fun i _ => ?_
  simp only [slice_eq]

theorem groups_flatten {α : Type} (k c : ℕ) (l : List α) : (groups k c l).flatten = l.take (c * k) := by
  rw [← batchList_single, slices_flatten]

/-- Groups that cover the list have all of it, in order, and nothing twice. -/
theorem groups_cover {α : Type} {k : ℕ} (hk : 0 < k) (l : List α) :
    (groups k (nBatches l.length k) l).flatten = l := by
  rw [groups_flatten, List.take_of_length_le (nBatches_cover hk)]

/-- Every group but the last has `k` elements, and the last one is not empty. -/
theorem groups_sizes {α : Type} {k : ℕ} (hk : 0 < k) (l : List α) {i : ℕ}
    (hi : i < (groups k (nBatches l.length k) l).length) :
    0 < (groups k (nBatches l.length k) l)[i].length ∧
      (i + 1 < nBatches l.length k → (groups k (nBatches l.length k) l)[i].length = k) := by
  have hi' : i < nBatches l.length k := by simpa [groups] using hi
  simp only [groups, List.getElem_map, List.getElem_range, List.length_take, List.length_drop]
  have h1 := (lt_nBatches hk).1 hi'
  refine ⟨by omega, fun h => ?_⟩
  have h2 := (lt_nBatches hk).1 h
  rw [Nat.add_mul] at h2
  omega

theorem length_batchList {B : Type} (k c : ℕ) (batch : ℕ → Option ℕ → B) : (batchList k c batch).length = c := by
  simp [batchList]

theorem nBatches_le {n k : ℕ} (hk : 0 < k) : nBatches n k ≤ n := by
  by_contra h
  have := (lt_nBatches hk).1 (by omega : n < nBatches n k)
  nlinarith

/-! ## Training -/

/-- How many batches `fit` takes from `c` available ones: all of them once if `steps_per_epoch` is not
given, however many epochs are asked for, and otherwise `steps_per_epoch` per epoch until they are used
up. -/
def taken (steps : Option ℕ) (nEpochs c : ℕ) : ℕ :=
  match steps with
  | none => c
  | some k => nEpochs * max 1 k

theorem take_quota {B : Type} {steps : Option ℕ} {n : ℕ} (hn : n ≠ 0) (bs : List B) :
    bs.take (n * quota steps 0 bs.length) = bs.take (taken steps n bs.length) := by
  cases steps with
  | some k => rfl
  | none =>
    simp only [quota, taken]
    rw [List.take_length, List.take_of_length_le]
    exact Nat.le_mul_of_pos_left _ (Nat.pos_of_ne_zero hn)

/-- **What `fit` does on two tensors**: it trains on the first batches, as many as cover the *first
dimension of a sample*, once. -/
theorem fit_value (train : W → List X × List Y → Except LoopErr W) {x : Data X} (y : Data Y) {k d : ℕ}
    {ds : List ℕ} (hk : 0 < k) (hx : x.rows ≠ []) (hd : x.sampleShape = d :: ds) {nEpochs : ℕ}
    (hn : nEpochs ≠ 0) (steps : Option ℕ) {fuel : ℕ} (hf : d < fuel) (w : W) :
    fit train x y (some k) nEpochs steps fuel w =
      some (trainOn train w (((groups k (nBatches d k) x.rows).zip (groups k (nBatches d k) y.rows)).take
        (taken steps nEpochs (nBatches d k)))) := by
  have h1 : firstSampleDim x = .ok d := by
    obtain ⟨r, t, hr⟩ := List.exists_cons_of_ne_nil hx
    simp [firstSampleDim, hr, hd]
  have hle := nBatches_le (n := d) hk
  set batch := fun a b => (slice a b x.rows, slice a b y.rows) with hb
  obtain ⟨s', hy, hend⟩ := gen_yields (limit := d) hk batch
  have hl := length_batchList k (nBatches d k) batch
  obtain ⟨s'', he⟩ := epochs_yields (steps := steps) (step := fitBatch train) hend
    (batchList k (nBatches d k) batch).length (fuel := fuel) nEpochs w hy (by omega) le_rfl
  simp only [fit, if_neg hn, h1]
  rw [he, take_quota hn, hl, hb, batchList_pair, ← trainOn]
  cases trainOn train w _ <;> rfl

/-- **Full statement: an epoch is an iteration over the entire data.** It is false: see
`fit_skips_false` and `fit_epochs_false`. The part that holds: *one* epoch covers the data, in order, in
groups of `batch_size`, if the number of batches that the first dimension of a sample would need is the
number that the samples need. -/
theorem fit_covers_partial (train : W → List X × List Y → Except LoopErr W) {x : Data X} {y : Data Y} {k d : ℕ}
    {ds : List ℕ} (hk : 0 < k) (hx : x.rows ≠ []) (hd : x.sampleShape = d :: ds)
    (hxy : x.rows.length = y.rows.length) (hc : nBatches d k = nBatches x.rows.length k) {fuel : ℕ}
    (hf : d < fuel) (w : W) :
    fit train x y (some k) 1 none fuel w =
        some (trainOn train w ((groups k (nBatches x.rows.length k) x.rows).zip
          (groups k (nBatches y.rows.length k) y.rows))) ∧
      (groups k (nBatches x.rows.length k) x.rows).flatten = x.rows ∧
      (groups k (nBatches y.rows.length k) y.rows).flatten = y.rows := by
  refine ⟨?_, groups_cover hk _, groups_cover hk _⟩
  rw [fit_value train y hk hx hd one_ne_zero none hf w, hc, ← hxy]
  congr 2
  refine List.take_of_length_le ?_
  simp [groups, taken]

example : nBatches 3 2 = nBatches [10, 20, 30, 40].length 2 := by decide

/-- The number of epochs makes no difference: all after the first train on nothing. -/
theorem fit_epochs_ignored (train : W → List X × List Y → Except LoopErr W) {x : Data X} (y : Data Y) {k d : ℕ}
    {ds : List ℕ} (hk : 0 < k) (hx : x.rows ≠ []) (hd : x.sampleShape = d :: ds) {nEpochs : ℕ}
    (hn : nEpochs ≠ 0) {fuel : ℕ} (hf : d < fuel) (w : W) :
    fit train x y (some k) nEpochs none fuel w = fit train x y (some k) 1 none fuel w := by
  rw [fit_value train y hk hx hd hn none hf, fit_value train y hk hx hd one_ne_zero none hf]
  rfl

/-- **The disagreement about epochs**: two epochs are to train on the data twice; with two samples of two
features and a training step that counts samples, the count after two epochs is two, not four. -/
theorem fit_epochs_false :
    fit (W := ℕ) (fun n b => .ok (n + b.1.length)) ⟨[2], [1, 2]⟩ ⟨[1], [1, 2]⟩ (some 1) 2 none 10 0 =
      some (.ok 2) := by
  decide

/-- **Samples that training never sees**: two data sets that agree on their first samples, as many as the
first dimension of a sample rounded up to batches, give the same model, whatever the other samples are
and however many epochs are asked for. -/
theorem fit_skips (train : W → List X × List Y → Except LoopErr W) {x x' : Data X} {y y' : Data Y} {k d : ℕ}
    {ds : List ℕ} (hk : 0 < k) (hx : x.rows ≠ []) (hx' : x'.rows ≠ []) (hd : x.sampleShape = d :: ds)
    (hd' : x'.sampleShape = d :: ds)
    (h1 : x.rows.take (nBatches d k * k) = x'.rows.take (nBatches d k * k))
    (h2 : y.rows.take (nBatches d k * k) = y'.rows.take (nBatches d k * k)) {nEpochs : ℕ}
    (hn : nEpochs ≠ 0) (steps : Option ℕ) {fuel : ℕ} (hf : d < fuel) (w : W) :
    fit train x y (some k) nEpochs steps fuel w = fit train x' y' (some k) nEpochs steps fuel w := by
  have hg : ∀ {α : Type} (l : List α), groups k (nBatches d k) (l.take (nBatches d k * k)) =
      groups k (nBatches d k) l := by
    intro α l
    refine List.map_congr_left fun i hi => ?_
    have hi : i < nBatches d k := by simpa using hi
    rw [List.drop_take, List.take_take, Nat.min_eq_left]
    have : (i + 1) * k ≤ nBatches d k * k := Nat.mul_le_mul_right _ hi
    rw [Nat.add_mul] at this
    omega
  rw [fit_value train y hk hx hd hn steps hf, fit_value train y' hk hx' hd' hn steps hf,
    ← hg x.rows, ← hg y.rows, h1, h2, hg, hg]

/-- **The disagreement about the data**: four samples of one feature in batches of two; the last two are
never used. -/
theorem fit_skips_false :
    fit (W := List ℕ) (fun n b => .ok (n ++ b.1)) ⟨[1], [1, 2, 3, 4]⟩ ⟨[1], [1, 2, 3, 4]⟩ (some 2) 5 none 10 [] =
      some (.ok [1, 2]) := by
  decide

/-- **The other direction**: if a sample has more entries in its first dimension than there are samples,
rounded to batches, a batch is empty and `fit` raises, unless an earlier step raised. -/
theorem fit_empty_raises (train : W → List X × List Y → Except LoopErr W) {x : Data X} {y : Data Y} {k d : ℕ}
    {ds : List ℕ} (hk : 0 < k) (hx : x.rows ≠ []) (hd : x.sampleShape = d :: ds)
    (hy : nBatches y.rows.length k < nBatches d k) {nEpochs : ℕ} (hn : nEpochs ≠ 0) {fuel : ℕ}
    (hf : d < fuel) (w : W) : ∃ e, fit train x y (some k) nEpochs none fuel w = some (.error e) := by
  rw [fit_value train y hk hx hd hn none hf w]
  have hlen : ((groups k (nBatches d k) x.rows).zip (groups k (nBatches d k) y.rows)).length = nBatches d k := by
    simp [groups]
  set bs := (groups k (nBatches d k) x.rows).zip (groups k (nBatches d k) y.rows) with hbs
  have hi : nBatches y.rows.length k < bs.length := by rw [hlen]; exact hy
  have hempty : (bs[nBatches y.rows.length k]).2 = [] := by
    simp only [hbs, List.getElem_zip, groups, List.getElem_map, List.getElem_range]
    rw [List.drop_of_length_le (nBatches_cover hk), List.take_nil]
  have key : ∀ (l : List (List X × List Y)) (w : W) (b), b ∈ l → b.2 = [] → ∃ e, trainOn train w l = .error e := by
    intro l
    induction l with
    | nil => intro w b hb; cases hb
    | cons c t ih =>
      intro w b hb he
      simp only [trainOn, List.foldlM_cons]
      cases hs : fitBatch train w c with
      | error e => exact ⟨e, rfl⟩
      | ok w' =>
        rcases List.mem_cons.1 hb with rfl | hb
        · simp [fitBatch, he] at hs
        · obtain ⟨e, h⟩ := ih w' b hb he
          exact ⟨e, h⟩
  rw [List.take_of_length_le (by rw [hlen]; exact le_rfl)]
  obtain ⟨e, he⟩ := key bs w _ (List.getElem_mem hi) hempty
  exact ⟨e, by rw [he]⟩

/-- Two samples of ten features, one sample per batch: a perfectly ordinary call raises. -/
theorem fit_ordinary_raises_false :
    fit (W := ℕ) (fun n b => .ok (n + b.1.length)) ⟨[10], [1, 2]⟩ ⟨[1], [1, 2]⟩ (some 1) 1 none 20 0 =
      some (.error .zeroDivision) := by
  decide

/-- Samples that are single numbers, and data without samples, are refused. -/
theorem fit_scalar_raises (train : W → List X × List Y → Except LoopErr W) {x : Data X} (y : Data Y)
    (hx : x.rows = [] ∨ x.sampleShape = []) (size : Option ℕ) {nEpochs : ℕ} (hn : nEpochs ≠ 0)
    (steps : Option ℕ) (fuel : ℕ) (w : W) :
    fit train x y size nEpochs steps fuel w = some (.error .indexError) := by
  have h : firstSampleDim x = .error .indexError := by
    obtain ⟨sh, rows⟩ := x
    rcases hx with hx | hx
    · simp only at hx; subst hx; rfl
    · simp only at hx; subst hx; cases rows <;> rfl
  simp only [fit, if_neg hn, h]

/-- **A list of tensors** has the right limit: one epoch covers the samples. Later epochs still train on
nothing, as the right-hand side does not mention their number. -/
theorem fitMany_covers (train : W → List (List X) × List Y → Except LoopErr W) (x₀ : Data X) (xs : List (Data X))
    (y : Data Y) {k : ℕ} (hk : 0 < k) (hxy : ∀ x ∈ x₀ :: xs, x.rows.length = y.rows.length) {nEpochs : ℕ}
    (hn : nEpochs ≠ 0) {fuel : ℕ} (hf : y.rows.length < fuel) (w : W) :
    fitMany train (x₀ :: xs) y (some k) nEpochs none fuel w =
      some (((List.range (nBatches y.rows.length k)).map fun i =>
        ((x₀ :: xs).map fun x => (x.rows.drop (i * k)).take k, (y.rows.drop (i * k)).take k)).foldlM train w) := by
  have hle := nBatches_le (n := y.rows.length) hk
  set batch := fun a b => ((x₀ :: xs).map fun x => slice a b x.rows, slice a b y.rows) with hb
  have h0 := hxy x₀ List.mem_cons_self
  obtain ⟨s', hy, hend⟩ := gen_yields (limit := y.rows.length) hk batch
  have hl := length_batchList k (nBatches y.rows.length k) batch
  obtain ⟨s'', he⟩ := epochs_yields (steps := none)
    (step := fun (w : W) (b : List (List X) × List Y) => if b.2 = [] then .error .zeroDivision else train w b) hend
    (batchList k (nBatches y.rows.length k) batch).length (fuel := fuel) nEpochs w hy (by omega) le_rfl
  have hlist : batchList k (nBatches y.rows.length k) batch = (List.range (nBatches y.rows.length k)).map fun i =>
      ((x₀ :: xs).map fun x => (x.rows.drop (i * k)).take k, (y.rows.drop (i * k)).take k) := by
    refine List.map_congr_left fun i _ => ?_
    simp only [hb, slice_eq]
  have hne : ∀ b ∈ batchList k (nBatches y.rows.length k) batch, b.2 ≠ [] := by
    intro b hm
    rw [hlist] at hm
    obtain ⟨i, hi, rfl⟩ := List.mem_map.1 hm
    have hi := (lt_nBatches hk).1 (List.mem_range.1 hi)
    intro h
    have := congrArg List.length h
    simp only [List.length_take, List.length_drop, List.length_nil] at this
    omega
  have hfold : ∀ (l : List (List (List X) × List Y)) (w : W), (∀ b ∈ l, b.2 ≠ []) →
      l.foldlM (fun (w : W) b => if b.2 = [] then .error .zeroDivision else train w b) w = l.foldlM train w := by
    intro l
    induction l with
    | nil => intro w _; rfl
    | cons b t ih =>
      intro w h
      simp only [List.foldlM_cons, if_neg (h b List.mem_cons_self)]
      congr 1
      funext w'
      exact ih w' fun b hb => h b (List.mem_cons_of_mem _ hb)
  simp only [fitMany, if_neg hn]
  rw [h0, he, take_quota hn, hl]
  rw [show (batchList k (nBatches y.rows.length k) batch).take (taken none nEpochs (nBatches y.rows.length k)) =
    batchList k (nBatches y.rows.length k) batch from List.take_of_length_le (by simp [taken, hl]),
    hfold _ _ hne, hlist]
  cases List.foldlM train w _ <;> rfl

/-- **An iterator** is used as it is: with `steps_per_epoch = k` the run takes `epochs · k` batches in
order (all that there are if it has fewer), and without it all of them, in the first epoch. -/
theorem fitIter_value {B : Type} (train : W → B → Except LoopErr W) (it : List B) {nEpochs : ℕ} (hn : nEpochs ≠ 0)
    (steps : Option ℕ) {fuel : ℕ} (hf : it.length < fuel) (w : W) :
    fitIter train it nEpochs steps fuel w =
      some ((it.take (taken steps nEpochs it.length)).foldlM train w) := by
  have hy : ∀ l : List B, Yields listNext l l [] := by
    intro l
    induction l with
    | nil => rfl
    | cons b t ih => exact ⟨t, rfl, ih⟩
  obtain ⟨s'', he⟩ := epochs_yields (next := listNext) (steps := steps) (step := train) (s' := []) rfl it.length
    (fuel := fuel) nEpochs w (hy it) hf le_rfl
  simp only [fitIter]
  rw [he, take_quota hn]
  cases List.foldlM train w _ <;> rfl

/-! ## Prediction -/

/-- **`predict` returns one prediction per sample, in order**, for every batch size, when the model treats
samples one by one, and opens them exactly if it was asked to. This holds for a model that has not
predicted before, or has with the same flag. -/
theorem predict_value (f : X → Y) (m : Model) {x : Data X} {k : ℕ} (hk : 0 < k) (hx : x.rows ≠ []) (reveal : Bool)
    (hm : m.predictFn.getD reveal = reveal) {fuel : ℕ} (hf : x.rows.length < fuel) :
    ∃ p, predict (fun b => b.map f) m x (some k) reveal fuel = some p ∧
      p.result = .ok (if reveal then .plain (x.rows.map f) else .secret (x.rows.map f)) ∧
      p.opened.flatten = (if reveal then x.rows.map f else []) ∧ p.model.predictFn = some reveal := by
  have hle := nBatches_le (n := x.rows.length) hk
  obtain ⟨s', hy, hend⟩ := gen_yields (limit := x.rows.length) hk fun a b => slice a b x.rows
  have hl := length_batchList k (nBatches x.rows.length k) fun a b => slice a b x.rows
  have hd := drain_yields hend hy (fuel := fuel) (by omega)
  rw [batchList_single] at hd
  set gs := groups k (nBatches x.rows.length k) x.rows with hgs
  have hflat : gs.flatten = x.rows := groups_cover hk _
  have hne : gs ≠ [] := by
    intro h
    rw [h] at hflat
    exact hx hflat.symm
  have hmap : (gs.map fun b => b.map f).flatten = x.rows.map f := by
    rw [← hflat, List.map_flatten]
  refine ⟨_, by simp only [predict, hd, hm]; rfl, ?_, ?_, rfl⟩
  · have : gs.map (predictStep (fun b => b.map f) reveal) ≠ [] := by simpa using hne
    simp only [if_neg this]
    cases reveal
    · have h : (gs.map (predictStep (fun b => b.map f) false)).mapM
          Out.secret? =
          some (gs.map fun b => b.map f) := by
        clear_value gs
        clear * -
        induction gs with
        | nil => rfl
        | cons b t ih => simp only [List.map_cons, List.mapM_cons, ih]; rfl
      simp only [concatOut, h, hmap, Bool.false_eq_true, if_false]
    · have h : (gs.map (predictStep (fun b => b.map f) true)).mapM
          Out.plain? =
          some (gs.map fun b => b.map f) := by
        clear_value gs
        clear * -
        induction gs with
        | nil => rfl
        | cons b t ih => simp only [List.map_cons, List.mapM_cons, ih]; rfl
      simp only [concatOut, h, hmap, if_true]
  · cases reveal
    · have : opened (gs.map (predictStep (fun b => b.map f) false)) = [] := by
        simp [opened, predictStep, Out.plain?]
      simp only [this, Bool.false_eq_true, if_false]; rfl
    · have : opened (gs.map (predictStep (fun b => b.map f) true)) = gs.map fun b => b.map f := by
        clear_value gs
        clear * -
        induction gs with
        | nil => rfl
        | cons b t ih => simp only [List.map_cons]; simpa [opened, predictStep, Out.plain?] using ih
      simp only [this, hmap, if_true]

/-- **The disagreement about `reveal`**: the prediction function keeps the flag of the first call. After a
call that revealed, a call with `reveal=False` opens every prediction — and then raises, since the opened
numbers cannot be concatenated as private tensors. -/
theorem predict_reveal_false (f : X → Y) {x x' : Data X} {k k' : ℕ} (hk : 0 < k) (hk' : 0 < k') (hx : x.rows ≠ [])
    (hx' : x'.rows ≠ []) {fuel fuel' : ℕ} (hf : x.rows.length < fuel) (hf' : x'.rows.length < fuel') :
    ∃ p q, predict (fun b => b.map f) {} x (some k) true fuel = some p ∧
      predict (fun b => b.map f) p.model x' (some k') false fuel' = some q ∧
      q.opened.flatten = x'.rows.map f ∧ q.result = .error .typeError := by
  obtain ⟨p, h1, -, -, h2⟩ := predict_value f {} hk hx true rfl hf
  refine ⟨p, ?_⟩
  have hle := nBatches_le (n := x'.rows.length) hk'
  obtain ⟨s', hy, hend⟩ := gen_yields (limit := x'.rows.length) hk' fun a b => slice a b x'.rows
  have hl := length_batchList k' (nBatches x'.rows.length k') fun a b => slice a b x'.rows
  have hd := drain_yields hend hy (fuel := fuel') (by omega)
  rw [batchList_single] at hd
  set gs := groups k' (nBatches x'.rows.length k') x'.rows with hgs
  have hflat : gs.flatten = x'.rows := groups_cover hk' _
  obtain ⟨b, t, hbt⟩ : ∃ b t, gs = b :: t := by
    cases h : gs with
    | nil => rw [h] at hflat; exact absurd hflat.symm hx'
    | cons b t => exact ⟨b, t, rfl⟩
  have hmap : (gs.map fun b => b.map f).flatten = x'.rows.map f := by
    rw [← hflat, List.map_flatten]
  refine ⟨_, h1, by simp only [predict, hd, h2, Option.getD_some]; rfl, ?_, ?_⟩
  · have : opened (gs.map (predictStep (fun b => b.map f) true)) = gs.map fun b => b.map f := by
      clear_value gs
      clear * -
      induction gs with
      | nil => rfl
      | cons b t ih => simp only [List.map_cons]; simpa [opened, predictStep, Out.plain?] using ih
    simp only [this, hmap]
  · have : gs.map (predictStep (fun b => b.map f) true) ≠ [] := by rw [hbt]; simp
    simp only [if_neg this]
    rw [hbt]
    rfl

/-- Without samples there is nothing to concatenate: `predict` raises. -/
theorem predict_empty_raises (call : List X → List Y) (m : Model) (sh : List ℕ) (size : Option ℕ) (reveal : Bool)
    {fuel : ℕ} (hf : 0 < fuel) :
    ∃ p, predict call m ⟨sh, []⟩ size reveal fuel = some p ∧ p.result = .error .indexError := by
  obtain ⟨fuel, rfl⟩ := Nat.exists_eq_succ_of_ne_zero hf.ne'
  exact ⟨_, rfl, rfl⟩

/-- `batch_size=None` raises after the first batch, which is all of the data. -/
theorem predict_none_raises (call : List X → List Y) (m : Model) {x : Data X} (hx : x.rows ≠ []) (reveal : Bool)
    {fuel : ℕ} (hf : 1 < fuel) :
    ∃ p, predict call m x none reveal fuel = some p ∧ p.result = .error .typeError := by
  obtain ⟨fuel, rfl⟩ := Nat.exists_eq_add_of_le hf
  have h : 0 < x.rows.length := List.length_pos_iff.2 hx
  have e : 1 + 1 + fuel = fuel + 1 + 1 := by omega
  have hd : drain (genNext x.rows.length none fun a b => slice a b x.rows) (1 + 1 + fuel) (genInit none) =
      some (.error .typeError) := by
    rw [e]
    simp only [drain, genInit, genNext, genTest, h, if_true]
  exact ⟨_, by simp only [predict, Nat.succ_eq_add_one, hd]; rfl, rfl⟩

/-- A batch size of zero never ends: no amount of fuel is enough. -/
theorem predict_zero_diverges (call : List X → List Y) (m : Model) {x : Data X} (hx : x.rows ≠ []) (reveal : Bool)
    (fuel : ℕ) : predict call m x (some 0) reveal fuel = none := by
  have h : 0 < x.rows.length := List.length_pos_iff.2 hx
  have hy : ∀ fuel, drain (genNext x.rows.length (some 0) fun a b => slice a b x.rows) fuel (.yielded 0 (some 0)) =
      none := by
    intro fuel
    induction fuel with
    | zero => rfl
    | succ n ih => simp only [drain, genNext, genTest, Nat.add_zero, h, if_true, ih]
  have : drain (genNext x.rows.length (some 0) fun a b => slice a b x.rows) fuel (genInit (some 0)) = none := by
    cases fuel with
    | zero => rfl
    | succ n => simp only [drain, genInit, genNext, genTest, h, if_true, hy]
  simp only [predict, this]

/-! ## Evaluation -/

/-- **`evaluate` measures on the first batches**, as many as the first dimension of a sample needs, or
`steps` of them; on all samples if that is enough batches. -/
theorem evaluate_value (f : X → Y) (metric : List Y → List Y → R) {x : Data X} {y : Data Y} {k d : ℕ}
    {ds : List ℕ} (hk : 0 < k) (hx : x.rows ≠ []) (hd : x.sampleShape = d :: ds) (h0 : d ≠ 0)
    {fuel : ℕ} (hf : d < fuel) :
    evaluate (fun b => b.map f) metric x y (some k) none fuel =
      some (.ok (metric (y.rows.take (nBatches d k * k)) ((x.rows.take (nBatches d k * k)).map f))) := by
  have h1 : firstSampleDim x = .ok d := by
    obtain ⟨r, t, hr⟩ := List.exists_cons_of_ne_nil hx
    simp [firstSampleDim, hr, hd]
  have hle := nBatches_le (n := d) hk
  have hpos : 0 < nBatches d k := by rw [lt_nBatches hk]; omega
  set batch := fun a b => (slice a b x.rows, slice a b y.rows) with hb
  obtain ⟨s', hy, hend⟩ := gen_yields (limit := d) hk batch
  have hl := length_batchList k (nBatches d k) batch
  have hc := collect_yields (steps := none) hend (index := 0) (fuel := fuel) hy (by omega) le_rfl
  simp only [evaluate, h1]
  rw [hc]
  simp only [quota, List.take_length]
  have hne : batchList k (nBatches d k) batch ≠ [] := by
    intro h; rw [h] at hl; simp at hl; omega
  rw [if_neg hne, hb, batchList_pair]
  have e1 : (((groups k (nBatches d k) x.rows).zip (groups k (nBatches d k) y.rows)).map fun b => b.2) =
      groups k (nBatches d k) y.rows := List.map_snd_zip (by simp [groups])
  have e2 : (((groups k (nBatches d k) x.rows).zip (groups k (nBatches d k) y.rows)).map fun b => b.1.map f) =
      (groups k (nBatches d k) x.rows).map fun b => b.map f := by
    have h : (((groups k (nBatches d k) x.rows).zip (groups k (nBatches d k) y.rows)).map fun b => b.1) =
        groups k (nBatches d k) x.rows := List.map_fst_zip (by simp [groups])
    rw [← h, List.map_map, h]
    rfl
  rw [e1, e2, groups_flatten, ← List.map_flatten, groups_flatten]

/-- The part of "evaluation is on all of the data" that holds. -/
theorem evaluate_all_partial (f : X → Y) (metric : List Y → List Y → R) {x : Data X} {y : Data Y} {k d : ℕ}
    {ds : List ℕ} (hk : 0 < k) (hx : x.rows ≠ []) (hd : x.sampleShape = d :: ds) (h0 : d ≠ 0)
    (hxy : x.rows.length = y.rows.length) (hc : nBatches x.rows.length k ≤ nBatches d k)
    {fuel : ℕ} (hf : d < fuel) :
    evaluate (fun b => b.map f) metric x y (some k) none fuel = some (.ok (metric y.rows (x.rows.map f))) := by
  have h := nBatches_cover (n := x.rows.length) hk
  have h2 := Nat.mul_le_mul_right k hc
  rw [evaluate_value f metric hk hx hd h0 hf, List.take_of_length_le (by omega), List.take_of_length_le (by omega)]

/-- **The disagreement about the default**: `evaluate` called without a batch size raises, whatever the
data, unless at most one step is asked for. -/
theorem evaluate_default_false (call : List X → List Y) (metric : List Y → List Y → R) {x : Data X} (y : Data Y)
    {d : ℕ} {ds : List ℕ} (hx : x.rows ≠ []) (hd : x.sampleShape = d :: ds) (h0 : d ≠ 0) {steps : Option ℕ}
    (hs : ∀ k, steps = some k → 1 < k) {fuel : ℕ} (hf : 1 < fuel) :
    evaluate call metric x y none steps fuel = some (.error .typeError) := by
  have h1 : firstSampleDim x = .ok d := by
    obtain ⟨r, t, hr⟩ := List.exists_cons_of_ne_nil hx
    simp [firstSampleDim, hr, hd]
  obtain ⟨fuel, rfl⟩ := Nat.exists_eq_add_of_le hf
  have e : 1 + 1 + fuel = fuel + 1 + 1 := by omega
  have he : enough steps 0 = false := by
    cases steps with
    | none => rfl
    | some k => have := hs k rfl; simp only [enough]; simp; omega
  rw [evaluate, e]
  simp only [h1, collect, genInit, genNext, genTest, Nat.pos_of_ne_zero h0, if_true, he, Bool.false_eq_true, if_false]

example : evaluate (fun b => b.map (· + 1)) (fun a b => (a, b)) ⟨[2], [1, 2, 3, 4]⟩ ⟨[1], [5, 6, 7, 8]⟩ (some 1) none 9 =
    some (.ok ([5, 6], [2, 3])) := by decide

end Verif.Keras
