import Verif.Data.Lemmas

/-!
# C80: data sets split among owners

`Schedule` (Spec.lean) says what a sequence of batches of sample numbers should look like. The
theorems say what every owner delivers, whatever order TensorFlow's seeded shuffle produces (`sh`)
and whatever record files earlier runs have left on the owner's disk, as long as these hold what
their names say (`Right`).
-/

namespace Verif.Data

variable {R L B : Type}

/-- An empty disk is right, and `generator_builder` keeps it right. -/
theorem right_empty (raw : Bool → Raw R L) : Right raw fun _ => none := fun _ _ h => by cases h

theorem right_kept (raw : Bool → Raw R L) (calls : List (Bool × Bool × DS)) :
    Right raw (calls.foldl (fun disk c => (build raw c.1 c.2.1 c.2.2 disk).disk) fun _ => none) := by
  have : ∀ disk, Right raw disk →
      Right raw (calls.foldl (fun disk c => (build raw c.1 c.2.1 c.2.2 disk).disk) disk) := by
    induction calls with
    | nil => exact fun _ h => h
    | cons c cs ih => exact fun disk h => ih _ (build_right raw _ _ _ disk h)
  exact this _ (right_empty raw)

/-- **Vertical split.** There is one schedule of all samples that every owner of some rows of the
images follows, and so does an owner of the labels, and an owner of whole images: the `i`-th batches
of all of them are about the same samples in the same order. -/
theorem vertical_aligned (raw : Bool → Raw R L) (sh : Shuffle) (batch : ℕ) (hb : 0 < batch)
    (train : Bool) (hraw : (raw train).Ok train) :
    ∃ idx, Schedule (total train) batch train idx ∧
      (∀ (a b : ℕ) (image label : Bool) (disk : Disk R L) (ds : DS), a ≤ b → b ≤ 28 →
        (image = true ∨ label = true) → Right raw disk →
        ((DS.mk' batch train).bind fun d => d.getitem (.vertical (Slc.of a b))) = .ok ds →
        ∀ i, session raw sh image label ds disk i = .ok ((idx i).map fun l => l.map fun n =>
          ⟨if image then (raw train).images[n]?.map (rows a b) else none,
           if label then (raw train).labels[n]? else none⟩)) ∧
      (∀ (image label : Bool) (disk : Disk R L) (ds : DS),
        (image = true ∨ label = true) → Right raw disk → DS.mk' batch train = .ok ds →
        ∀ i, session raw sh image label ds disk i = .ok ((idx i).map fun l => l.map fun n =>
          ⟨if image then (raw train).images[n]? else none,
           if label then (raw train).labels[n]? else none⟩)) := by
  have hpos : (0 : ℤ) < total train := by cases train <;> decide
  refine ⟨idxOf sh (total train) batch train (total train), idxOf_schedule sh _ batch hb train _,
    ?_, ?_⟩
  · intro a b image label disk ds hab hb' hnl hr hds i
    have hds' : ds = (⟨batch, train, (b : ℤ) - a, total train, .vertical (Slc.of a b), none⟩ : DS) := by
      unfold DS.mk' at hds
      rw [if_neg (by omega)] at hds
      simp only [Except.bind, DS.getitem, DS.mk', if_neg (by omega : ¬ batch = 0)] at hds
      exact (Except.ok.inj hds).symm
    subst hds'
    have hi := vertical_images (raw train) a b hab
      (fun im him => by rw [hraw.rows im him]; exact hb')
    have := session_eq raw sh image label hnl (⟨batch, train, (b : ℤ) - a, total train,
      .vertical (Slc.of a b), none⟩ : DS) rfl disk hr ((raw train).images.map (rows a b))
      (raw train).labels hi rfl (by rw [List.length_map, hraw.images, hraw.labels]) (by
        intro im him
        obtain ⟨im', h', rfl⟩ := List.mem_map.1 him
        simp only [rows, List.length_take, List.length_drop, hraw.rows im' h']
        show (((min (b - a) (28 - a) : ℕ)) : ℤ) = (b : ℤ) - a
        omega) hpos i
    rw [this]
    simp only [List.length_map, hraw.images, List.getElem?_map]
  · intro image label disk ds hnl hr hds i
    have hds' : ds = (⟨batch, train, 28, total train, .whole, none⟩ : DS) := by
      unfold DS.mk' at hds
      rw [if_neg (by omega)] at hds
      exact (Except.ok.inj hds).symm
    subst hds'
    have := session_eq raw sh image label hnl (⟨batch, train, 28, total train, .whole,
      none⟩ : DS) rfl disk hr (raw train).images
      (raw train).labels rfl rfl (by rw [hraw.images, hraw.labels]) (by
        intro im him
        rw [hraw.rows im him]; rfl) hpos i
    rw [this, hraw.images]

/-- Adjacent vertical parts put side by side are the part they make up; together the parts of a
split of the 28 rows are the whole image. -/
theorem rows_join (a b c : ℕ) (hab : a ≤ b) (hbc : b ≤ c) (im : List R) :
    rows a b im ++ rows b c im = rows a c im := by
  unfold rows
  rw [show im.drop b = (im.drop a).drop (b - a) by rw [List.drop_drop]; congr 1; omega]
  rw [show c - a = (b - a) + (c - b) by omega, List.take_add]

theorem rows_whole (im : List R) (h : im.length = 28) : rows 0 28 im = im := by
  unfold rows
  rw [List.drop_zero]
  exact List.take_of_length_le (by omega)

/-- **Horizontal split.** The owner of the samples `a`, ..., `b - 1` delivers these and no others,
on a proper schedule with as many batches to a pass as the object announces; image and label of a
sample stay together, also when they are held in different places. -/
theorem horizontal_split (raw : Bool → Raw R L) (sh : Shuffle) (batch : ℕ) (hb : 0 < batch)
    (train : Bool) (hraw : (raw train).Ok train) (a b : ℕ) (hab : a < b) (hbN : b ≤ total train)
    (ds : DS)
    (hds : ((DS.mk' batch train).bind fun d => d.getitem (.slice (Slc.of a b))) = .ok ds) :
    ds.iterations = ((b - a) / batch : ℕ) ∧
    ∃ idx, Schedule (b - a) batch train idx ∧
      ∀ (image label : Bool) (disk : Disk R L), (image = true ∨ label = true) → Right raw disk →
        ∀ i, session raw sh image label ds disk i = .ok ((idx i).map fun l => l.map fun n =>
          ⟨if image then (raw train).images[a + n]? else none,
           if label then (raw train).labels[a + n]? else none⟩) := by
  have hds' : ds = (⟨batch, train, 28, (b : ℤ) - a, .horizontal (Slc.of a b), none⟩ : DS) := by
    unfold DS.mk' at hds
    rw [if_neg (by omega)] at hds
    simp only [Except.bind, DS.getitem, DS.mk', if_neg (by omega : ¬ batch = 0)] at hds
    exact (Except.ok.inj hds).symm
  subst hds'
  refine ⟨?_, idxOf sh ((b : ℤ) - a) batch train (b - a), idxOf_schedule sh _ batch hb train _, ?_⟩
  · show ((b : ℤ) - a) / batch = _
    rw [← Nat.cast_sub hab.le]
    norm_cast
  · intro image label disk hnl hr i
    have hi := pick_of (raw train).images a b hab.le (by rw [hraw.images]; exact hbN)
    have hl := pick_of (raw train).labels a b hab.le (by rw [hraw.labels]; exact hbN)
    have hlen : (((raw train).images.drop a).take (b - a)).length = b - a := by
      rw [List.length_take, List.length_drop, hraw.images]; omega
    have := session_eq raw sh image label hnl (⟨batch, train, 28, (b : ℤ) - a,
      .horizontal (Slc.of a b), none⟩ : DS) rfl disk hr _ _ hi hl (by
        rw [hlen, List.length_take, List.length_drop, hraw.labels]; omega) (by
        intro im him
        rw [hraw.rows im (List.mem_of_mem_drop (List.mem_of_mem_take him))]; rfl)
        (by show (0 : ℤ) < (b : ℤ) - a; omega) i
    rw [this, hlen]
    show Except.ok (Option.map _ (idxOf sh ((b : ℤ) - a) batch train (b - a) i)) = _
    cases hidx : idxOf sh ((b : ℤ) - a) batch train (b - a) i with
    | none => rfl
    | some l =>
      simp only [Option.map_some]
      congr 2
      apply List.map_congr_left
      intro n hn
      have hlt := (idxOf_schedule sh ((b : ℤ) - a) batch hb train (b - a)).range i l hidx n hn
      rw [getElem?_part _ _ _ _ hlt, getElem?_part _ _ _ _ hlt]

/-! ## Where the claim fails -/

/-- Slicing a slice forgets the outer slice: the samples of `ds[100:200][0:10]` are the first ten of
the whole set. -/
theorem nested_slice_ignored (ds d : DS) (i j : Idx) (h : ds.getitem i = .ok d) :
    d.getitem j = ds.getitem j := by
  have : d.batch = ds.batch ∧ d.train = ds.train := by
    unfold DS.getitem DS.mk' at h
    by_cases hb : ds.batch = 0
    · cases i <;> simp [hb, Except.bind] at h
    · cases i with
      | slice s =>
        simp only [hb, if_false, Except.bind] at h
        cases hs : s.span with
        | error e => rw [hs] at h; cases h
        | ok n => rw [hs] at h; cases h; exact ⟨rfl, rfl⟩
      | vertical s =>
        simp only [hb, if_false, Except.bind] at h
        cases hs : s.span with
        | error e => rw [hs] at h; cases h
        | ok n => rw [hs] at h; cases h; exact ⟨rfl, rfl⟩
      | other => cases h
  unfold DS.getitem
  rw [this.1, this.2]

theorem nested_slice_false :
    ∃ ds d d', DS.mk' 10 true = .ok ds ∧ ds.getitem (.slice (Slc.of 100 200)) = .ok d ∧
      d.getitem (.slice (Slc.of 0 10)) = .ok d' ∧ ds.getitem (.slice (Slc.of 0 10)) = .ok d' ∧
      d'.part = .horizontal (Slc.of 0 10) :=
  ⟨_, _, _, rfl, rfl, rfl, rfl, rfl⟩

/-- A slice with an open end raises, horizontally and vertically. -/
theorem open_slice_raises (batch : ℕ) (hb : 0 < batch) (train : Bool) (s : Slc)
    (hs : s.start = none ∨ s.stop = none) :
    ((DS.mk' batch train).bind fun d => d.getitem (.slice s)) = .error .type ∧
    ((DS.mk' batch train).bind fun d => d.getitem (.vertical s)) = .error .type := by
  have h : s.span = .error .type := by
    unfold Slc.span
    rcases hs with hs | hs <;> rw [hs]
    cases s.start <;> rfl
  simp [DS.mk', DS.getitem, Except.bind, Except.map, if_neg (by omega : ¬ batch = 0), h]

/-- Slices with a step announce more batches than they have: `ds[0:100:2]` of the test set, in
batches of ten, announces ten batches and ends after five. -/
theorem stepped_slice_false (raw : Bool → Raw R L) (sh : Shuffle) (hraw : (raw false).Ok false) :
    ∃ ds, ((DS.mk' 10 false).bind fun d => d.getitem (.slice ⟨some 0, some 100, some 2⟩)) = .ok ds ∧
      ds.iterations = 10 ∧
      ∀ i, 5 ≤ i → session raw sh true true ds (fun _ => none) i = .ok none := by
  refine ⟨(⟨10, false, 28, 100, .horizontal ⟨some 0, some 100, some 2⟩, none⟩ : DS), rfl, rfl, ?_⟩
  have hidx : (⟨some 0, some 100, some 2⟩ : Slc).indices 10000
      = .ok ((List.range 50).map fun k => 2 * k) := by
    unfold Slc.indices
    simp [clampEnd]
    intro a _; omega
  have hp : ∀ {A : Type} (x : List A), x.length = 10000 →
      ∃ y, pick ⟨some 0, some 100, some 2⟩ x = .ok y ∧ y.length = 50 ∧ ∀ a ∈ y, a ∈ x := by
    intro A x hx
    refine ⟨((List.range 50).map fun k => 2 * k).filterMap fun i => x[i]?, ?_, ?_, ?_⟩
    · unfold pick; rw [hx, hidx]; rfl
    · rw [List.filterMap_map]
      have : ∀ m, m ≤ 50 → ((List.range m).filterMap ((fun i => x[i]?) ∘ fun k => 2 * k)).length
          = m := by
        intro m
        induction m with
        | zero => intro _; rfl
        | succ m ih =>
          intro hm
          rw [List.range_succ, List.filterMap_append, List.length_append, ih (by omega)]
          simp [List.getElem?_eq_getElem (by omega : 2 * m < x.length)]
      exact this 50 le_rfl
    · intro a ha
      obtain ⟨i, _, hi⟩ := List.mem_filterMap.1 ha
      exact List.mem_of_getElem? hi
  intro i hi
  obtain ⟨im, him, hil, hmem⟩ := hp (raw false).images hraw.images
  obtain ⟨la, hla, hll, _⟩ := hp (raw false).labels hraw.labels
  rw [session_eq raw sh true true (.inl rfl) (⟨10, false, 28, 100,
    .horizontal ⟨some 0, some 100, some 2⟩, none⟩ : DS) rfl _ (right_empty raw) im la him hla
    (by rw [hil, hll]) (by intro x hx; rw [hraw.rows x (hmem x hx)]; rfl) (by decide) i]
  rw [hil]
  show Except.ok (Option.map _ (idxOf sh 100 10 false 50 i)) = _
  rw [idxOf, if_neg (by decide), if_pos (by simp; exact hi)]
  rfl

/-- An object remembers the file of its first use. If images were asked for first, asking the same
object for images and labels, or for labels, later raises in every batch. -/
theorem change_of_flags_false (raw : Bool → Raw R L) (sh : Shuffle) (batch : ℕ) (hb : 0 < batch)
    (train : Bool) (hbN : batch ≤ total train) (hraw : (raw train).Ok train) (ds : DS)
    (hds : DS.mk' batch train = .ok ds) (image : Bool) :
    session raw sh image true (build raw true false ds fun _ => none).ds
      (build raw true false ds fun _ => none).disk 0 = .error .invalidArgument := by
  have hds' : ds = (⟨batch, train, 28, total train, .whole, none⟩ : DS) := by
    unfold DS.mk' at hds
    rw [if_neg (by omega)] at hds
    exact (Except.ok.inj hds).symm
  subst hds'
  have hN : 0 < total train := by cases train <;> decide
  obtain ⟨im, ims, hims⟩ : ∃ im ims, (raw train).images = im :: ims := by
    cases h : (raw train).images with
    | nil => have := hraw.images; rw [h] at this; simp at this; omega
    | cons a l => exact ⟨a, l, rfl⟩
  have hlen : ims.length + 1 = total train := by
    have := hraw.images; rw [hims] at this; simpa using this
  have hm : total train / batch ≠ 0 := by
    have := Nat.div_pos hbN hb
    omega
  have e1 : build raw true false (⟨batch, train, 28, total train, .whole, none⟩ : DS) (fun _ => none)
      = ⟨.ok (some .image), (⟨batch, train, 28, total train, .whole, some ⟨train, true, false, .whole⟩⟩ : DS),
        Function.update (fun _ => none) ⟨train, true, false, .whole⟩
          (some ((im :: ims).map fun a => ⟨some a, none⟩))⟩ := by
    simp [build, write, content, Part.images, kindOf, DS.nameFor, Except.map, hims]
  rw [e1]
  unfold session
  have e2 : build raw image true (⟨batch, train, 28, total train, .whole, some ⟨train, true, false, .whole⟩⟩ : DS)
        (Function.update (fun _ => none) ⟨train, true, false, .whole⟩
          (some ((im :: ims).map fun a => ⟨some a, none⟩)))
      = ⟨.ok (some (kindOf image true)), (⟨batch, train, 28, total train, .whole, some ⟨train, true, false, .whole⟩⟩ : DS),
        Function.update (fun _ => none) ⟨train, true, false, .whole⟩
          (some ((im :: ims).map fun a => ⟨some a, none⟩))⟩ := by
    simp [build, write]
  dsimp only
  rw [e2]
  simp only [Except.bind, Option.bind_some, Function.update_self]
  unfold stream
  have hd : decode (kindOf image true) (⟨some im, none⟩ : Rec R L) = .error .invalidArgument := by
    cases image <;> rfl
  simp only [List.length_map, List.length_cons, hlen]
  rw [if_neg (by omega), if_neg hm, if_neg, List.map_cons, List.mapM_cons, hd]
  · rfl
  · simp; intro _; exact ⟨by omega, hbN⟩

/-- A process that dies while it writes the record file leaves a short file, and every later run
takes it for the data: no exception, and the samples that were not written never occur (on a right
disk they would, see `vertical_aligned`). -/
theorem crash_truncates_false (raw : Bool → Raw R L) (sh : Shuffle) (batch : ℕ) (hb : 0 < batch)
    (train : Bool) (hraw : (raw train).Ok train) (c : ℕ) (hc : c ≤ total train) (ds : DS)
    (hds : DS.mk' batch train = .ok ds) :
    ∃ idx, Schedule c batch train idx ∧
      ∀ i, session raw sh true false ds (crashDisk raw c true false ds fun _ => none) i
        = .ok ((idx i).map fun l => l.map fun n => ⟨(raw train).images[n]?, none⟩) := by
  have hds' : ds = (⟨batch, train, 28, total train, .whole, none⟩ : DS) := by
    unfold DS.mk' at hds
    rw [if_neg (by omega)] at hds
    exact (Except.ok.inj hds).symm
  subst hds'
  have hpos : (0 : ℤ) < total train := by cases train <;> decide
  refine ⟨idxOf sh (total train) batch train c, idxOf_schedule sh _ batch hb train _, fun i => ?_⟩
  -- the crash is the same as a set of `c` images
  have e : crashDisk raw c true false (⟨batch, train, 28, total train, .whole, none⟩ : DS) (fun _ => none)
      = (Function.update (fun _ => none) ⟨train, true, false, .whole⟩
        (some (((raw train).images.take c).map fun a => ⟨some a, none⟩)) : Disk R L) := by
    simp [crashDisk, DS.nameFor, content, Part.images, Except.map, List.map_take]
  rw [e]
  unfold session
  have e2 : build raw true false (⟨batch, train, 28, total train, .whole, none⟩ : DS)
        (Function.update (fun _ => none) ⟨train, true, false, .whole⟩
          (some (((raw train).images.take c).map fun a => ⟨some a, none⟩)))
      = ⟨.ok (some .image), (⟨batch, train, 28, total train, .whole, some ⟨train, true, false, .whole⟩⟩ : DS),
        Function.update (fun _ => none) ⟨train, true, false, .whole⟩
          (some (((raw train).images.take c).map fun a => ⟨some a, none⟩))⟩ := by
    simp [build, write, kindOf, DS.nameFor]
  rw [e2]
  simp only [Except.bind, Option.bind_some, Function.update_self]
  refine stream_eq sh _ .image _ c (fun n => ⟨(raw train).images[n]?, none⟩) id ?_ ?_ ?_ hpos i
  · rw [List.map_id]
    have hl : ((raw train).images.take c).length = c := by
      rw [List.length_take, hraw.images]; omega
    apply List.ext_getElem
    · rw [List.length_map, hl, List.length_map, List.length_range]
    · intro j h1 h2
      simp only [List.length_map, hl] at h1
      have : j < (raw train).images.length := by rw [hraw.images]; omega
      simp [this]
  · intro r hr
    obtain ⟨a, _, rfl⟩ := List.mem_map.1 hr
    rfl
  · intro n hn a ha
    rw [hraw.rows a (List.mem_of_getElem? ha)]; rfl

/-! ## Data owners -/

/-- **What an owner hands out.** For any sequence of requests to the iterators of any number of
`provide_data` calls: the first request to an iterator is answered with the first batch, any other
with the batch after those drawn by all earlier requests that were not first ones. (`src` is the
owner's generator; a finished generator stays finished.) -/
theorem owner_answers (src : ℕ → Option B) (h : ∀ i, src i = none → src (i + 1) = none) (o : Owner B)
    (ho : Owner.init src = .ok o) (js : List ℕ) (k j : ℕ) (hk : js[k]? = some j) :
    (Owner.serve src o [] js)[k]? = some
      (if j ∈ js.take k then src (1 + repeats [] (js.take k)) else src 0) := by
  unfold Owner.init at ho
  cases h0 : src 0 with
  | none => rw [h0] at ho; cases ho
  | some b =>
    rw [h0] at ho
    cases ho
    rw [serve_get src h ⟨b, 1⟩ [] js k j hk]
    simp only [List.contains_nil, Bool.false_or, List.contains_iff_mem]

theorem repeats_replicate (n : ℕ) : 1 + repeats [] (List.replicate (n + 1) 0) = n + 1 := by
  induction n with
  | zero => rfl
  | succ n ih =>
    rw [List.replicate_succ', repeats_snoc, ← Nat.add_assoc, ih]
    simp

/-- One iterator delivers the batches of the generator in order. So owners of parts of one vertical
split (`vertical_aligned`) that are each read through one iterator stay aligned. -/
theorem provider_in_order (src : ℕ → Option B) (h : ∀ i, src i = none → src (i + 1) = none)
    (o : Owner B) (ho : Owner.init src = .ok o) (m k : ℕ) (hk : k < m) :
    (Owner.serve src o [] (List.replicate m 0))[k]? = some (src k) := by
  rw [owner_answers src h o ho _ k 0 (by simp [hk])]
  rw [List.take_replicate, Nat.min_eq_left hk.le]
  cases k with
  | zero => simp
  | succ k => rw [if_pos (by simp), repeats_replicate]

/-- An owner whose generator is empty cannot be made. -/
theorem empty_owner (src : ℕ → Option B) (h : src 0 = none) :
    Owner.init src = .error .stopIteration := by
  unfold Owner.init; rw [h]

/-- A second `provide_data` does not start again, nor does it go on: it repeats the first batch and
continues where the first iterator stopped. An owner read that way is out of step with another
owner that is read through one iterator, or through the first iterator all along. -/
theorem second_provider_false (src : ℕ → Option B) (h : ∀ i, src i = none → src (i + 1) = none)
    (o : Owner B) (ho : Owner.init src = .ok o) :
    Owner.serve src o [] [0, 0, 1, 1] = [src 0, src 1, src 0, src 2] ∧
    Owner.serve src o [] [0, 0, 0, 0] = [src 0, src 1, src 2, src 3] := by
  have key : ∀ js : List ℕ, js.length = 4 → ∀ ans : List (Option B), ans.length = 4 →
      (∀ k < 4, (Owner.serve src o [] js)[k]? = ans[k]?) →
      (Owner.serve src o [] js).length = 4 → Owner.serve src o [] js = ans := by
    intro js _ ans ha hk hl
    apply List.ext_getElem?
    intro k
    by_cases hlt : k < 4
    · exact hk k hlt
    · rw [List.getElem?_eq_none (by omega), List.getElem?_eq_none (by omega)]
  constructor
  · refine key _ rfl _ rfl ?_ rfl
    intro k hk
    rcases k with _ | _ | _ | _ | k
    · rw [owner_answers src h o ho _ 0 0 rfl]; rfl
    · rw [owner_answers src h o ho _ 1 0 rfl]; rfl
    · rw [owner_answers src h o ho _ 2 1 rfl]; rfl
    · rw [owner_answers src h o ho _ 3 1 rfl]; rfl
    · omega
  · refine key _ rfl _ rfl ?_ rfl
    intro k hk
    rcases k with _ | _ | _ | _ | k
    · rw [owner_answers src h o ho _ 0 0 rfl]; rfl
    · rw [owner_answers src h o ho _ 1 0 rfl]; rfl
    · rw [owner_answers src h o ho _ 2 0 rfl]; rfl
    · rw [owner_answers src h o ho _ 3 0 rfl]; rfl
    · omega

/-! ## The hypotheses can be met -/

/-- Data of the shape of MNIST. -/
def demoRaw (train : Bool) : Raw ℕ ℕ :=
  ⟨(List.range (total train)).map fun n => List.replicate 28 n, List.range (total train)⟩

theorem demoRaw_ok (train : Bool) : (demoRaw train).Ok train where
  images := by simp [demoRaw]
  labels := by simp [demoRaw]
  rows := by
    intro im him
    obtain ⟨n, _, rfl⟩ := List.mem_map.1 him
    simp

/-- The image owner of the rows 0-13, the one of the rows 14-27 and the label owner: batch 5 of a
run is about the same 128 samples. -/
example (sh : Shuffle) : ∃ l : List ℕ, l.length = 128 ∧ l.Nodup ∧ ∃ d1 d2 d3 : DS,
    session demoRaw sh true false d1 (fun _ => none) 5
      = .ok (some (l.map fun n => ⟨(demoRaw true).images[n]?.map (rows 0 14), none⟩)) ∧
    session demoRaw sh true false d2 (fun _ => none) 5
      = .ok (some (l.map fun n => ⟨(demoRaw true).images[n]?.map (rows 14 28), none⟩)) ∧
    session demoRaw sh false true d3 (fun _ => none) 5
      = .ok (some (l.map fun n => ⟨none, (demoRaw true).labels[n]?⟩)) := by
  obtain ⟨idx, hs, hv, hw⟩ := vertical_aligned demoRaw sh 128 (by decide) true (demoRaw_ok true)
  obtain ⟨l, hl⟩ := Option.isSome_iff_exists.1 ((hs.more 5).2 ⟨by decide, .inl rfl⟩)
  refine ⟨l, hs.size 5 l hl, hs.once 5 l hl, _, _, _,
    (hv 0 14 true false _ _ (by decide) (by decide) (.inl rfl) (right_empty _) rfl 5).trans ?_,
    (hv 14 28 true false _ _ (by decide) (by decide) (.inl rfl) (right_empty _) rfl 5).trans ?_,
    (hw false true _ _ (.inr rfl) (right_empty _) rfl 5).trans ?_⟩ <;> rw [hl] <;> rfl

example (sh : Shuffle) : ∃ ds idx, Schedule 10000 100 true idx ∧ ds.iterations = 100 ∧
    ∀ i, session demoRaw sh true true ds (fun _ => none) i = .ok ((idx i).map fun l => l.map fun n =>
      ⟨(demoRaw true).images[20000 + n]?, (demoRaw true).labels[20000 + n]?⟩) := by
  obtain ⟨hi, idx, hs, h⟩ := horizontal_split demoRaw sh 100 (by decide) true (demoRaw_ok true)
    20000 30000 (by decide) (by decide) _ rfl
  exact ⟨_, idx, hs, hi, fun i => h true true _ (.inl rfl) (right_empty _) i⟩

example (sh : Shuffle) := stepped_slice_false demoRaw sh (demoRaw_ok false)
example (sh : Shuffle) := change_of_flags_false demoRaw sh 10 (by decide) true (by decide)
  (demoRaw_ok true) _ rfl true
example (sh : Shuffle) := crash_truncates_false demoRaw sh 10 (by decide) true (demoRaw_ok true) 100
  (by decide) _ rfl
example := second_provider_false (fun n => some n) (by simp) ⟨0, 1⟩ rfl

end Verif.Data
