import Verif.Keras.WeightsLemmas
import Verif.Tensor.Lemmas

/-!
# C72: setting and copying weights

After `set_weights` every layer has the weights it was given, and the rest of the heap is as it was. The
list of weights may be too long or too short without an exception, and copying the weights of a model
(`model_2.set_weights(model.weights)`) leaves the model it copies from without variables in its lists, so
that it can no longer be trained or set.
-/

namespace Verif.Keras

open Verif.Tensor

/-! ## What the layers have -/

/-- Two tensors have the same shape and the same entries. -/
def SameTen (a b : Ten ℝ) : Prop := a.shape = b.shape ∧ ∀ idx, InShape a.shape idx → a.get idx = b.get idx

/-- Reshaping to the own shape. -/
theorem reshape_same (t : Ten ℝ) : ∃ v, Tensor.reshape t t.shape = some v ∧ SameTen v t := by
  refine ⟨_, reshape_some t t.shape rfl, rfl, fun idx h => ?_⟩
  show t.get (unflat t.shape (flat t.shape idx)) = t.get idx
  rw [unflat_flat _ _ h]

/-- **A layer with plain weights takes tensors of the shapes of its weights.** -/
theorem accepts_plain (h : Heap) (p : Placed) (ts : List (Ten ℝ)) (hk : p.1.kind = .plain)
    (hs : ts.map Ten.shape = p.2.map fun a => (h.vars a).shape) : p.Accepts h ts := by
  have hl : ts.length = p.2.length := by simpa using congrArg List.length hs
  refine ⟨hl, fun j a t hj ht => ?_⟩
  have h1 := congrArg (fun l => l[j]?) hs
  simp only [List.getElem?_map, hj, ht, Option.map_some, Option.some.injEq] at h1
  rw [hk, Kind.place, ← h1]
  · obtain ⟨v, e1, e2⟩ := reshape_same t
    exact ⟨v, e1, e2.1⟩
  · simp

/-- … and afterwards its weights are these tensors. -/
theorem has_plain (h h' : Heap) (p : Placed) (ts : List (Ten ℝ)) (hk : p.1.kind = .plain)
    (hs : ts.map Ten.shape = p.2.map fun a => (h.vars a).shape) (H : p.Has h h' ts) :
    List.Forall₂ (fun a t => SameTen (h'.vars a) t) p.2 ts := by
  have hl : p.2.length = ts.length := by simpa using (congrArg List.length hs).symm
  refine List.forall₂_iff_get.2 ⟨hl, fun j h1 h2 => ?_⟩
  have hj : p.2[j]? = some p.2[j] := List.getElem?_eq_getElem h1
  have ht : ts[j]? = some ts[j] := List.getElem?_eq_getElem h2
  have hw := H.weights j _ _ hj ht
  have h3 := congrArg (fun l => l[j]?) hs
  simp only [List.getElem?_map, hj, ht, Option.map_some, Option.some.injEq] at h3
  rw [hk, Kind.place, ← h3] at hw
  · obtain ⟨v, e1, e2⟩ := reshape_same ts[j]
    rw [e1, Option.some.injEq] at hw
    simpa [← hw] using e2
  · simp

/-! ## Setting -/

/-- **Numpy arrays**, one for each weight, layer after layer: every layer has them afterwards; batch
normalisations have the new denominator; nothing else changes. -/
theorem set_weights_arrays (h : Heap) (L : List Placed) (wss : List (List (Ten ℝ))) (H : ReadyAll h L)
    (ha : List.Forall₂ (fun p ts => p.Accepts h ts) L wss) (hne : wss.flatten ≠ []) :
    ∃ h', setWeights (L.map Prod.fst) h (.flat (wss.flatten.map .arr)) = (h', none) ∧ HasAll h h' L wss ∧
      (∀ b, b ∉ ownedAll L → h'.vars b = h.vars b) ∧ h'.lists = h.lists := by
  have hst : List.Forall₂ (fun p w => Stands (ownedAll L) h p w.1 w.2) L
      (wss.map fun ts => (ts.map Obj.arr, ts)) := by
    rw [List.forall₂_map_right_iff]
    exact ha.imp fun p ts hp => stands_arr _ h p ts hp
  obtain ⟨h', e1, e2, e3, e4⟩ := setSlices_step (ownedAll L) [] [] L _ h (fun _ hb => hb) H hst
  refine ⟨h', ?_, by simpa [Function.comp_def] using e2, e3, e4⟩
  have hflat : (wss.map fun ts => ts.map Obj.arr).flatten = wss.flatten.map .arr := by
    rw [List.map_flatten]
  simp only [List.append_nil, List.map_map, Function.comp_def, hflat] at e1
  rw [← show setSlices h' [] [] = (h', none) from rfl, ← e1]
  cases hw : wss.flatten with
  | nil => exact absurd hw hne
  | cons t r => rfl

/-- **Private variables** in a flat list (layers without batch normalisation). -/
theorem set_weights_private (h : Heap) (L : List Placed) (ass : List (List ℕ)) (H : ReadyAll h L)
    (hk : ∀ p ∈ L, p.1.kind.isPublic = false)
    (ha : List.Forall₂ (fun p as => p.Accepts h (as.map h.vars)) L ass) (hd : ∀ a ∈ ass.flatten, a ∉ ownedAll L)
    (hne : ass.flatten ≠ []) :
    ∃ h', setWeights (L.map Prod.fst) h (.flat (ass.flatten.map .pvar)) = (h', none) ∧
      HasAll h h' L (ass.map fun as => as.map h.vars) ∧ (∀ b, b ∉ ownedAll L → h'.vars b = h.vars b) ∧ h'.lists = h.lists := by
  have hst : List.Forall₂ (fun p w => Stands (ownedAll L) h p w.1 w.2) L
      (ass.map fun as => (as.map Obj.pvar, as.map h.vars)) := by
    rw [List.forall₂_map_right_iff]
    refine forall2_mem₂ ha fun p hp as has hpa => ?_
    have := stands_var (ownedAll L) h p as hpa fun a haa => hd a (List.mem_flatten.2 ⟨as, has, haa⟩)
    rw [hk p hp] at this
    exact this
  obtain ⟨h', e1, e2, e3, e4⟩ := setSlices_step (ownedAll L) [] [] L _ h (fun _ hb => hb) H hst
  refine ⟨h', ?_, by simpa [Function.comp_def] using e2, e3, e4⟩
  have hflat : (ass.map fun ts => ts.map Obj.pvar).flatten = ass.flatten.map .pvar := by
    rw [List.map_flatten]
  simp only [List.append_nil, List.map_map, Function.comp_def, hflat] at e1
  rw [← show setSlices h' [] [] = (h', none) from rfl, ← e1]
  cases hw : ass.flatten with
  | nil => exact absurd hw hne
  | cons t r => rfl

/-! ## The wrong number of weights -/

/-- **Too many weights are not noticed**: what follows the weights of the last layer is ignored. -/
theorem set_weights_surplus_false (h : Heap) (L : List Placed) (wss : List (List (Ten ℝ))) (extra : List Obj) (H : ReadyAll h L)
    (ha : List.Forall₂ (fun p ts => p.Accepts h ts) L wss) (hne : wss.flatten ≠ []) :
    setWeights (L.map Prod.fst) h (.flat (wss.flatten.map .arr ++ extra)) =
      setWeights (L.map Prod.fst) h (.flat (wss.flatten.map .arr)) := by
  have hst : List.Forall₂ (fun p w => Stands (ownedAll L) h p w.1 w.2) L
      (wss.map fun ts => (ts.map Obj.arr, ts)) := by
    rw [List.forall₂_map_right_iff]
    exact ha.imp fun p ts hp => stands_arr _ h p ts hp
  have hflat : (wss.map fun ts => ts.map Obj.arr).flatten = wss.flatten.map .arr := by
    rw [List.map_flatten]
  have key : ∀ e, ∃ h', setSlices h (L.map Prod.fst) (wss.flatten.map .arr ++ e) = (h', none) ∧
      HasAll h h' L wss ∧ (∀ b, b ∉ ownedAll L → h'.vars b = h.vars b) ∧ h'.lists = h.lists := by
    intro e
    obtain ⟨h', e1, e2, e3, e4⟩ := setSlices_step (ownedAll L) [] e L _ h (fun _ hb => hb) H hst
    simp only [List.append_nil, List.map_map, Function.comp_def, hflat] at e1
    exact ⟨h', e1, by simpa [Function.comp_def] using e2, e3, e4⟩
  have same : setSlices h (L.map Prod.fst) (wss.flatten.map .arr ++ extra) = setSlices h (L.map Prod.fst) (wss.flatten.map .arr) := by
    obtain ⟨h1, a1, a2, a3, a4⟩ := key extra
    obtain ⟨h2, b1, b2, b3, b4⟩ := key []
    rw [List.append_nil] at b1
    rw [a1, b1]
    have : h1.vars = h2.vars := by
      funext b
      by_cases hb : b ∈ ownedAll L
      · exact hasAll_eq H ha a2 b2 b hb
      · rw [a3 b hb, b3 b hb]
    rw [show h1 = h2 by cases h1; cases h2; simp_all]
  cases hw : wss.flatten with
  | nil => exact absurd hw hne
  | cons t r => rw [hw] at same; exact same

/-- **Weights missing for whole layers are not noticed either**: the layers for which none are left keep
theirs. -/
theorem set_weights_missing_false (h : Heap) (L L' : List Placed) (wss : List (List (Ten ℝ))) (H : ReadyAll h (L ++ L'))
    (ha : List.Forall₂ (fun p ts => p.Accepts h ts) L wss) (hne : wss.flatten ≠ []) :
    ∃ h', setWeights ((L ++ L').map Prod.fst) h (.flat (wss.flatten.map .arr)) = (h', none) ∧ HasAll h h' L wss ∧
      ∀ p ∈ L', ∀ a ∈ p.owned, h'.vars a = h.vars a := by
  have hst : List.Forall₂ (fun p w => Stands (ownedAll L) h p w.1 w.2) L
      (wss.map fun ts => (ts.map Obj.arr, ts)) := by
    rw [List.forall₂_map_right_iff]
    exact ha.imp fun p ts hp => stands_arr _ h p ts hp
  have hn : (ownedAll L ++ ownedAll L').Nodup := by simpa [ownedAll] using H.nodup
  have HL : ReadyAll h L := ⟨fun p hp => H.each p (List.mem_append.2 (.inl hp)), (List.nodup_append.1 hn).1⟩
  obtain ⟨h', e1, e2, e3, e4⟩ := setSlices_step (ownedAll L) (L'.map Prod.fst) [] L _ h (fun _ hb => hb) HL hst
  have hflat : (wss.map fun ts => ts.map Obj.arr).flatten = wss.flatten.map .arr := by
    rw [List.map_flatten]
  simp only [List.append_nil, List.map_map, Function.comp_def, hflat, setSlices_nil] at e1
  refine ⟨h', ?_, by simpa [Function.comp_def] using e2, ?_⟩
  · rw [List.map_append, ← e1]
    cases hw : wss.flatten with
    | nil => exact absurd hw hne
    | cons t r => rfl
  · intro p hp a hpa
    exact e3 a fun hb => (List.nodup_append.1 hn).2.2 a hb a (mem_ownedAll hp hpa) rfl

/-- **Weights missing for a part of a layer raise `IndexError`, after the layers before it have been
written**: the call fails, and the model has changed. -/
theorem set_weights_half_false (h : Heap) (L : List Placed) (p : Placed) (L' : List WLayer) (wss : List (List (Ten ℝ)))
    (as as' : List ℕ) (ts : List (Ten ℝ)) (H : ReadyAll h (L ++ [p])) (ha : List.Forall₂ (fun p ts => p.Accepts h ts) L wss)
    (hp : p.2 = as ++ as') (hne : as ≠ []) (hne' : as' ≠ [])
    (hts : Placed.Accepts h (p.1, as) ts) :
    ∃ h', setWeights (L.map Prod.fst ++ p.1 :: L') h (.flat ((wss.flatten ++ ts).map .arr)) = (h', some .index) ∧
      HasAll h h' L wss ∧ (∀ j a t, as[j]? = some a → ts[j]? = some t → p.1.kind.place j (h.vars a).shape t = some (h'.vars a)) := by
  have hst : List.Forall₂ (fun p w => Stands (ownedAll L) h p w.1 w.2) L
      (wss.map fun ts => (ts.map Obj.arr, ts)) := by
    rw [List.forall₂_map_right_iff]
    exact ha.imp fun p ts hp => stands_arr _ h p ts hp
  have hn : (ownedAll L ++ p.owned).Nodup := by simpa [ownedAll] using H.nodup
  have HL : ReadyAll h L := ⟨fun p hp => H.each p (List.mem_append.2 (.inl hp)), (List.nodup_append.1 hn).1⟩
  obtain ⟨h1, e1, e2, e3, e4⟩ := setSlices_step (ownedAll L) (p.1 :: L') (ts.map .arr) L _ h (fun _ hb => hb) HL hst
  have hflat : (wss.map fun ts => ts.map Obj.arr).flatten = wss.flatten.map .arr := by
    rw [List.map_flatten]
  simp only [List.map_map, Function.comp_def, hflat] at e1
  have hP := H.each p (List.mem_append.2 (.inr (List.mem_singleton.2 rfl)))
  have hvar : ∀ a ∈ p.owned, h1.vars a = h.vars a := fun a haa =>
    e3 a fun hb => (List.nodup_append.1 hn).2.2 a hb a haa rfl
  have hsub : ∀ a ∈ as, a ∈ p.owned := fun a haa => List.mem_append.2 (.inl (by rw [hp]; exact List.mem_append.2 (.inl haa)))
  have hasn : as.Nodup := by
    have h1 : p.2.Nodup := (List.nodup_append.1 hP.nodup).1
    rw [hp] at h1
    exact (List.nodup_append.1 h1).1
  obtain ⟨vs, l1, l2⟩ := exists_values h1 (p.1, as) ts (hts.mono fun a haa => hvar a (hsub a haa))
  have hlen : ts.length = as.length := hts.length
  have hlists : h1.lists p.1.weights = as.map (mkV p.1.kind.isPublic) ++ as'.map (mkV p.1.kind.isPublic) := by
    rw [e4, hP.list, hp, List.map_append]
  have htsne : ts ≠ [] := fun e => hne (List.length_eq_zero_iff.1 (by rw [← hlen, e]; rfl))
  have hstep := assignAll_step p.1.kind ts (as'.map (mkV p.1.kind.isPublic)) as vs h1 0 hasn l1 (by
    intro j a v hj hv
    rw [Nat.zero_add]
    exact l2 j a v hj hv)
  have hend : assignAll p.1.kind { h1 with vars := writeAll h1.vars as vs } (0 + as.length) (as'.map (mkV p.1.kind.isPublic))
      (ts.map (mkT p.1.kind.isPublic)) = ({ h1 with vars := writeAll h1.vars as vs }, some .index) := by
    cases as' with
    | nil => exact absurd rfl hne'
    | cons a r =>
        rw [List.map_cons, assignAll, List.getElem?_eq_none (by rw [List.length_map, hlen]; omega)]
  have hset : p.1.set h1 (ts.map .arr) none = ({ h1 with vars := writeAll h1.vars as vs }, some .index) := by
    unfold WLayer.set
    simp only [convert_arr _ h1 ts htsne, Heap.back, hlists]
    rw [hstep, hend]
  have hslice : setSlices h1 (p.1 :: L') (ts.map .arr) = ({ h1 with vars := writeAll h1.vars as vs }, some .index) := by
    rw [setSlices, hlists]
    rw [List.take_of_length_le (by simp; omega), WLayer.setIf,
      show (ts.map Obj.arr).isEmpty = false by cases ts with | nil => exact absurd rfl htsne | cons _ _ => rfl]
    simp only [Bool.false_eq_true, if_false, hset]
  refine ⟨{ h1 with vars := writeAll h1.vars as vs }, ?_, ?_, ?_⟩
  · rw [← hslice, ← e1, ← List.map_append]
    cases hw : wss.flatten ++ ts with
    | nil => exact absurd (List.append_eq_nil_iff.1 hw).2 htsne
    | cons t r => rfl
  · have e2' : HasAll h h1 L wss := by simpa [Function.comp_def] using e2
    refine e2'.mono (fun q hq => (HL.each q hq).variance) (fun _ _ => rfl) fun a haa => ?_
    exact writeAll_not_mem _ _ _ _ fun hm => (List.nodup_append.1 hn).2.2 a haa a (hsub a hm) rfl
  · intro j a t hj ht
    obtain ⟨hj', _⟩ := List.getElem?_eq_some_iff.1 hj
    have hjv : vs[j]? = some (vs[j]'(by simpa [l1] using hj')) := List.getElem?_eq_getElem _
    obtain ⟨t', f1, f2, _⟩ := l2 j a _ hj hjv
    rw [ht] at f1
    cases f1
    rw [← hvar a (hsub a (List.mem_of_getElem? hj))]
    show _ = some (writeAll h1.vars as vs a)
    rw [writeAll_get _ _ _ j a _ hasn hj hjv]
    exact f2

/-- **An empty list raises `IndexError`**, also for a model that has no weights: such a model cannot be
cloned, since `clone_model` ends with `set_weights(model.get_weights())`. -/
theorem set_weights_empty_false (m : List WLayer) (h : Heap) : setWeights m h (.flat []) = (h, some .index) := rfl

/-! ## Copying -/

/-- **Copying the weights of another model** with layers of the same kind: the model gets them, the
variables of the other model keep their values. But the other model's lists now hold tensors. -/
theorem copy_weights (h : Heap) (L S : List Placed) (H : ReadyAll h L) (HS : ReadyAll h S)
    (hk : List.Forall₂ (fun p q => p.Accepts h (q.2.map h.vars) ∧ p.1.kind.isPublic = q.1.kind.isPublic) L S)
    (hd : ∀ a ∈ ownedAll S, a ∉ ownedAll L) (hw : ∀ q ∈ S, ∀ p ∈ L, q.1.weights ≠ p.1.weights)
    (hn : (S.map fun q => q.1.weights).Nodup) (hne : S ≠ []) :
    ∃ h', setWeights (L.map Prod.fst) h (modelWeights (S.map Prod.fst)) = (h', none) ∧
      HasAll h h' L (S.map fun q => q.2.map h.vars) ∧ (∀ a ∈ ownedAll S, h'.vars a = h.vars a) ∧
      (∀ q ∈ S, h'.lists q.1.weights = (q.2.map h.vars).map (mkT q.1.kind.isPublic)) ∧
      (∀ p ∈ L, h'.lists p.1.weights = h.lists p.1.weights) := by
  obtain ⟨h', e1, e2, e3, e4, e5⟩ := setLists_step L S h H HS.each hk
    (fun q hq a ha => hd a (mem_ownedAll hq (List.mem_append.2 (.inl ha)))) (fun q hq _ p hp => hw q hq p hp) hn
  refine ⟨h', ?_, e2, fun a ha => e3 a (hd a ha), e4, fun p hp => e5 _ fun q hq => hw q hq p hp⟩
  rw [← e1]
  cases S with
  | nil => exact absurd rfl hne
  | cons q S => simp [modelWeights, setWeights, Function.comp_def]

/-- Training a layer with private variables works: `apply_gradients` writes every weight. -/
theorem train_ok (f : ℕ → Ten ℝ → Ten ℝ) (hf : ∀ i t, (f i t).shape = t.shape) : ∀ (as : List ℕ) (h : Heap) (i : ℕ), as.Nodup →
    ∃ h', applyAll f h i (as.map .pvar) = (h', none) ∧ (∀ j a, as[j]? = some a → h'.vars a = f (i + j) (h.vars a)) ∧
      (∀ b, b ∉ as → h'.vars b = h.vars b) ∧ h'.lists = h.lists
  | [], h, i, _ => ⟨h, rfl, by simp, fun _ _ => rfl, rfl⟩
  | a :: as, h, i, hn => by
      obtain ⟨h', e1, e2, e3, e4⟩ := train_ok f hf as (h.setVar a (f i (h.vars a))) (i + 1) (List.nodup_cons.1 hn).2
      refine ⟨h', ?_, ?_, ?_, e4⟩
      · rw [List.map_cons, applyAll]
        simp only [readValue, assignObj, hf, if_true]
        exact e1
      · intro j b hj
        cases j with
        | zero =>
            simp only [List.getElem?_cons_zero, Option.some.injEq] at hj
            subst hj
            rw [e3 a (List.nodup_cons.1 hn).1]
            exact Function.update_self ..
        | succ j =>
            rw [List.getElem?_cons_succ] at hj
            have hne : b ≠ a := fun e => (List.nodup_cons.1 hn).1 (by rw [← e]; exact List.mem_of_getElem? hj)
            rw [e2 j b hj, show i + 1 + j = i + (j + 1) by omega]
            congr 1
            exact Function.update_of_ne hne _ _
      · intro b hb
        rw [List.mem_cons, not_or] at hb
        rw [e3 b hb.2]
        exact Function.update_of_ne hb.1 _ _

/-- **After its weights have been copied a model cannot be trained**: `apply_gradients` on any of its
layers that has weights raises `AttributeError`. **Nor can its weights be set**: a layer that takes the
arrays raises `TypeError`. -/
theorem copied_broken_false (h h' : Heap) (q : Placed) (hne : q.2 ≠ [])
    (hl : h'.lists q.1.weights = (q.2.map h.vars).map (mkT q.1.kind.isPublic)) :
    (∀ f, applyAll f h' 0 (h'.lists q.1.weights) = (h', some .attribute)) ∧
    (∀ ts : List (Ten ℝ), q.1.kind = .plain → ts.map Ten.shape = q.2.map (fun a => (h.vars a).shape) →
      q.1.set h' (ts.map .arr) none = (h', some .type)) := by
  obtain ⟨a, as, hq⟩ := List.exists_cons_of_ne_nil hne
  constructor
  · intro f
    rw [hl, hq, List.map_cons, List.map_cons, applyAll]
    cases q.1.kind.isPublic <;> rfl
  · intro ts hk hs
    rw [hq] at hs hl
    cases ts with
    | nil => simp at hs
    | cons t r =>
        have h1 : t.shape = (h.vars a).shape := by simp at hs; exact hs.1
        have hc := convert_arr q.1.kind.isPublic h' (t :: r) (by simp)
        obtain ⟨v, e1, e2⟩ := reshape_same t
        unfold WLayer.set
        simp only [hc, Heap.back, hl]
        rw [hk, List.map_cons, List.map_cons, assignAll]
        simp [mkT, Kind.isPublic, Kind.placeObj, Kind.place, Obj.shape, ← h1, e1, assignObj]

/-- Put together: copying the weights of a model (one layer with two private variables) to another one
raises no exception, the copy has the values, and the next training step of the *original* raises
`AttributeError`, whereas without the copy it succeeds. -/
theorem copy_breaks_source_false : ∃ (h : Heap) (a b : WLayer), ∀ f : ℕ → Ten ℝ → Ten ℝ, (∀ i t, (f i t).shape = t.shape) →
    (∃ h', applyAll f h 0 (h.lists a.weights) = (h', none)) ∧
    ∃ h', setWeights [b] h (modelWeights [a]) = (h', none) ∧ SameTen (h'.vars 2) (h.vars 0) ∧ SameTen (h'.vars 3) (h.vars 1) ∧
      applyAll f h' 0 (h'.lists a.weights) = (h', some .attribute) := by
  let h : Heap := { vars := fun a => ⟨[2], fun _ => (a : ℝ)⟩,
                    lists := fun l => if l = 0 then [.pvar 0, .pvar 1] else if l = 1 then [.pvar 2, .pvar 3] else [] }
  refine ⟨h, ⟨.plain, 0⟩, ⟨.plain, 1⟩, fun f hf => ⟨?_, ?_⟩⟩
  · obtain ⟨h', e, _⟩ := train_ok f hf [0, 1] h 0 (by decide)
    exact ⟨h', e⟩
  · have ra : Placed.Ready h (⟨.plain, 0⟩, [0, 1]) := ⟨by simp [h, mkV, Kind.isPublic], by decide, by simp⟩
    have rb : Placed.Ready h (⟨.plain, 1⟩, [2, 3]) := ⟨by simp [h, mkV, Kind.isPublic], by decide, by simp⟩
    have hs : ([0, 1].map h.vars).map Ten.shape = [2, 3].map fun a => (h.vars a).shape := by simp [h]
    obtain ⟨h', e1, e2, _, e4, _⟩ := copy_weights h [(⟨.plain, 1⟩, [2, 3])] [(⟨.plain, 0⟩, [0, 1])]
      ⟨by simpa using rb, by decide⟩ ⟨by simpa using ra, by decide⟩
      (.cons ⟨accepts_plain _ _ _ rfl hs, rfl⟩ .nil) (by decide) (by simp) (by simp) (by simp)
    have hh := e2
    cases hh with
    | cons hp _ =>
      have hv := has_plain h h' _ _ rfl hs hp
      simp only [List.map_cons, List.map_nil, List.forall₂_cons, List.Forall₂.nil, and_true] at hv
      exact ⟨h', e1, hv.1, hv.2, (copied_broken_false h h' (⟨.plain, 0⟩, [0, 1]) (by simp) (e4 _ (by simp))).1 f⟩

/-- **Setting a model's weights to its own raises `TypeError`** and leaves tensors in its first list. -/
theorem self_copy_false (h : Heap) (p : Placed) (m : List WLayer) (hp : p.Ready h) (hk : p.1.kind = .plain) (hne : p.2 ≠ []) :
    setWeights (p.1 :: m) h (modelWeights (p.1 :: m)) =
      (h.setList p.1.weights ((p.2.map h.vars).map .priv), some .type) := by
  obtain ⟨a, as, hq⟩ := List.exists_cons_of_ne_nil hne
  have hpub : p.1.kind.isPublic = false := by rw [hk]; rfl
  have hc := convert_var p.1.kind.isPublic h p.2 hne
  have hT : ∀ l : List (Ten ℝ), l.map (mkT false) = l.map .priv := fun l => List.map_congr_left fun _ _ => rfl
  have hset : p.1.set h (h.lists p.1.weights) (some p.1.weights) =
      (h.setList p.1.weights ((p.2.map h.vars).map .priv), some .type) := by
    obtain ⟨v, e1, e2⟩ := reshape_same (h.vars a)
    unfold WLayer.set
    rw [hp.list, hc, hpub, hT]
    simp only [Heap.back]
    rw [show (h.setList p.1.weights ((p.2.map h.vars).map .priv)).lists p.1.weights = (p.2.map h.vars).map .priv from
      Function.update_self .., hk, hq, List.map_cons, List.map_cons, assignAll]
    simp [Kind.placeObj, Kind.place, Obj.shape, e1, assignObj]
  have hemp : (h.lists p.1.weights).isEmpty = false := by rw [hp.list, hq]; rfl
  rw [modelWeights, List.map_cons, setWeights]
  · rw [setLists, WLayer.setIf, hemp]
    simp only [Bool.false_eq_true, if_false, hset]
  · simp

/-! ## The hypotheses can be met -/

/-- Two dense layers with kernel and bias, and between them a batch normalisation. -/
noncomputable def sampleHeap : Heap where
  vars a := if a < 10 then ⟨[2, 2], fun _ => (a : ℝ)⟩ else ⟨[2], fun _ => 0⟩
  lists a := if a = 0 then [.pvar 0, .pvar 1] else if a = 1 then [.uvar 2, .uvar 3, .uvar 4, .uvar 5] else if a = 2 then [.pvar 7] else []

example : ReadyAll sampleHeap [(⟨.plain, 0⟩, [0, 1]), (⟨.norm 5 6 1, 1⟩, [2, 3, 4, 5]), (⟨.plain, 2⟩, [7]), (⟨.plain, 3⟩, [])] := by
  refine ⟨?_, by decide⟩
  intro p hp
  simp only [List.mem_cons, List.not_mem_nil, or_false] at hp
  rcases hp with rfl | rfl | rfl | rfl
  · exact ⟨by simp [sampleHeap, mkV, Kind.isPublic], by decide, by simp⟩
  · refine ⟨by simp [sampleHeap, mkV, Kind.isPublic], by decide, ?_⟩
    intro v d ε e
    cases e
    decide
  · exact ⟨by simp [sampleHeap, mkV, Kind.isPublic], by decide, by simp⟩
  · exact ⟨by simp [sampleHeap, mkV, Kind.isPublic], by decide, by simp⟩

example : Placed.Accepts sampleHeap (⟨.plain, 0⟩, [0, 1]) [⟨[2, 2], fun _ => 7⟩, ⟨[2, 2], fun _ => 8⟩] :=
  accepts_plain _ _ _ rfl (by simp [sampleHeap])

end Verif.Keras
