import Verif.Keras.Weights

/-!
# Lemmas about `set_weights`
-/

namespace Verif.Keras

open Verif.Tensor

/-- A tensor, public or private. -/
def mkT (p : Bool) (t : Ten ℝ) : Obj := if p then .pub t else .priv t

/-- A variable, public or private. -/
def mkV (p : Bool) (a : ℕ) : Obj := if p then .uvar a else .pvar a

theorem replaceAll_map {β : Type} (f : Obj → Except WErr Obj) (g k : β → Obj) (l : List β)
    (hf : ∀ b ∈ l, f (g b) = .ok (k b)) : replaceAll f (l.map g) = (l.map k, none) := by
  induction l with
  | nil => rfl
  | cons b l ih =>
      have := ih fun b hb => hf b (List.mem_cons_of_mem _ hb)
      simp only [List.map_cons, replaceAll, hf b List.mem_cons_self, this]

theorem convert_arr (p : Bool) (h : Heap) (ts : List (Ten ℝ)) (hne : ts ≠ []) :
    convert p h (ts.map .arr) = (ts.map (mkT p), none) := by
  cases ts with
  | nil => exact absurd rfl hne
  | cons t r =>
      have := replaceAll_map (defined p h) .arr (mkT p) (t :: r) (fun b _ => by cases p <;> rfl)
      simpa only [List.map_cons, convert] using this

theorem convert_var (p : Bool) (h : Heap) (as : List ℕ) (hne : as ≠ []) :
    convert p h (as.map (mkV p)) = ((as.map h.vars).map (mkT p), none) := by
  cases as with
  | nil => exact absurd rfl hne
  | cons t r =>
      have := replaceAll_map (readValue h) (mkV p) (fun a => mkT p (h.vars a)) (t :: r) (fun b _ => by cases p <;> rfl)
      rw [List.map_map]
      cases p <;> exact this

/-- Writing a list of values to a list of variables. -/
def writeAll (vars : ℕ → Ten ℝ) : List ℕ → List (Ten ℝ) → ℕ → Ten ℝ
  | a :: as, t :: ts => writeAll (Function.update vars a t) as ts
  | _, _ => vars

theorem writeAll_not_mem : ∀ (vars : ℕ → Ten ℝ) (as : List ℕ) (ts : List (Ten ℝ)) (b : ℕ), b ∉ as →
    writeAll vars as ts b = vars b
  | _, [], _, _, _ => rfl
  | _, _ :: _, [], _, _ => rfl
  | vars, a :: as, t :: ts, b, hb => by
      have hne : b ≠ a := fun e => hb (by rw [e]; exact List.mem_cons_self)
      rw [writeAll, writeAll_not_mem _ as ts b (fun h => hb (List.mem_cons_of_mem _ h)), Function.update_of_ne hne]

theorem writeAll_get : ∀ (vars : ℕ → Ten ℝ) (as : List ℕ) (ts : List (Ten ℝ)) (j a : ℕ) (t : Ten ℝ), as.Nodup →
    as[j]? = some a → ts[j]? = some t → writeAll vars as ts a = t
  | _, [], _, _, _, _, _, h, _ => by simp at h
  | _, _ :: _, [], _, _, _, _, _, h => by simp at h
  | vars, b :: as, u :: ts, 0, a, t, hn, h1, h2 => by
      simp only [List.getElem?_cons_zero, Option.some.injEq] at h1 h2
      subst h1 h2
      rw [writeAll, writeAll_not_mem _ _ _ _ (List.nodup_cons.1 hn).1, Function.update_self]
  | vars, b :: as, u :: ts, j + 1, a, t, hn, h1, h2 => by
      simp only [List.getElem?_cons_succ] at h1 h2
      exact writeAll_get _ as ts j a t (List.nodup_cons.1 hn).2 h1 h2

theorem placeObj_mkT (kind : Kind) (h : Heap) (i : ℕ) (s : List ℕ) (t v : Ten ℝ)
    (hv : kind.place i s t = some v) : kind.placeObj h i s (mkT kind.isPublic t) = .ok (mkT kind.isPublic v) := by
  cases kind with
  | plain => simp [Kind.placeObj, mkT, Kind.isPublic, hv]
  | norm a b c => simp [Kind.placeObj, mkT, Kind.isPublic, hv]
  | depthwise a b c => cases i <;> simp [Kind.placeObj, mkT, Kind.isPublic, hv]

theorem assignObj_mkV (p : Bool) (h : Heap) (a : ℕ) (v : Ten ℝ) (hv : v.shape = (h.vars a).shape) :
    assignObj h (mkV p a) (mkT p v) = .ok (h.setVar a v) := by
  cases p <;> simp [assignObj, mkV, mkT, hv]

theorem shape_mkV (p : Bool) (h : Heap) (a : ℕ) : (mkV p a).shape h = (h.vars a).shape := by cases p <;> rfl

/-- The loop over the weights, as long as everything fits. -/
theorem assignAll_step (kind : Kind) (src : List (Ten ℝ)) (more : List Obj) : ∀ (as : List ℕ) (vs : List (Ten ℝ)) (h : Heap) (i : ℕ),
    as.Nodup → vs.length = as.length →
    (∀ j a v, as[j]? = some a → vs[j]? = some v →
      ∃ t, src[i + j]? = some t ∧ kind.place (i + j) (h.vars a).shape t = some v ∧ v.shape = (h.vars a).shape) →
    assignAll kind h i (as.map (mkV kind.isPublic) ++ more) (src.map (mkT kind.isPublic)) =
      assignAll kind { h with vars := writeAll h.vars as vs } (i + as.length) more (src.map (mkT kind.isPublic))
  | [], [], h, i, _, _, _ => rfl
  | [], _ :: _, _, _, _, hl, _ => by simp at hl
  | _ :: _, [], _, _, _, hl, _ => by simp at hl
  | a :: as, v :: vs, h, i, hn, hl, H => by
      obtain ⟨t, t1, t2, t3⟩ := H 0 a v rfl rfl
      rw [Nat.add_zero] at t1 t2
      have hs : (src.map (mkT kind.isPublic))[i]? = some (mkT kind.isPublic t) := by rw [List.getElem?_map, t1]; rfl
      rw [List.map_cons, List.cons_append, assignAll, hs]
      simp only [shape_mkV, placeObj_mkT kind h i _ t v t2, assignObj_mkV _ h a v t3]
      rw [assignAll_step kind src more as vs (h.setVar a v) (i + 1) (List.nodup_cons.1 hn).2 (by simpa using hl)]
      · rw [show i + 1 + as.length = i + (a :: as).length by simp [Nat.add_comm, Nat.add_left_comm]]
        rfl
      · intro j b u hb hu
        have hne : b ≠ a := fun e => (List.nodup_cons.1 hn).1 (e ▸ List.mem_of_getElem? hb)
        have hvb : (h.setVar a v).vars b = h.vars b := Function.update_of_ne hne _ _
        rw [hvb, show i + 1 + j = i + (j + 1) by omega]
        exact H (j + 1) b u hb hu

/-- The loop over the weights, when everything fits. -/
theorem assignAll_ok (kind : Kind) (src : List (Ten ℝ)) (as : List ℕ) (vs : List (Ten ℝ)) (h : Heap) (i : ℕ)
    (hn : as.Nodup) (hl : vs.length = as.length)
    (H : ∀ j a v, as[j]? = some a → vs[j]? = some v →
      ∃ t, src[i + j]? = some t ∧ kind.place (i + j) (h.vars a).shape t = some v ∧ v.shape = (h.vars a).shape) :
    assignAll kind h i (as.map (mkV kind.isPublic)) (src.map (mkT kind.isPublic)) =
      ({ h with vars := writeAll h.vars as vs }, none) := by
  have := assignAll_step kind src [] as vs h i hn hl H
  rwa [List.append_nil] at this

/-! ## Layers and models in the heap -/

/-- The variable that `BatchNormalization` has besides its weights. -/
def Kind.extra : Kind → List ℕ
  | .norm _ d _ => [d]
  | _ => []

/-- A layer together with the addresses of its weights. -/
abbrev Placed := WLayer × List ℕ

/-- All variables of a layer. -/
def Placed.owned (p : Placed) : List ℕ := p.2 ++ p.1.kind.extra

/-- The list `self.weights` consists of the variables of the layer; the variance is one of them. -/
structure Placed.Ready (h : Heap) (p : Placed) : Prop where
  list : h.lists p.1.weights = p.2.map (mkV p.1.kind.isPublic)
  nodup : p.owned.Nodup
  variance : ∀ v d ε, p.1.kind = .norm v d ε → v ∈ p.2

/-- The layer takes the given tensors: their number is right, and each has as many entries as the weight
(as the kernel before its rearrangement). -/
structure Placed.Accepts (h : Heap) (p : Placed) (ts : List (Ten ℝ)) : Prop where
  length : ts.length = p.2.length
  fits : ∀ j a t, p.2[j]? = some a → ts[j]? = some t →
    ∃ v, p.1.kind.place j (h.vars a).shape t = some v ∧ v.shape = (h.vars a).shape

/-- In `h'` the layer has the given weights, brought into the shapes they have in `h`. -/
structure Placed.Has (h h' : Heap) (p : Placed) (ts : List (Ten ℝ)) : Prop where
  weights : ∀ j a t, p.2[j]? = some a → ts[j]? = some t → p.1.kind.place j (h.vars a).shape t = some (h'.vars a)
  denom : ∀ v d ε, p.1.kind = .norm v d ε → h'.vars d = normDenom ε (h'.vars v)

theorem exists_values (h : Heap) (p : Placed) (ts : List (Ten ℝ)) (H : p.Accepts h ts) :
    ∃ vs : List (Ten ℝ), vs.length = p.2.length ∧ ∀ j a v, p.2[j]? = some a → vs[j]? = some v →
      ∃ t, ts[j]? = some t ∧ p.1.kind.place j (h.vars a).shape t = some v ∧ v.shape = (h.vars a).shape := by
  refine ⟨List.ofFn fun j : Fin p.2.length =>
    (p.1.kind.place j (h.vars p.2[j]).shape (ts[j]'(by rw [H.length]; exact j.2))).getD ⟨[], fun _ => 0⟩, by simp, ?_⟩
  intro j a v ha hv
  obtain ⟨hj, rfl⟩ := List.getElem?_eq_some_iff.1 ha
  obtain ⟨hj', hv⟩ := List.getElem?_eq_some_iff.1 hv
  have hjt : j < ts.length := by rw [H.length]; exact hj
  obtain ⟨w, w1, w2⟩ := H.fits j p.2[j] ts[j] ha (List.getElem?_eq_getElem hjt)
  rw [List.getElem_ofFn] at hv
  have hv' : (p.1.kind.place j (h.vars p.2[j]).shape ts[j]).getD ⟨[], fun _ => 0⟩ = v := hv
  rw [w1, Option.getD_some] at hv'
  subst hv'
  exact ⟨ts[j], List.getElem?_eq_getElem hjt, w1, w2⟩

theorem Heap.back_vars (h : Heap) (a : Option ℕ) (l : List Obj) : (h.back a l).vars = h.vars := by cases a <;> rfl

/-- **One layer.** -/
theorem set_ok (h : Heap) (p : Placed) (src : List Obj) (back : Option ℕ) (ts : List (Ten ℝ)) (hr : p.Ready h)
    (ha : p.Accepts h ts) (hc : convert p.1.kind.isPublic h src = (ts.map (mkT p.1.kind.isPublic), none))
    (hb : back ≠ some p.1.weights) :
    ∃ h', p.1.set h src back = (h', none) ∧ p.Has h h' ts ∧ (∀ b, b ∉ p.owned → h'.vars b = h.vars b) ∧
      h'.lists = (h.back back (ts.map (mkT p.1.kind.isPublic))).lists := by
  obtain ⟨vs, l1, l2⟩ := exists_values h p ts ha
  have hn : p.2.Nodup := (List.nodup_append.1 hr.nodup).1
  set h1 := h.back back (ts.map (mkT p.1.kind.isPublic)) with h1def
  have hv1 : h1.vars = h.vars := h.back_vars _ _
  have hl1 : h1.lists p.1.weights = p.2.map (mkV p.1.kind.isPublic) := by
    rw [← hr.list]
    cases back with
    | none => rfl
    | some a => exact Function.update_of_ne (fun e => hb (by rw [e])) _ _
  have hass := assignAll_ok p.1.kind ts p.2 vs h1 0 hn l1 (by
    intro j a v h1' h2'
    rw [hv1, Nat.zero_add]
    exact l2 j a v h1' h2')
  have hset : p.1.set h src back = (p.1.kind.finish { h1 with vars := writeAll h1.vars p.2 vs }, none) := by
    unfold WLayer.set
    simp only [hc]
    rw [← h1def, hl1, hass]
  have hval : ∀ j a t, p.2[j]? = some a → ts[j]? = some t →
      p.1.kind.place j (h.vars a).shape t = some (writeAll h1.vars p.2 vs a) := by
    intro j a t hj ht
    obtain ⟨hj', _⟩ := List.getElem?_eq_some_iff.1 hj
    have hjv : vs[j]? = some vs[j] := List.getElem?_eq_getElem (by omega)
    obtain ⟨t', e1, e2, _⟩ := l2 j a _ hj hjv
    rw [ht] at e1
    cases e1
    rw [writeAll_get _ _ _ j a _ hn hj hjv, e2]
  rcases hk : p.1.kind with _ | ⟨cfg, m, c⟩ | ⟨v, d, ε⟩
  · refine ⟨_, hset, ⟨?_, ?_⟩, ?_, ?_⟩
    · simpa [hk, Kind.finish] using hval
    · simp [hk]
    · intro b hb'
      rw [hk, Kind.finish, ← hv1]
      exact writeAll_not_mem _ _ _ _ fun h => hb' (List.mem_append.2 (.inl h))
    · rw [hk, Kind.finish, h1def, hk]
  · refine ⟨_, hset, ⟨?_, ?_⟩, ?_, ?_⟩
    · simpa [hk, Kind.finish] using hval
    · simp [hk]
    · intro b hb'
      rw [hk, Kind.finish, ← hv1]
      exact writeAll_not_mem _ _ _ _ fun h => hb' (List.mem_append.2 (.inl h))
    · rw [hk, Kind.finish, h1def, hk]
  · have hd : d ∉ p.2 := by
      have := hr.nodup
      rw [Placed.owned, hk, Kind.extra, List.nodup_append] at this
      exact fun hd => this.2.2 d hd d (List.mem_singleton.2 rfl) rfl
    have hvd : v ≠ d := fun e => hd (e ▸ hr.variance v d ε hk)
    refine ⟨_, hset, ⟨?_, ?_⟩, ?_, ?_⟩
    · intro j a t hj ht
      rw [hval j a t hj ht, hk, Kind.finish]
      congr 1
      have hne : a ≠ d := fun e => hd (by rw [← e]; exact List.mem_of_getElem? hj)
      exact (Function.update_of_ne hne _ _).symm
    · intro v' d' ε' e
      rw [hk] at e
      cases e
      rw [hk, Kind.finish]
      simp only [Heap.setVar]
      rw [Function.update_self, Function.update_of_ne hvd]
    · intro b hb'
      rw [hk, Kind.finish, ← hv1]
      rw [Placed.owned, hk, Kind.extra, List.mem_append, List.mem_singleton, not_or] at hb'
      simp only [Heap.setVar]
      rw [Function.update_of_ne hb'.2]
      exact writeAll_not_mem _ _ _ _ hb'.1
    · rw [hk, Kind.finish, h1def, hk]
      rfl

theorem Placed.Ready.mono {h h' : Heap} {p : Placed} (hr : p.Ready h) (hl : h'.lists p.1.weights = h.lists p.1.weights) :
    p.Ready h' := ⟨hl.trans hr.list, hr.nodup, hr.variance⟩

theorem Placed.Accepts.mono {h h' : Heap} {p : Placed} {ts : List (Ten ℝ)} (ha : p.Accepts h ts)
    (hv : ∀ a ∈ p.2, h'.vars a = h.vars a) : p.Accepts h' ts :=
  ⟨ha.length, fun j a t hj ht => by rw [hv a (List.mem_of_getElem? hj)]; exact ha.fits j a t hj ht⟩

/-- `Has` only looks at the shapes before and the variables of the layer after. -/
theorem Placed.Has.mono {h₀ h h₁ h₂ : Heap} {p : Placed} {ts : List (Ten ℝ)} (hh : p.Has h h₁ ts)
    (hr : ∀ v d ε, p.1.kind = .norm v d ε → v ∈ p.2) (h0 : ∀ a ∈ p.2, h₀.vars a = h.vars a)
    (hv : ∀ a ∈ p.owned, h₂.vars a = h₁.vars a) : p.Has h₀ h₂ ts := by
  refine ⟨fun j a t hj ht => ?_, fun v d ε e => ?_⟩
  · have hm := List.mem_of_getElem? hj
    rw [h0 a hm, hv a (List.mem_append.2 (.inl hm))]
    exact hh.weights j a t hj ht
  · have hd : d ∈ p.owned := by rw [Placed.owned, e]; exact List.mem_append.2 (.inr (List.mem_singleton.2 rfl))
    rw [hv d hd, hv v (List.mem_append.2 (.inl (hr v d ε e)))]
    exact hh.denom v d ε e

/-- All variables of a model. -/
def ownedAll (L : List Placed) : List ℕ := L.flatMap Placed.owned

/-- The layers of a model are in the heap and share no variables. -/
structure ReadyAll (h : Heap) (L : List Placed) : Prop where
  each : ∀ p ∈ L, p.Ready h
  nodup : (ownedAll L).Nodup

theorem ReadyAll.tail {h : Heap} {p : Placed} {L : List Placed} (H : ReadyAll h (p :: L)) : ReadyAll h L :=
  ⟨fun q hq => H.each q (List.mem_cons_of_mem _ hq), (List.nodup_append.1 (by simpa [ownedAll] using H.nodup)).2.1⟩

theorem ReadyAll.disjoint {h : Heap} {p : Placed} {L : List Placed} (H : ReadyAll h (p :: L)) {a : ℕ} (ha : a ∈ p.owned) :
    a ∉ ownedAll L := by
  have := (List.nodup_append.1 (by simpa [ownedAll] using H.nodup : (p.owned ++ ownedAll L).Nodup)).2.2
  exact fun h => this a ha a h rfl

theorem mem_ownedAll {L : List Placed} {p : Placed} (hp : p ∈ L) {a : ℕ} (ha : a ∈ p.owned) : a ∈ ownedAll L :=
  List.mem_flatMap.2 ⟨p, hp, ha⟩

/-- All layers have the given weights. -/
def HasAll (h h' : Heap) (L : List Placed) (wss : List (List (Ten ℝ))) : Prop :=
  List.Forall₂ (fun p ts => p.Has h h' ts) L wss

theorem HasAll.mono {h₀ h h₁ h₂ : Heap} : ∀ {L : List Placed} {wss : List (List (Ten ℝ))}, HasAll h h₁ L wss →
    (∀ p ∈ L, ∀ v d ε, p.1.kind = .norm v d ε → v ∈ p.2) → (∀ a ∈ ownedAll L, h₀.vars a = h.vars a) →
    (∀ a ∈ ownedAll L, h₂.vars a = h₁.vars a) → HasAll h₀ h₂ L wss
  | _, _, .nil, _, _, _ => .nil
  | p :: L, _ :: _, .cons a r, H1, H2, H3 => by
      have hin : ∀ b ∈ p.owned, b ∈ ownedAll (p :: L) := fun b hb => mem_ownedAll List.mem_cons_self hb
      have hin' : ∀ b ∈ ownedAll L, b ∈ ownedAll (p :: L) := fun b hb => by
        rw [ownedAll, List.flatMap_cons]; exact List.mem_append.2 (.inr hb)
      exact .cons (a.mono (H1 p List.mem_cons_self) (fun b hb => H2 b (hin b (List.mem_append.2 (.inl hb))))
          (fun b hb => H3 b (hin b hb)))
        (HasAll.mono r (fun q hq => H1 q (List.mem_cons_of_mem _ hq)) (fun b hb => H2 b (hin' b hb)) (fun b hb => H3 b (hin' b hb)))

theorem forall2_mem {β γ : Type} {R R' : β → γ → Prop} : ∀ {l : List β} {k : List γ}, List.Forall₂ R l k →
    (∀ b ∈ l, ∀ c, R b c → R' b c) → List.Forall₂ R' l k
  | _, _, .nil, _ => .nil
  | _, _, .cons a r, H => .cons (H _ List.mem_cons_self _ a) (forall2_mem r fun b hb => H b (List.mem_cons_of_mem _ hb))

theorem forall2_mem₂ {β γ : Type} {R R' : β → γ → Prop} : ∀ {l : List β} {k : List γ}, List.Forall₂ R l k →
    (∀ b ∈ l, ∀ c ∈ k, R b c → R' b c) → List.Forall₂ R' l k
  | _, _, .nil, _ => .nil
  | _, _, .cons a r, H => .cons (H _ List.mem_cons_self _ List.mem_cons_self a)
      (forall2_mem₂ r fun b hb c hc => H b (List.mem_cons_of_mem _ hb) c (List.mem_cons_of_mem _ hc))

/-- One layer, skipped if it has no weights. -/
theorem setIf_ok (h : Heap) (p : Placed) (src : List Obj) (back : Option ℕ) (ts : List (Ten ℝ)) (hr : p.Ready h)
    (ha : p.Accepts h ts) (hs : src.length = ts.length)
    (hc : ts ≠ [] → convert p.1.kind.isPublic h src = (ts.map (mkT p.1.kind.isPublic), none))
    (hb : ts ≠ [] → back ≠ some p.1.weights) :
    ∃ h', p.1.setIf h src back = (h', none) ∧ p.Has h h' ts ∧ (∀ b, b ∉ p.owned → h'.vars b = h.vars b) ∧
      (ts ≠ [] → h'.lists = (h.back back (ts.map (mkT p.1.kind.isPublic))).lists) ∧ (ts = [] → h' = h) := by
  by_cases ht : ts = []
  · subst ht
    have hsrc : src = [] := List.length_eq_zero_iff.1 hs
    subst hsrc
    refine ⟨h, rfl, ⟨by simp, ?_⟩, fun _ _ => rfl, fun e => absurd rfl e, fun _ => rfl⟩
    intro v d ε e
    have h1 := hr.variance v d ε e
    have h2 : p.2 = [] := List.length_eq_zero_iff.1 ha.length.symm
    rw [h2] at h1
    simp at h1
  · obtain ⟨h', e1, e2, e3, e4⟩ := set_ok h p src back ts hr ha (hc ht) (hb ht)
    refine ⟨h', ?_, e2, e3, fun _ => e4, fun e => absurd e ht⟩
    have : src.isEmpty = false := by
      cases src with
      | nil => exact absurd (List.length_eq_zero_iff.1 hs.symm) ht
      | cons _ _ => rfl
    rw [WLayer.setIf, this]
    exact e1

/-- A slice of the given list that stands for the tensors `ts`, also after variables in `O` have been
written. -/
structure Stands (O : List ℕ) (h : Heap) (p : Placed) (src : List Obj) (ts : List (Ten ℝ)) : Prop where
  accepts : p.Accepts h ts
  length : src.length = ts.length
  conv : ts ≠ [] → ∀ h' : Heap, (∀ b, b ∉ O → h'.vars b = h.vars b) →
    convert p.1.kind.isPublic h' src = (ts.map (mkT p.1.kind.isPublic), none)

theorem stands_arr (O : List ℕ) (h : Heap) (p : Placed) (ts : List (Ten ℝ)) (H : p.Accepts h ts) :
    Stands O h p (ts.map .arr) ts := ⟨H, by simp, fun hne h' _ => convert_arr _ h' ts hne⟩

theorem stands_var (O : List ℕ) (h : Heap) (p : Placed) (as : List ℕ) (H : p.Accepts h (as.map h.vars)) (hO : ∀ a ∈ as, a ∉ O) :
    Stands O h p (as.map (mkV p.1.kind.isPublic)) (as.map h.vars) := by
  refine ⟨H, by simp, fun hne h' hh => ?_⟩
  rw [convert_var _ h' as (fun e => hne (by rw [e]; rfl)), show as.map h'.vars = as.map h.vars from
    List.map_congr_left fun a ha => hh a (hO a ha)]

/-- The weights of some of the layers, and what remains. -/
theorem setSlices_step (O : List ℕ) (rest : List WLayer) (extra : List Obj) :
    ∀ (L : List Placed) (wss : List (List Obj × List (Ten ℝ))) (h : Heap), (∀ b ∈ ownedAll L, b ∈ O) →
    ReadyAll h L → List.Forall₂ (fun p w => Stands O h p w.1 w.2) L wss →
    ∃ h', setSlices h (L.map Prod.fst ++ rest) ((wss.map Prod.fst).flatten ++ extra) = setSlices h' rest extra ∧
      HasAll h h' L (wss.map Prod.snd) ∧ (∀ b, b ∉ ownedAll L → h'.vars b = h.vars b) ∧ h'.lists = h.lists
  | [], _, h, _, _, .nil => ⟨h, rfl, .nil, fun _ _ => rfl, rfl⟩
  | p :: L, (src, ts) :: wss, h, hO, H, .cons ha hr => by
      have hp := H.each p List.mem_cons_self
      have hlen : (h.lists p.1.weights).length = src.length := by
        rw [hp.list, List.length_map, ← ha.accepts.length]; exact ha.length.symm
      have hsplit : (((src, ts) :: wss).map Prod.fst).flatten ++ extra = src ++ ((wss.map Prod.fst).flatten ++ extra) := by simp
      have htake : (src ++ ((wss.map Prod.fst).flatten ++ extra)).take (h.lists p.1.weights).length = src := by
        rw [hlen]; exact List.take_left' rfl
      have hdrop : (src ++ ((wss.map Prod.fst).flatten ++ extra)).drop (h.lists p.1.weights).length =
          (wss.map Prod.fst).flatten ++ extra := by
        rw [hlen]; exact List.drop_left' rfl
      rw [hsplit, List.map_cons, List.cons_append, setSlices]
      obtain ⟨h1, e1, e2, e3, e4, e5⟩ := setIf_ok h p src none ts hp ha.accepts ha.length
        (fun hne => ha.conv hne h fun _ _ => rfl) (by simp)
      have hl1 : h1.lists = h.lists := by
        by_cases ht : ts = []
        · rw [e5 ht]
        · exact e4 ht
      simp only [htake, hdrop, e1]
      have hframe : ∀ q ∈ L, ∀ b ∈ q.owned, h1.vars b = h.vars b := fun q hq b hb =>
        e3 b fun hb' => H.disjoint hb' (mem_ownedAll hq hb)
      have hout : ∀ b, b ∉ O → h1.vars b = h.vars b := fun b hb =>
        e3 b fun hb' => hb (hO b (mem_ownedAll List.mem_cons_self hb'))
      have hacc : List.Forall₂ (fun (q : Placed) (w : List Obj × List (Ten ℝ)) => Stands O h1 q w.1 w.2) L wss :=
        forall2_mem hr fun q hq w hqu =>
          ⟨hqu.accepts.mono fun a ha => hframe q hq a (List.mem_append.2 (.inl ha)), hqu.length,
            fun hne h' hh => hqu.conv hne h' fun b hb => (hh b hb).trans (hout b hb)⟩
      obtain ⟨h2, f1, f2, f3, f4⟩ := setSlices_step O rest extra L wss h1
        (fun b hb => hO b (by rw [ownedAll, List.flatMap_cons]; exact List.mem_append.2 (.inr hb)))
        ⟨fun q hq => (H.tail.each q hq).mono (by rw [hl1]), H.tail.nodup⟩ hacc
      refine ⟨h2, f1, .cons ?_ ?_, ?_, f4.trans hl1⟩
      · exact e2.mono hp.variance (fun _ _ => rfl) fun a ha => f3 a (H.disjoint ha)
      · refine f2.mono (fun q hq => (H.each q (List.mem_cons_of_mem _ hq)).variance) (fun a ha => ?_) fun _ _ => rfl
        obtain ⟨q, hq, hqa⟩ := List.mem_flatMap.1 ha
        exact (hframe q hq a hqa).symm
      · intro b hb
        rw [ownedAll, List.flatMap_cons, List.mem_append, not_or] at hb
        rw [f3 b hb.2, e3 b hb.1]

/-- The weights determine the variables of a layer. -/
theorem has_eq {h h1 h2 : Heap} {p : Placed} {ts : List (Ten ℝ)} (hr : p.Ready h) (ha : p.Accepts h ts)
    (H1 : p.Has h h1 ts) (H2 : p.Has h h2 ts) (b : ℕ) (hb : b ∈ p.owned) : h1.vars b = h2.vars b := by
  have key : ∀ b ∈ p.2, h1.vars b = h2.vars b := by
    intro b hb
    obtain ⟨j, hj⟩ := List.mem_iff_getElem?.1 hb
    obtain ⟨hj', _⟩ := List.getElem?_eq_some_iff.1 hj
    have ht : ts[j]? = some (ts[j]'(by rw [ha.length]; exact hj')) := List.getElem?_eq_getElem _
    have e1 := H1.weights j b _ hj ht
    rw [H2.weights j b _ hj ht] at e1
    exact (Option.some.inj e1).symm
  rcases List.mem_append.1 hb with hb | hb
  · exact key b hb
  · rcases hk : p.1.kind with _ | ⟨cfg, m, c⟩ | ⟨v, d, ε⟩
    · rw [hk] at hb; simp [Kind.extra] at hb
    · rw [hk] at hb; simp [Kind.extra] at hb
    · rw [hk, Kind.extra, List.mem_singleton] at hb
      subst hb
      rw [H1.denom v _ ε hk, H2.denom v _ ε hk, key v (hr.variance v _ ε hk)]

theorem hasAll_eq {h h1 h2 : Heap} {L : List Placed} {wss : List (List (Ten ℝ))} (H : ReadyAll h L)
    (ha : List.Forall₂ (fun p ts => p.Accepts h ts) L wss) (H1 : HasAll h h1 L wss) (H2 : HasAll h h2 L wss)
    (b : ℕ) (hb : b ∈ ownedAll L) : h1.vars b = h2.vars b := by
  induction ha with
  | nil => simp [ownedAll] at hb
  | @cons p ts L wss a r ih =>
      cases H1 with
      | cons a1 r1 =>
        cases H2 with
        | cons a2 r2 =>
          rw [ownedAll, List.flatMap_cons, List.mem_append] at hb
          rcases hb with hb | hb
          · exact has_eq (H.each p List.mem_cons_self) a a1 a2 b hb
          · exact ih H.tail r1 r2 hb

/-- No weights are left: the remaining layers are skipped. -/
theorem setSlices_nil : ∀ (m : List WLayer) (h : Heap), setSlices h m [] = (h, none)
  | [], _ => rfl
  | l :: m, h => by
      rw [setSlices]
      simp only [List.take_nil, List.drop_nil, WLayer.setIf, List.isEmpty_nil, if_true]
      exact setSlices_nil m h

/-- From the lists of another model. -/
theorem setLists_step : ∀ (L S : List Placed) (h : Heap), ReadyAll h L → (∀ q ∈ S, q.Ready h) →
    List.Forall₂ (fun p q => p.Accepts h (q.2.map h.vars) ∧ p.1.kind.isPublic = q.1.kind.isPublic) L S →
    (∀ q ∈ S, ∀ a ∈ q.2, a ∉ ownedAll L) → (∀ q ∈ S, q.2 ≠ [] → ∀ p ∈ L, q.1.weights ≠ p.1.weights) →
    (S.map fun q => q.1.weights).Nodup →
    ∃ h', setLists h (L.map Prod.fst) (S.map fun q => q.1.weights) = (h', none) ∧
      HasAll h h' L (S.map fun q => q.2.map h.vars) ∧ (∀ b, b ∉ ownedAll L → h'.vars b = h.vars b) ∧
      (∀ q ∈ S, h'.lists q.1.weights = (q.2.map h.vars).map (mkT q.1.kind.isPublic)) ∧
      (∀ a, (∀ q ∈ S, q.1.weights ≠ a) → h'.lists a = h.lists a)
  | [], _, h, _, _, .nil, _, _, _ => ⟨h, rfl, .nil, fun _ _ => rfl, by simp, fun _ _ => rfl⟩
  | p :: L, q :: S, h, H, HS, .cons ha hr, hd, hw, hn => by
      have hp := H.each p List.mem_cons_self
      have hq := HS q List.mem_cons_self
      rw [List.map_cons, List.map_cons, setLists]
      obtain ⟨h1, e1, e2, e3, e4, e5⟩ := setIf_ok h p (h.lists q.1.weights) (some q.1.weights) (q.2.map h.vars) hp ha.1
        (by rw [hq.list]; simp)
        (fun hne => by
          rw [hq.list, ha.2]
          exact convert_var _ h _ (fun e => hne (by rw [e]; rfl)))
        (fun hne e => hw q List.mem_cons_self (fun e => hne (by rw [e]; rfl)) p List.mem_cons_self (Option.some.inj e))
      have hlq : h1.lists q.1.weights = (q.2.map h.vars).map (mkT q.1.kind.isPublic) := by
        by_cases ht : q.2.map h.vars = []
        · rw [e5 ht, hq.list, List.map_eq_nil_iff.1 ht]; rfl
        · rw [e4 ht, ← ha.2]; exact Function.update_self ..
      have hlo : ∀ a, q.1.weights ≠ a → h1.lists a = h.lists a := by
        intro a hne
        by_cases ht : q.2.map h.vars = []
        · rw [e5 ht]
        · rw [e4 ht]; exact Function.update_of_ne (Ne.symm hne) _ _
      simp only [e1]
      have hframe : ∀ r ∈ L, ∀ b ∈ r.owned, h1.vars b = h.vars b := fun r hr b hb =>
        e3 b fun hb' => H.disjoint hb' (mem_ownedAll hr hb)
      have hsrc : ∀ r ∈ S, ∀ a ∈ r.2, h1.vars a = h.vars a := fun r hr a har =>
        e3 a fun hb' => hd r (List.mem_cons_of_mem _ hr) a har (mem_ownedAll List.mem_cons_self hb')
      have hmap : ∀ r ∈ S, r.2.map h1.vars = r.2.map h.vars := fun r hr => List.map_congr_left (hsrc r hr)
      have hn' := List.nodup_cons.1 hn
      have hwne : ∀ r ∈ S, q.1.weights ≠ r.1.weights := fun r hr e => hn'.1 (List.mem_map.2 ⟨r, hr, e.symm⟩)
      have hacc : List.Forall₂ (fun (r s : Placed) => r.Accepts h1 (s.2.map h1.vars) ∧ r.1.kind.isPublic = s.1.kind.isPublic) L S :=
        forall2_mem₂ hr fun r hr' s hs' hrs => ⟨by
          rw [hmap s hs']
          exact hrs.1.mono fun a ha => hframe r hr' a (List.mem_append.2 (.inl ha)), hrs.2⟩
      have hLlist : ∀ r ∈ L, h1.lists r.1.weights = h.lists r.1.weights := by
        intro r hr'
        by_cases ht : q.2 = []
        · rw [e5 (by rw [ht]; rfl)]
        · exact hlo _ (hw q List.mem_cons_self ht r (List.mem_cons_of_mem _ hr'))
      obtain ⟨h2, f1, f2, f3, f4, f5⟩ := setLists_step L S h1
        ⟨fun r hr' => (H.tail.each r hr').mono (hLlist r hr'), H.tail.nodup⟩
        (fun r hr' => (HS r (List.mem_cons_of_mem _ hr')).mono (hlo _ (hwne r hr'))) hacc
        (fun r hr' a ha' hb => hd r (List.mem_cons_of_mem _ hr') a ha' (by
          rw [ownedAll, List.flatMap_cons]; exact List.mem_append.2 (.inr hb)))
        (fun r hr' hne s hs => hw r (List.mem_cons_of_mem _ hr') hne s (List.mem_cons_of_mem _ hs)) hn'.2
      have hmapS : (S.map fun r => r.2.map h1.vars) = S.map fun r => r.2.map h.vars := List.map_congr_left hmap
      rw [hmapS] at f2
      refine ⟨h2, f1, .cons ?_ ?_, ?_, ?_, ?_⟩
      · exact e2.mono hp.variance (fun _ _ => rfl) fun a ha => f3 a (H.disjoint ha)
      · refine f2.mono (fun q hq => (H.each q (List.mem_cons_of_mem _ hq)).variance) (fun a ha => ?_) fun _ _ => rfl
        obtain ⟨q, hq, hqa⟩ := List.mem_flatMap.1 ha
        exact (hframe q hq a hqa).symm
      · intro b hb
        rw [ownedAll, List.flatMap_cons, List.mem_append, not_or] at hb
        rw [f3 b hb.2, e3 b hb.1]
      · intro r hr'
        rcases List.mem_cons.1 hr' with rfl | hr'
        · rw [f5 _ (fun s hs e => hwne s hs e.symm), hlq]
        · rw [f4 r hr', hmap r hr']
      · intro a hA
        rw [f5 a fun s hs => hA s (List.mem_cons_of_mem _ hs), hlo a (hA q List.mem_cons_self)]

end Verif.Keras
