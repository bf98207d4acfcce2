import Verif.Keras.Clone

/-!
# C82: a cloned model computes what the Keras model computes

`Value m x p k y` says that the `k`-th call of the layer named `p` of the Keras model has the result
`y` when the input of the model is `x`.
-/

namespace Verif.Keras

variable {Λ : Lang}

/-- What a Keras model computes. -/
inductive Value (m : KModel Λ) (x : Λ.X) : ℕ → ℕ → Λ.X → Prop
  | input (l : KLayer Λ) : l ∈ m.layers → l.cfg = none → Value m x l.name 0 x
  | call (l : KLayer Λ) (c : Λ.Cfg) (k : ℕ) (src : ℕ × ℕ) (v : Λ.X) : l ∈ m.layers →
      l.cfg = some c → l.calls[k]? = some src → Value m x src.1 src.2 v →
      Value m x l.name k (Λ.keras c l.weights v)

/-- The layers form a chain that starts from the result of the layer `p`: each is called once, on
the result of the one before. -/
def Chain : ℕ → List (KLayer Λ) → Prop
  | _, [] => True
  | p, l :: ls => l.cfg.isSome ∧ l.calls = [(p, 0)] ∧ Chain l.name ls

/-- Name of the last layer. -/
def lastName : ℕ → List (KLayer Λ) → ℕ
  | p, [] => p
  | _, l :: ls => lastName l.name ls

/-- A Keras model that is a chain of layers behind an input. -/
structure Sequence (m : KModel Λ) (inp : KLayer Λ) (ls : List (KLayer Λ)) : Prop where
  layers : m.layers = inp :: ls
  isInput : inp.cfg = none
  noWeights : inp.weights = []
  chain : Chain inp.name ls
  names : (m.layers.map (·.name)).Nodup
  outputs : m.outputs = [(lastName inp.name ls, 0)]

/-- Layers of the library compute what the layers of Keras compute, and have as many weights. -/
structure Faithful (Λ : Lang) (ls : List (KLayer Λ)) : Prop where
  count : ∀ l ∈ ls, ∀ c, l.cfg = some c → ∀ n, Λ.accepts c = some n → l.weights.length = n
  same : ∀ l ∈ ls, ∀ c, l.cfg = some c → Λ.tfe c l.weights = Λ.keras c l.weights
  /-- layers without weights do not depend on initial ones -/
  none : ∀ c, Λ.accepts c = some 0 → ∀ ws x, Λ.tfe c ws x = Λ.tfe c [] x

/-- The configurations and weight counts of a chain. -/
theorem fromConfig_some (cs : List Λ.Cfg) (first : Bool) (l : List (Λ.Cfg × ℕ))
    (h : fromConfig cs first = .ok l) :
    l.map (·.1) = cs ∧ ∀ p ∈ l, Λ.accepts p.1 = some p.2 := by
  induction cs generalizing first l with
  | nil => cases h; simp
  | cons c cs ih =>
    unfold fromConfig at h
    cases ha : Λ.accepts c with
    | none => rw [ha] at h; cases h
    | some n =>
      rw [ha] at h
      dsimp only at h
      cases hf : (if first = true then addFirst c else Except.ok ()) with
      | error e => rw [hf] at h; cases h
      | ok u =>
        rw [hf] at h
        cases hr : fromConfig cs false with
        | error e => rw [hr] at h; cases h
        | ok r =>
          rw [hr] at h
          cases h
          obtain ⟨h1, h2⟩ := ih false r hr
          refine ⟨by simp [h1], ?_⟩
          intro p hp
          rcases List.mem_cons.1 hp with rfl | hp
          · exact ha
          · exact h2 p hp

/-- Running the clone of a chain is folding the Keras layers. -/
def runKeras : List (KLayer Λ) → Λ.X → Λ.X
  | [], x => x
  | l :: ls, x =>
    match l.cfg with
    | none => runKeras ls x
    | some c => runKeras ls (Λ.keras c l.weights x)

theorem distribute_run (ls : List (KLayer Λ)) (hf : Faithful Λ ls) (init : Λ.Cfg → List Λ.W)
    (p : ℕ) (hc : Chain p ls) (l : List (Λ.Cfg × ℕ)) (hl : l.map (·.1) = ls.filterMap (·.cfg))
    (ha : ∀ q ∈ l, Λ.accepts q.1 = some q.2) :
    ∃ r, distribute l (ls.flatMap (·.weights)) = .ok r ∧ ∀ x, runClone init r x = runKeras ls x := by
  induction ls generalizing p l with
  | nil =>
    have : l = [] := by simpa using hl
    subst this
    exact ⟨[], rfl, fun _ => rfl⟩
  | cons a ls ih =>
    obtain ⟨hs, _, hc'⟩ := hc
    obtain ⟨c, hcfg⟩ := Option.isSome_iff_exists.1 hs
    rw [List.filterMap_cons_some hcfg] at hl
    cases l with
    | nil => simp at hl
    | cons q l =>
      obtain ⟨c', n⟩ := q
      simp only [List.map_cons, List.cons.injEq] at hl
      obtain ⟨rfl, hl⟩ := hl
      have hn := ha (c', n) (by simp)
      have hlen := hf.count a (by simp) c' hcfg n hn
      have hf' : Faithful Λ ls :=
        ⟨fun b hb => hf.count b (by simp [hb]), fun b hb => hf.same b (by simp [hb]), hf.none⟩
      obtain ⟨r, hr, hrun⟩ := ih hf' a.name hc' l hl (fun q hq => ha q (List.mem_cons_of_mem _ hq))
      have htake : (a.weights ++ ls.flatMap (·.weights)).take n = a.weights :=
        List.take_left' hlen
      have hdrop : (a.weights ++ ls.flatMap (·.weights)).drop n = ls.flatMap (·.weights) :=
        List.drop_left' hlen
      have hk : ∀ x, runKeras (a :: ls) x = runKeras ls (Λ.keras c' a.weights x) := by
        intro x
        show (match a.cfg with
          | none => runKeras ls x
          | some c => runKeras ls (Λ.keras c a.weights x)) = _
        rw [hcfg]
      rw [List.flatMap_cons]
      unfold distribute
      rw [htake, hdrop, hr]
      by_cases h0 : a.weights.length = 0
      · rw [if_pos h0]
        refine ⟨_, rfl, fun x => ?_⟩
        rw [hk, ← hrun, ← hf.same a (by simp) c' hcfg]
        show runClone init r (Λ.tfe c' (init c') x) = _
        have hw : a.weights = [] := List.length_eq_zero_iff.1 h0
        rw [hf.none c' (by rw [hn, ← hlen, h0]) (init c') x, hw]
      · rw [if_neg h0, if_neg (by omega)]
        refine ⟨_, rfl, fun x => ?_⟩
        rw [hk, ← hrun, ← hf.same a (by simp) c' hcfg]
        rfl

theorem value_chain (m : KModel Λ) (x v : Λ.X) (p : ℕ) (ls : List (KLayer Λ))
    (hsub : ∀ l ∈ ls, l ∈ m.layers) (hc : Chain p ls) (hp : Value m x p 0 v) :
    Value m x (lastName p ls) 0 (runKeras ls v) := by
  induction ls generalizing p v with
  | nil => exact hp
  | cons l ls ih =>
    obtain ⟨hs, hcalls, hc'⟩ := hc
    obtain ⟨c, hcfg⟩ := Option.isSome_iff_exists.1 hs
    have hk : runKeras (l :: ls) v = runKeras ls (Λ.keras c l.weights v) := by
      show (match l.cfg with
        | none => runKeras ls v
        | some c => runKeras ls (Λ.keras c l.weights v)) = _
      rw [hcfg]
    rw [hk]
    exact ih _ l.name (fun b hb => hsub b (by simp [hb])) hc'
      (.call l c 0 (p, 0) v (hsub l (by simp)) hcfg (by rw [hcalls]; rfl) hp)

theorem name_inj {m : KModel Λ} (h : (m.layers.map (·.name)).Nodup) {a b : KLayer Λ}
    (ha : a ∈ m.layers) (hb : b ∈ m.layers) (hn : a.name = b.name) : a = b :=
  List.inj_on_of_nodup_map h ha hb hn

theorem chain_mem {ls : List (KLayer Λ)} {p : ℕ} (hc : Chain p ls) :
    ∀ l ∈ ls, (∃ c, l.cfg = some c) ∧ ∃ q, l.calls = [(q, 0)] := by
  induction ls generalizing p with
  | nil => simp
  | cons a ls ih =>
    obtain ⟨hs, hcalls, hc'⟩ := hc
    intro l hl
    rcases List.mem_cons.1 hl with rfl | hl
    · exact ⟨Option.isSome_iff_exists.1 hs, p, hcalls⟩
    · exact ih hc' l hl

/-- Values are determined where names are. -/
theorem value_unique (m : KModel Λ) (hn : (m.layers.map (·.name)).Nodup) (x : Λ.X) (p k : ℕ)
    (y z : Λ.X) (hy : Value m x p k y) (hz : Value m x p k z) : y = z := by
  induction hy generalizing z with
  | input l hl hcfg =>
    generalize hp : l.name = p at hz
    generalize hk : (0 : ℕ) = k at hz
    cases hz with
    | input l' hl' hcfg' => rfl
    | call l' c _ src v hl' hcfg' =>
      have := name_inj hn hl hl' hp
      subst this
      rw [hcfg] at hcfg'; cases hcfg'
  | call l c k src v hl hcfg hcall _ ih =>
    generalize hp : l.name = p at hz
    cases hz with
    | input l' hl' hcfg' =>
      have := name_inj hn hl hl' hp
      subst this
      rw [hcfg] at hcfg'; cases hcfg'
    | call l' c' _ src' v' hl' hcfg' hcall' hv' =>
      have := name_inj hn hl hl' hp
      subst this
      rw [hcfg] at hcfg'; cases hcfg'
      rw [hcall] at hcall'; cases hcall'
      rw [ih v' hv']

/-- **A clone of a chain of layers computes what the Keras model computes**, if it can be made, and
if the single layers do. Proved for models that are chains (`keras.Sequential`) and whose layers all
have the weights Keras gives them. Missing: every other model (refuted below). -/
theorem clone_correct_partial (m : KModel Λ) (inp : KLayer Λ) (ls : List (KLayer Λ))
    (hm : Sequence m inp ls) (hf : Faithful Λ ls) (init : Λ.Cfg → List Λ.W)
    (r : List (Λ.Cfg × Option (List Λ.W))) (h : clone m = .ok r) (x : Λ.X) :
    ∀ o ∈ m.outputs, ∀ y, Value m x o.1 o.2 y ↔ y = runClone init r x := by
  have hcfgs : m.cfgs = ls.filterMap (·.cfg) := by
    unfold KModel.cfgs
    rw [hm.layers, List.filterMap_cons_none hm.isInput]
  have hws : m.weights = ls.flatMap (·.weights) := by
    unfold KModel.weights
    rw [hm.layers, List.flatMap_cons, hm.noWeights, List.nil_append]
  unfold clone at h
  cases hl : fromConfig m.cfgs true with
  | error e => rw [hl] at h; cases h
  | ok l =>
    rw [hl] at h
    obtain ⟨h1, h2⟩ := fromConfig_some _ _ _ hl
    rw [hcfgs] at h1
    obtain ⟨r', hr', hrun⟩ := distribute_run ls hf init inp.name hm.chain l h1 h2
    change (if m.weights = [] then Except.error CloneErr.index else distribute l m.weights) = _ at h
    split at h
    · cases h
    · rw [hws, hr'] at h
      cases h
      intro o ho y
      rw [hm.outputs] at ho
      obtain rfl := List.mem_singleton.1 ho
      rw [hrun]
      have hin : Value m x inp.name 0 x := .input inp (by rw [hm.layers]; simp) hm.isInput
      have hv := value_chain m x x inp.name ls (fun b hb => by rw [hm.layers]; simp [hb]) hm.chain hin
      exact ⟨fun hy => value_unique m hm.names x _ _ _ _ hy hv, fun hy => hy ▸ hv⟩

/-- A chain that starts with a layer of known batch shape, has supported layers and any weights can
be cloned. -/
theorem clone_succeeds (m : KModel Λ) (inp : KLayer Λ) (ls : List (KLayer Λ))
    (hm : Sequence m inp ls) (hf : Faithful Λ ls)
    (hacc : ∀ l ∈ ls, ∀ c, l.cfg = some c → (Λ.accepts c).isSome)
    (hfirst : ∀ c ∈ m.cfgs.head?, ∃ b, Λ.batch c = some (some b)) (hw : m.weights ≠ []) :
    ∃ r, clone m = .ok r := by
  have hcfgs : m.cfgs = ls.filterMap (·.cfg) := by
    unfold KModel.cfgs
    rw [hm.layers, List.filterMap_cons_none hm.isInput]
  have hws : m.weights = ls.flatMap (·.weights) := by
    unfold KModel.weights
    rw [hm.layers, List.flatMap_cons, hm.noWeights, List.nil_append]
  have hfrom : ∀ (cs : List Λ.Cfg) (first : Bool), (∀ c ∈ cs, (Λ.accepts c).isSome) →
      (first = true → ∀ c ∈ cs.head?, ∃ b, Λ.batch c = some (some b)) →
      ∃ l, fromConfig cs first = .ok l := by
    intro cs
    induction cs with
    | nil => exact fun _ _ _ => ⟨[], rfl⟩
    | cons c cs ih =>
      intro first ha hb
      obtain ⟨n, hn⟩ := Option.isSome_iff_exists.1 (ha c (by simp))
      obtain ⟨l, hl⟩ := ih false (fun d hd => ha d (by simp [hd])) (by simp)
      refine ⟨(c, n) :: l, ?_⟩
      unfold fromConfig
      rw [hn]
      cases first with
      | false => simp [Except.bind, Except.map, hl]
      | true =>
        obtain ⟨b, hb⟩ := hb rfl c (by simp)
        simp [Except.bind, Except.map, hl, addFirst, hb]
  obtain ⟨l, hl⟩ := hfrom m.cfgs true (by
    intro c hc
    rw [hcfgs] at hc
    obtain ⟨a, ha, hac⟩ := List.mem_filterMap.1 hc
    exact hacc a ha c hac) (fun _ => hfirst)
  obtain ⟨h1, h2⟩ := fromConfig_some _ _ _ hl
  rw [hcfgs] at h1
  obtain ⟨r, hr, _⟩ := distribute_run ls hf (fun _ => []) inp.name hm.chain l h1 h2
  refine ⟨r, ?_⟩
  unfold clone
  rw [hl]
  show (if m.weights = [] then Except.error CloneErr.index else distribute l m.weights) = _
  rw [if_neg hw, hws, hr]

/-! ## Where the claim fails -/

/-- Layers that multiply a number by their weight; the flag says that the configuration has a batch
shape. -/
def demoLang : Lang where
  Cfg := Option (Option ℕ)
  X := ℕ
  W := ℕ
  accepts _ := some 1
  batch c := c
  keras _ ws x := ws.headD 0 * x
  tfe _ ws x := ws.headD 0 * x

instance (n : ℕ) : OfNat demoLang.W n := ⟨(n : ℕ)⟩

instance (n : ℕ) : OfNat demoLang.X n := ⟨(n : ℕ)⟩

/-- A model that calls one layer twice: `D(D(x))` with `D` tripling. -/
def demoShared : KModel demoLang where
  layers := [⟨0, none, [], []⟩, ⟨1, some (some (some 1)), [(0, 0), (1, 0)], [3]⟩]
  outputs := [(1, 1)]

/-- A model with two heads: `A(x)` and `B(x)`. -/
def demoHeads : KModel demoLang where
  layers := [⟨0, none, [], []⟩, ⟨1, some (some (some 1)), [(0, 0)], [3]⟩,
    ⟨2, some none, [(0, 0)], [5]⟩]
  outputs := [(1, 0), (2, 0)]

/-- The connections of a Keras model are ignored: a layer that is called twice is applied once. No
exception. -/
theorem clone_shared_false : ∃ r, clone demoShared = .ok r ∧ Value demoShared 1 1 1 9 ∧
    (∀ y, Value demoShared 1 1 1 y → y = 9) ∧ runClone (fun _ => []) r 1 = 3 := by
  have h0 : Value demoShared 1 0 0 1 := Value.input (m := demoShared) ⟨0, none, [], []⟩ (.head _) rfl
  have h3 := Value.call (m := demoShared) (x := 1)
    ⟨1, some (some (some 1)), [(0, 0), (1, 0)], [3]⟩ (some (some 1)) 0 (0, 0) 1
    (.tail _ (.head _)) rfl rfl h0
  have h9 : Value demoShared 1 1 1 9 := Value.call (m := demoShared) (x := 1)
    ⟨1, some (some (some 1)), [(0, 0), (1, 0)], [3]⟩ (some (some 1)) 1 (1, 0) 3
    (.tail _ (.head _)) rfl rfl h3
  exact ⟨[(some (some 1), some [3])], rfl, h9,
    fun y hy => value_unique demoShared (by simp [demoShared]) _ _ _ _ _ hy h9, rfl⟩

/-- Layers side by side are put one behind the other: the clone of a model with the outputs `3 x` and
`5 x` computes `15 x`. -/
theorem clone_heads_false : ∃ r, clone demoHeads = .ok r ∧ Value demoHeads 1 1 0 3 ∧
    Value demoHeads 1 2 0 5 ∧ runClone (fun _ => []) r 1 = 15 := by
  have h0 : Value demoHeads 1 0 0 1 := Value.input (m := demoHeads) ⟨0, none, [], []⟩ (.head _) rfl
  have h1 := Value.call (m := demoHeads) (x := 1)
    ⟨1, some (some (some 1)), [(0, 0)], [3]⟩ (some (some 1)) 0 (0, 0) 1
    (.tail _ (.head _)) rfl rfl h0
  have h2 := Value.call (m := demoHeads) (x := 1)
    ⟨2, some none, [(0, 0)], [5]⟩ none 0 (0, 0) 1
    (.tail _ (.tail _ (.head _))) rfl rfl h0
  exact ⟨[(some (some 1), some [3]), (none, some [5])], rfl, h1, h2, rfl⟩

/-- A model whose first layer does not carry a batch shape, such as one made with `Input(...)` or
with the functional API, is refused, and so is one with a batch of unknown size (`input_shape=...`),
the usual way to write Keras models. -/
theorem clone_unknown_batch_false (m : KModel Λ) (c : Λ.Cfg) (hc : m.cfgs.head? = some c)
    (ha : (Λ.accepts c).isSome) :
    (Λ.batch c = none → clone m = .error .attribute) ∧
    (Λ.batch c = some none → clone m = .error .notImplemented) := by
  obtain ⟨cs, hcs⟩ : ∃ cs, m.cfgs = c :: cs := by
    cases h : m.cfgs with
    | nil => rw [h] at hc; cases hc
    | cons d ds => rw [h] at hc; cases hc; exact ⟨ds, rfl⟩
  obtain ⟨n, hn⟩ := Option.isSome_iff_exists.1 ha
  constructor <;> intro hb <;> unfold clone <;> rw [hcs] <;> unfold fromConfig <;>
    simp [hn, addFirst, hb, Except.bind]

/-- A model without weights cannot be cloned. -/
theorem clone_no_weights_false (m : KModel Λ) (h : m.weights = []) : ∀ r, clone m ≠ .ok r := by
  intro r hr
  unfold clone at hr
  cases hf : fromConfig m.cfgs true with
  | error e => rw [hf] at hr; cases hr
  | ok l =>
    rw [hf] at hr
    change (if m.weights = [] then Except.error CloneErr.index else distribute l m.weights) = _ at hr
    rw [if_pos h] at hr
    cases hr

/-- A layer the library does not have, or an option it does not implement, is refused, wherever it
is. -/
theorem clone_unsupported (m : KModel Λ) (c : Λ.Cfg) (hc : c ∈ m.cfgs) (ha : Λ.accepts c = none) :
    ∀ r, clone m ≠ .ok r := by
  intro r hr
  unfold clone at hr
  cases hf : fromConfig m.cfgs true with
  | error e => rw [hf] at hr; cases hr
  | ok l =>
    obtain ⟨h1, h2⟩ := fromConfig_some _ _ _ hf
    rw [← h1] at hc
    obtain ⟨q, hq, rfl⟩ := List.mem_map.1 hc
    rw [h2 q hq] at ha
    cases ha

/-! ## The hypotheses can be met -/

/-- A chain of three layers. -/
def demoChain : KModel demoLang where
  layers := [⟨0, none, [], []⟩, ⟨1, some (some (some 1)), [(0, 0)], [3]⟩,
    ⟨2, some none, [(1, 0)], [5]⟩, ⟨3, some none, [(2, 0)], [2]⟩]
  outputs := [(3, 0)]

example : ∃ r, clone demoChain = .ok r ∧ runClone (fun _ => []) r (7 : ℕ) = (210 : ℕ) ∧
    Value demoChain (7 : ℕ) 3 0 (210 : ℕ) := by
  have hm : Sequence demoChain ⟨0, none, [], []⟩ [⟨1, some (some (some 1)), [(0, 0)], [3]⟩,
      ⟨2, some none, [(1, 0)], [5]⟩, ⟨3, some none, [(2, 0)], [2]⟩] :=
    ⟨rfl, rfl, rfl, ⟨rfl, rfl, rfl, rfl, rfl, rfl, trivial⟩, by simp [demoChain], rfl⟩
  have hf : Faithful demoLang [⟨1, some (some (some 1)), [(0, 0)], [3]⟩,
      ⟨2, some none, [(1, 0)], [5]⟩, ⟨3, some none, [(2, 0)], [2]⟩] := by
    refine ⟨?_, fun _ _ _ _ => rfl, fun c h => by simp [demoLang] at h⟩
    intro l hl c _ n hn
    have : n = 1 := by simpa [demoLang] using hn.symm
    subst this
    simp only [List.mem_cons, List.not_mem_nil, or_false] at hl
    rcases hl with rfl | rfl | rfl <;> rfl
  obtain ⟨r, hr⟩ := clone_succeeds demoChain _ _ hm hf (fun _ _ _ _ => rfl)
    (fun c hc => by cases hc; exact ⟨1, rfl⟩) (by simp [demoChain, KModel.weights])
  have hrun : runClone (fun _ => []) r (7 : ℕ) = (210 : ℕ) := by
    have : r = [(some (some 1), some [3]), (none, some [5]), (none, some [2])] :=
      Except.ok.inj (hr.symm.trans rfl)
    rw [this]; rfl
  exact ⟨r, hr, hrun, (clone_correct_partial demoChain _ _ hm hf (fun _ => []) r hr (7 : ℕ) (3, 0)
    (by simp [demoChain]) (210 : ℕ)).2 hrun.symm⟩

end Verif.Keras
