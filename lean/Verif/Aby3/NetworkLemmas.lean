import Verif.Aby3.NetworkSpec
import Verif.Aby3.AverageProps
import Verif.Aby3.CompareProps
import Verif.Aby3.ExpLemmas
import Verif.Aby3.Number
import Mathlib.Algebra.Order.BigOperators.Group.List

/-! # Lemmas for networks -/

namespace Verif.Aby3

open Verif

variable {w p k l m q n : ℕ} {σ : Fin 3}

attribute [local irreducible] M.All M.Sim

/-! ## Both runs -/

theorem sum_map_add {α : Type} {w : ℕ} (f g : α → BitVec w) (L : List α) :
    (L.map fun a => f a + g a).sum = (L.map f).sum + (L.map g).sum := by
  induction L with
  | nil => simp
  | cons a L ih =>
    simp only [List.map_cons, List.sum_cons, ih]
    ring

theorem linT_left (taps : Fin m → List (Fin k × Fin q)) (a b : T (.arith w (p * k)))
    (v : T (.arith w q)) : linT p taps (a + b) v = linT p taps a v + linT p taps b v := by
  funext i
  show _ = linT p taps a v i + linT p taps b v i
  unfold linT
  rw [← sum_map_add]
  refine congrArg List.sum (List.map_congr_left fun ts _ => ?_)
  exact add_mul _ _ _

theorem linT_right (taps : Fin m → List (Fin k × Fin q)) (a b : T (.arith w q))
    (x : T (.arith w (p * k))) : linT p taps x (a + b) = linT p taps x a + linT p taps x b := by
  funext i
  show _ = linT p taps x a i + linT p taps x b i
  unfold linT
  rw [← sum_map_add]
  refine congrArg List.sum (List.map_congr_left fun ts _ => ?_)
  exact mul_add _ _ _

theorem linS_sim {frac : ℕ} {plan : Option (BitVec w × BitVec w)}
    (hp : mulPlan w frac true true = .ok plan) (taps : Fin m → List (Fin k × Fin q))
    {c c' : T (.arith w (p * k))} {x x' : Shares (T (.arith w (p * k)))} (hx : Alike σ c c' x x')
    {d d' : T (.arith w q)} {v v' : Secrets w q} (hv : Alike σ d d' v v') :
    M.Sim σ (Rounded σ (mulRounding frac true true) (linT p taps c d) (linT p taps c' d'))
      (linS frac plan taps x v) (linS frac plan taps x' v') :=
  M.Sim.bind (bilin_sim (zs := .arith w (p * m)) (f := linT p taps) (bc := spreadA id)
    (fun a b c => linT_left taps a b c) (fun a b c => linT_right taps a b c) (fun _ _ => rfl)
    (fun v => ⟨v, rfl⟩) hx hv) fun _ _ hz => mulRound_sim hp hz

theorem biasS_sim (r : Fin k → Fin q) {c c' : T (.arith w (p * k))}
    {x x' : Shares (T (.arith w (p * k)))} (hx : Alike σ c c' x x')
    {d d' : T (.arith w q)} {v v' : Secrets w q} (hv : Alike σ d d' v v') :
    Alike σ (c + biasT p r d) (c' + biasT p r d') (biasS r x v) (biasS r x' v') :=
  hx.add (hv.map (f := biasT p r) fun _ _ => rfl)

/-- What `relu` does to a word. -/
def reluWord (x : BitVec w) : BitVec w := if (0 - x).msb then x else 0

theorem reluS_sim {e : ℕ} (he : 0 < e) {c c' : T (.arith (2 ^ e) n)}
    {x x' : Shares (T (.arith (2 ^ e) n))} (hx : Alike σ c c' x x') :
    M.Sim σ (Alike (s := .arith (2 ^ e) n) σ (fun i => reluWord (c i)) (fun i => reluWord (c' i)))
      (reluS x) (reluS x') := by
  have hz : IsPub (0 : T (.arith (2 ^ e) n)) (fun _ => (0 : T (.arith (2 ^ e) n))) := fun _ => rfl
  have h0 : BRel σ (0 : T (.arith (2 ^ e) n)) 0 (.pub fun _ => 0) (.pub fun _ => 0) := .pub hz hz
  have hs : Alike σ (0 - c) (0 - c') (pubSub (fun _ => (0 : T (.arith (2 ^ e) n))) x)
      (pubSub (fun _ => (0 : T (.arith (2 ^ e) n))) x') := by
    exact hx.pubSub hz hz
  refine M.Sim.bind (msb_sim he hs) fun C C' hC => ?_
  have := selectA_sim hC h0 (.priv hx)
  have e1 : ∀ c : T (.arith (2 ^ e) n), (pick id (signOf (0 - c)) (0 : T (.arith (2 ^ e) n)) c :
      T (.arith (2 ^ e) n)) = fun i => reluWord (c i) := by
    intro c
    exact pick_sign (0 - c) 0 c
  rwa [e1, e1] at this

/-- `reluS` is the model of `relu` for private tensors. -/
theorem relu_run {n : ℕ} (x : Shares (T (.arith w n))) (sc : Bool) :
    reluWithCmp ⟨.priv x, sc⟩ = .ok (do
      let c ← msb (pubSub (fun _ => (0 : T (.arith w n))) x)
      let z ← selectA c (.pub fun _ => (0 : T (.arith w n))) (.priv x)
      return (⟨.priv z, sc⟩, c)) := by
  cases sc <;> rfl

/-- The four versions of the weights: words and sharings in both runs. -/
def Arch.AlikeParams (σ : Fin 3) {k l : ℕ} : (a : Arch k l) → (θ θ' : a.Params (Words w)) →
    (v v' : a.Params (Secrets w)) → Prop
  | .nil, _, _, _, _ => True
  | .lin _ rest, θ, θ', v, v' => Alike σ θ.1 θ'.1 v.1 v'.1 ∧ rest.AlikeParams σ θ.2 θ'.2 v.2 v'.2
  | .bias _ rest, θ, θ', v, v' => Alike σ θ.1 θ'.1 v.1 v'.1 ∧ rest.AlikeParams σ θ.2 θ'.2 v.2 v'.2
  | .relu rest, θ, θ', v, v' => rest.AlikeParams σ θ θ' v v'
  | .maxpool _ rest, θ, θ', v, v' => rest.AlikeParams σ θ θ' v v'
  | .avgpool _ _ rest, θ, θ', v, v' => rest.AlikeParams σ θ θ' v v'

/-- What `max` over the positions of the windows does to words that can be compared. -/
def MaxVal {s : ℕ} (win : Fin (s + 1) → Fin m → Option (Fin k)) (x : T (.arith w (p * k)))
    (y : T (.arith w (p * m))) : Prop :=
  ∀ i : Fin (p * m), (∀ t t', Comparable (w := w) (sliceT p (win t) x i) (sliceT p (win t') x i)) →
    (∃ t, (y i : BitVec w) = sliceT p (win t) x i) ∧
      ∀ t, (sliceT p (win t) x i : BitVec w).toInt ≤ (y i : BitVec w).toInt

/-- The results a run may have, in words. -/
def Arch.Ran (frac : ℕ) {k l : ℕ} : (a : Arch k l) → a.Params (Words w) → T (.arith w (p * k)) →
    T (.arith w (p * l)) → Prop
  | .nil, _, x, z => z = x
  | .lin taps rest, θ, x, z => ∃ y : T (.arith w _),
      (∀ i, TruncOk .heuristic frac (linT p taps x θ.1 i) (y i)) ∧ rest.Ran frac θ.2 y z
  | .bias r rest, θ, x, z => rest.Ran frac θ.2 (x + biasT p r θ.1) z
  | .relu rest, θ, x, z => rest.Ran frac θ (fun i => reluWord (x i)) z
  | .maxpool win rest, θ, x, z => ∃ y : T (.arith w _),
      MaxVal win x y ∧ rest.Ran frac θ y z
  | .avgpool c win rest, θ, x, z => ∃ plan, numPlan w frac c = .ok plan ∧ ∃ y : T (.arith w _),
      (∀ i, DivVal frac plan (sumT p win x i) (y i)) ∧ rest.Ran frac θ y z

theorem plan_lin {frac : ℕ} {taps : Fin m → List (Fin k × Fin q)} {rest : Arch m l}
    {plan : (Arch.lin taps rest).Plan w} (h : (Arch.lin taps rest).plan w frac = .ok plan) :
    mulPlan w frac true true = .ok plan.1 ∧ rest.plan w frac = .ok plan.2 := by
  unfold Arch.plan at h
  cases hm : mulPlan w frac true true with
  | error e => rw [hm] at h; cases h
  | ok p =>
    cases hr : rest.plan w frac with
    | error e => rw [hm, hr] at h; cases h
    | ok r =>
      rw [hm, hr] at h
      cases h
      exact ⟨rfl, rfl⟩

theorem plan_avg {frac : ℕ} {c : ℚ} {win : Fin m → List (Fin k)} {rest : Arch m l}
    {plan : (Arch.avgpool c win rest).Plan w} (h : (Arch.avgpool c win rest).plan w frac = .ok plan) :
    numPlan w frac c = .ok plan.1 ∧ rest.plan w frac = .ok plan.2 := by
  unfold Arch.plan at h
  cases hm : numPlan w frac c with
  | error e => rw [hm] at h; cases h
  | ok p =>
    cases hr : rest.plan w frac with
    | error e => rw [hm, hr] at h; cases h
    | ok r =>
      rw [hm, hr] at h
      cases h
      exact ⟨rfl, rfl⟩

theorem sliceT_add (win : Fin m → Option (Fin k)) (a b : T (.arith w (p * k))) :
    sliceT p win (a + b) = sliceT p win a + sliceT p win b := by
  funext i
  show _ = sliceT p win a i + sliceT p win b i
  unfold sliceT
  split
  · rfl
  · exact (add_zero (0 : BitVec w)).symm

theorem sumT_add (win : Fin m → List (Fin k)) (a b : T (.arith w (p * k))) :
    sumT p win (a + b) = sumT p win a + sumT p win b := by
  funext i
  show _ = sumT p win a i + sumT p win b i
  unfold sumT
  rw [← sum_map_add]
  rfl

theorem maxpoolS_sim {e s : ℕ} (he : 0 < e) (win : Fin (s + 1) → Fin m → Option (Fin k))
    {c c' : T (.arith (2 ^ e) (p * k))} {x x' : Shares (T (.arith (2 ^ e) (p * k)))} (hx : Alike σ c c' x x') :
    M.Sim σ (Both σ (s := .arith (2 ^ e) (p * m)) (MaxVal win c) (MaxVal win c')) (maxpoolS win x) (maxpoolS win x') := by
  let q : Fin ((s + 1) * (p * m)) → Fin (p * m) := fun i => (finProdFinEquiv.symm i).2
  let axis : Fin ((s + 1) * (p * m)) → ℕ := fun i => (finProdFinEquiv.symm i).1
  let V : T (.arith (2 ^ e) (p * k)) → List (T (.arith (2 ^ e) (p * m)) × T (.bool 1 ((s + 1) * (p * m)))) := fun c =>
    List.ofFn fun t : Fin (s + 1) => (sliceT p (win t) c, onehot axis t)
  have hV : ∀ c, V c ≠ [] := fun c => by
    show List.ofFn _ ≠ []
    rw [List.ofFn_succ]
    exact List.cons_ne_nil _ _
  have hval : ∀ c, MaxVal win c (vtree (argV q) (V c) (hV c)).1 := by
    intro c i hc
    have hmem : ∀ a ∈ V c, ∃ t, a.1 = sliceT p (win t) c := by
      intro a ha
      obtain ⟨t, rfl⟩ := (List.mem_ofFn' _ _).1 ha
      exact ⟨t, rfl⟩
    obtain ⟨l₁, r, l₂, hl, hm, -, h1, h2⟩ := vtree_arg q (V c) (hV c) i (by
      intro a ha b hb
      obtain ⟨t, ht⟩ := hmem a ha
      obtain ⟨t', ht'⟩ := hmem b hb
      rw [ht, ht']
      exact hc t t')
    obtain ⟨t, ht⟩ := hmem r (by rw [hl]; simp)
    refine ⟨⟨t, by rw [hm, ht]⟩, fun t' => ?_⟩
    have hin : (sliceT p (win t') c, onehot axis t') ∈ V c := (List.mem_ofFn' _ _).2 ⟨t', rfl⟩
    rw [hl, List.mem_append, List.mem_cons] at hin
    rw [hm]
    rcases hin with h | h | h
    · exact h1 _ h
    · rw [← h]
    · exact (h2 _ h).le
  let L := List.ofFn fun t : Fin (s + 1) => ((sliceT p (win t) c, (onehot axis t : T (.bool 1 ((s + 1) * (p * m))))),
    (sliceT p (win t) c', (onehot axis t : T (.bool 1 ((s + 1) * (p * m))))),
    (x.map (sliceT p (win t)), (Body.pub fun _ => onehot axis t : Body (.bool 1 ((s + 1) * (p * m))))),
    (x'.map (sliceT p (win t)), (Body.pub fun _ => onehot axis t : Body (.bool 1 ((s + 1) * (p * m))))))
  have h1 : L.map (·.1) = V c := by simp only [L, V, List.map_ofFn]; rfl
  have h2 : L.map (·.2.1) = V c' := by simp only [L, V, List.map_ofFn]; rfl
  have h3 : ∀ x : Shares (T (.arith (2 ^ e) (p * k))),
      (List.ofFn fun t : Fin (s + 1) => (x.map (sliceT p (win t)), (Body.pub fun _ => onehot axis t : Body (.bool 1 ((s + 1) * (p * m)))))) =
      (List.ofFn fun t : Fin (s + 1) => x.map (sliceT p (win t))).mapIdx fun k t => (t, Body.pub fun _ => onehot axis k) := by
    intro x
    refine List.ext_getElem (by simp) fun i _ _ => ?_
    simp only [List.getElem_ofFn, List.getElem_mapIdx]
  have key := tree_sim (σ := σ) (Q := fun (v v' : T (.arith (2 ^ e) (p * m)) × T (.bool 1 ((s + 1) * (p * m))))
      (a a' : Shares (T (.arith (2 ^ e) (p * m))) × Body (.bool 1 ((s + 1) * (p * m)))) =>
      Alike σ v.1 v'.1 a.1 a'.1 ∧ BRel σ v.2 v'.2 a.2 a'.2) (g := argV q) (f := argNodeB q)
    (fun _ _ _ _ _ _ _ _ h k => argNodeB_sim he q h k) _ L rfl (by
      intro t ht
      obtain ⟨j, rfl⟩ := (List.mem_ofFn' _ _).1 ht
      exact ⟨hx.map (f := sliceT p (win j)) fun _ _ => sliceT_add (win j) _ _, .pub (fun _ => rfl) (fun _ => rfl)⟩)
    (by rw [h1]; exact hV c) (by rw [h2]; exact hV c')
    (by simp only [L, List.map_ofFn]; rw [List.ofFn_succ]; exact List.cons_ne_nil _ _)
    (by simp only [L, List.map_ofFn]; rw [List.ofFn_succ]; exact List.cons_ne_nil _ _)
  have h4 := Eq.trans (show L.map (·.2.2.1) = _ by simp only [L, List.map_ofFn]; rfl) (h3 x)
  have h5 := Eq.trans (show L.map (·.2.2.2) = _ by simp only [L, List.map_ofFn]; rfl) (h3 x')
  simp only [h1, h2, h4, h5] at key
  exact M.Sim.bind key fun r r' hr => .pure ⟨_, _, hval c, hval c', hr.1⟩

theorem run_sim {e frac : ℕ} (he : 0 < e) (a : Arch k l) :
    ∀ {plan : a.Plan (2 ^ e)} (_ : a.plan (2 ^ e) frac = .ok plan)
      {θ θ' : a.Params (Words (2 ^ e))} {v v' : a.Params (Secrets (2 ^ e))}
      {c c' : T (.arith (2 ^ e) (p * k))} {x x' : Shares (T (.arith (2 ^ e) (p * k)))},
      a.AlikeParams σ θ θ' v v' → Alike σ c c' x x' →
      M.Sim σ (fun o o' => ∃ z z', a.Ran frac θ c z ∧ a.Ran frac θ' c' z' ∧ Alike σ z z' o o')
        (a.run frac plan v x) (a.run frac plan v' x') := by
  induction a with
  | nil => exact fun _ _ _ _ _ _ _ _ _ _ hx => .pure ⟨_, _, rfl, rfl, hx⟩
  | lin taps rest ih =>
    intro plan hp θ θ' v v' c c' x x' hv hx
    obtain ⟨hpl, hr⟩ := plan_lin hp
    refine M.Sim.bind (linS_sim hpl taps hx hv.1) fun y y' hy => ?_
    obtain ⟨z, z', h1, h2, -, h3⟩ := hy
    refine M.Sim.mono (ih hr hv.2 h3) fun o o' ho => ?_
    obtain ⟨u, u', g1, g2, g3⟩ := ho
    exact ⟨u, u', ⟨z, h1, g1⟩, ⟨z', h2, g2⟩, g3⟩
  | bias r rest ih =>
    intro plan hp θ θ' v v' c c' x x' hv hx
    exact ih hp hv.2 (biasS_sim r hx hv.1)
  | relu rest ih =>
    intro plan hp θ θ' v v' c c' x x' hv hx
    exact M.Sim.bind (reluS_sim he hx) fun y y' hy => ih hp hv hy
  | maxpool win rest ih =>
    intro plan hp θ θ' v v' c c' x x' hv hx
    refine M.Sim.bind (maxpoolS_sim he win hx) fun y y' hy => ?_
    obtain ⟨z, z', h1, h2, h3⟩ := hy
    refine M.Sim.mono (ih hp hv h3) fun o o' ho => ?_
    obtain ⟨u, u', g1, g2, g3⟩ := ho
    exact ⟨u, u', ⟨z, h1, g1⟩, ⟨z', h2, g2⟩, g3⟩
  | avgpool sc win rest ih =>
    intro plan hp θ θ' v v' c c' x x' hv hx
    obtain ⟨hpl, hr⟩ := plan_avg hp
    refine M.Sim.bind (numRun_sim hpl (hx.map (f := sumT _ win) fun _ _ => sumT_add win _ _)) fun y y' hy => ?_
    obtain ⟨z, z', h1, h2, h3⟩ := hy
    refine M.Sim.mono (ih hr hv h3) fun o o' ho => ?_
    obtain ⟨u, u', g1, g2, g3⟩ := ho
    exact ⟨u, u', ⟨_, hpl, z, h1, g1⟩, ⟨_, hpl, z', h2, g2⟩, g3⟩

theorem shareParams_sim (σ : Fin 3) (a : Arch k l) (θ θ' : a.Params (Words w)) :
    M.Sim σ (a.AlikeParams σ θ θ') (a.shareParams θ) (a.shareParams θ') := by
  induction a with
  | nil => exact .pure trivial
  | lin taps rest ih =>
    exact M.Sim.bind (share_sim θ.1 θ'.1 σ) fun x x' hx =>
      M.Sim.bind (ih θ.2 θ'.2) fun y y' hy => .pure ⟨hx, hy⟩
  | bias r rest ih =>
    exact M.Sim.bind (share_sim θ.1 θ'.1 σ) fun x x' hx =>
      M.Sim.bind (ih θ.2 θ'.2) fun y y' hy => .pure ⟨hx, hy⟩
  | relu rest ih => exact ih θ θ'
  | maxpool win rest ih => exact ih θ θ'
  | avgpool c win rest ih => exact ih θ θ'

theorem numPlan_ok {frac : ℕ} (h : frac + frac + 2 ≤ w) {c : ℚ} (hc : ∀ a : ℕ, c * 2 ^ a = 1 → frac + a + 2 ≤ w) :
    ∃ plan, numPlan w frac c = .ok plan := by
  unfold numPlan
  split
  · exact ⟨_, rfl⟩
  · exact ⟨_, rfl⟩
  · rename_i a hl
    have := hc (a + 1) (by
      rw [log2?_eq hl, zpow_negSucc]
      exact inv_mul_cancel₀ (by positivity))
    rw [heurPlan_ok this]
    exact ⟨_, rfl⟩
  · obtain ⟨pl, hpl⟩ := mulPlan_ok (w := w) (frac := frac) (sx := true) (sy := true) (fun _ => h)
    rw [hpl]
    exact ⟨_, rfl⟩

theorem plan_ok {frac : ℕ} (h : frac + frac + 2 ≤ w) (a : Arch k l) (ha : a.Averages w frac) :
    ∃ plan, a.plan w frac = .ok plan := by
  induction a with
  | nil => exact ⟨_, rfl⟩
  | lin _ _ ih =>
    obtain ⟨r, hr⟩ := ih ha
    obtain ⟨pl, hpl⟩ := mulPlan_ok (w := w) (frac := frac) (sx := true) (sy := true) (fun _ => h)
    exact ⟨(pl, r), by unfold Arch.plan; rw [hpl, hr]⟩
  | bias _ _ ih => exact ih ha
  | relu _ ih => exact ih ha
  | maxpool _ _ ih => exact ih ha
  | avgpool c _ _ ih =>
    obtain ⟨r, hr⟩ := ih ha.2
    obtain ⟨pl, hpl⟩ := numPlan_ok h ha.1
    exact ⟨(pl, r), by unfold Arch.plan; rw [hpl, hr]⟩

theorem numPlan_error {frac : ℕ} {c : ℚ} {er : Err} (h : numPlan w frac c = .error er) : er = .valueError := by
  have hh : ∀ b a e', heurPlan w b a = .error e' → e' = Err.valueError := by
    intro b a e' h
    unfold heurPlan at h
    split at h <;> cases h
    rfl
  unfold numPlan at h
  split at h
  · cases h
  · cases h
  · split at h
    · rename_i hp
      cases h
      exact hh _ _ _ hp
    · cases h
  · split at h
    · rename_i hp
      cases h
      unfold mulPlan at hp
      simp only [Bool.and_self, if_true] at hp
      split at hp
      · rename_i hq
        cases hp
        exact hh _ _ _ hq
      · cases hp
    · cases h

theorem plan_raises {frac : ℕ} (hf : w < frac + frac + 2) (a : Arch k l) (hd : a.linear) :
    a.plan w frac = .error .valueError := by
  induction a with
  | nil => cases hd
  | lin _ _ _ =>
    have : mulPlan w frac true true = .error .valueError := by simp [mulPlan, heurPlan, not_le.2 hf]
    unfold Arch.plan
    rw [this]
  | bias _ _ ih => exact ih hd
  | relu _ ih => exact ih hd
  | maxpool _ _ ih => exact ih hd
  | avgpool c _ _ ih =>
    unfold Arch.plan
    cases hc : numPlan w frac c with
    | error er =>
      rw [numPlan_error hc]
    | ok pl =>
      rw [ih hd]

/-! ## Rounding errors -/

/-- A sum of products of approximations. -/
theorem taps_close {frac : ℕ} {δ : ℚ} {X : Fin k → BitVec w} {V : Fin q → BitVec w}
    {x E : Fin k → ℚ} {v : Fin q → ℚ} (hx : ∀ t, Close frac (X t) (x t) (E t))
    (hv : ∀ s, Close frac (V s) (v s) δ) (L : List (Fin k × Fin q)) :
    ∃ S : ℤ, (L.map fun ts => X ts.1 * V ts.2).sum = BitVec.ofInt w S ∧
      |(S : ℚ) / (2 ^ frac * 2 ^ frac) - (L.map fun ts => x ts.1 * v ts.2).sum| ≤
        (L.map fun ts => E ts.1 * (|v ts.2| + δ) + |x ts.1| * δ).sum := by
  induction L with
  | nil => exact ⟨0, by simp, by simp⟩
  | cons ts L ih =>
    obtain ⟨S, e, hS⟩ := ih
    have hE := (hx ts.1).nonneg
    have hδ := (hv ts.2).nonneg
    obtain ⟨U, eU, hU⟩ := hx ts.1
    obtain ⟨W, eW, hW⟩ := hv ts.2
    have hN : (0 : ℚ) < 2 ^ frac := by positivity
    refine ⟨U * W + S, ?_, ?_⟩
    · simp only [List.map_cons, List.sum_cons]
      rw [e, eU, eW, Bits.ofInt_add, Bits.ofInt_mul]
    · simp only [List.map_cons, List.sum_cons]
      generalize (L.map fun ts => x ts.1 * v ts.2).sum = s at *
      generalize (L.map fun ts => E ts.1 * (|v ts.2| + δ) + |x ts.1| * δ).sum = t at *
      generalize x ts.1 = a at *
      generalize v ts.2 = b at *
      generalize E ts.1 = ε at *
      generalize (2 : ℚ) ^ frac = N at *
      have e1 : ((U * W + S : ℤ) : ℚ) / (N * N) - (a * b + s) =
          ((U : ℚ) / N - a) * ((W : ℚ) / N) + a * ((W : ℚ) / N - b) + ((S : ℚ) / (N * N) - s) := by
        push_cast
        field_simp
        ring
      rw [e1]
      have hWa : |(W : ℚ) / N| ≤ |b| + δ := by
        have := abs_sub_abs_le_abs_sub ((W : ℚ) / N) b
        linarith
      have h1 : |((U : ℚ) / N - a) * ((W : ℚ) / N)| ≤ ε * (|b| + δ) := by
        rw [abs_mul]
        exact mul_le_mul hU hWa (abs_nonneg _) hE
      have h2 : |a * ((W : ℚ) / N - b)| ≤ |a| * δ := by
        rw [abs_mul]
        exact mul_le_mul_of_nonneg_left hW (abs_nonneg _)
      exact (abs_add_le _ _).trans (add_le_add ((abs_add_le _ _).trans (add_le_add h1 h2)) hS)

/-- A truncated sum of products. -/
theorem round_close {frac : ℕ} (hw : 2 ≤ w) {y z : BitVec w} {S : ℤ} {Q ε : ℚ}
    (e : y = BitVec.ofInt w S) (hS : |(S : ℚ) / (2 ^ frac * 2 ^ frac) - Q| ≤ ε)
    (hr : (|Q| + ε) * (2 ^ frac * 2 ^ frac) < 2 ^ (w - 2)) (hz : TruncOk .heuristic frac y z) :
    Close frac z Q (ε + 1 / 2 ^ frac) := by
  have hN : (0 : ℚ) < 2 ^ frac := by positivity
  have hSa : |(S : ℚ)| < 2 ^ (w - 2) := by
    have h1 : |(S : ℚ) / (2 ^ frac * 2 ^ frac)| ≤ |Q| + ε := by
      have := abs_sub_abs_le_abs_sub ((S : ℚ) / (2 ^ frac * 2 ^ frac)) Q
      linarith
    rw [abs_div, abs_of_pos (mul_pos hN hN), div_le_iff₀ (mul_pos hN hN)] at h1
    linarith
  rw [abs_lt] at hSa
  have h0 : -2 ^ (w - 2) ≤ S := by exact_mod_cast hSa.1.le
  have h1 : S < 2 ^ (w - 2) := by exact_mod_cast hSa.2
  have hpow : (2 : ℤ) ^ (w - 1) = 2 * 2 ^ (w - 2) := by
    rw [show w - 1 = (w - 2) + 1 by omega, pow_succ]; ring
  have hp : (0 : ℤ) < 2 ^ (w - 2) := by positivity
  have et : y.toInt = S := by rw [e, Bits.toInt_ofInt (by omega) (by omega) (by omega)]
  have hz := hz (by rw [et]; exact h0) (by rw [et]; exact h1)
  rw [et] at hz
  have f0 : ((S / 2 ^ frac : ℤ) : ℚ) ≤ (S : ℚ) / 2 ^ frac := by
    rw [le_div_iff₀ hN]
    have := Int.ediv_mul_le S (b := 2 ^ frac) (by positivity)
    exact_mod_cast this
  have f1 : (S : ℚ) / 2 ^ frac < ((S / 2 ^ frac : ℤ) : ℚ) + 1 := by
    rw [div_lt_iff₀ hN]
    have := Int.lt_ediv_add_one_mul_self S (b := 2 ^ frac) (by positivity)
    exact_mod_cast this
  obtain ⟨Z, ez, hZ⟩ : ∃ Z : ℤ, z = BitVec.ofInt w Z ∧ |(Z : ℚ) - (S : ℚ) / 2 ^ frac| ≤ 1 := by
    rcases hz with h | h
    · exact ⟨_, h, by rw [abs_le]; constructor <;> linarith⟩
    · refine ⟨_, h, ?_⟩
      rw [Int.cast_add, Int.cast_one, abs_le]
      constructor <;> linarith
  refine ⟨Z, ez, ?_⟩
  have e1 : (Z : ℚ) / 2 ^ frac - Q =
      ((S : ℚ) / (2 ^ frac * 2 ^ frac) - Q) + ((Z : ℚ) - (S : ℚ) / 2 ^ frac) / 2 ^ frac := by
    field_simp
    ring
  rw [e1]
  refine (abs_add_le _ _).trans (add_le_add hS ?_)
  rw [abs_div, abs_of_pos hN]
  exact div_le_div_of_nonneg_right hZ hN.le

theorem reluWord_value (hw : 0 < w) {x : BitVec w} (hm : x.toInt ≠ -2 ^ (w - 1)) :
    (reluWord x).toInt = max 0 x.toInt := by
  have hr := Bits.toInt_range x
  unfold reluWord
  have hm' : (0 - x).msb = decide (0 < x.toInt) := by
    have e : (0 - x).toInt = - x.toInt := by
      have : 0 - x = BitVec.ofInt w (- x.toInt) := by
        rw [show (- x.toInt) = 0 - x.toInt by ring, Bits.ofInt_sub, BitVec.ofInt_toInt]
        simp
      rw [this, Bits.toInt_ofInt hw (by omega) (by omega)]
    rw [BitVec.msb_eq_toInt, e]
    by_cases h : 0 < x.toInt
    · simp [h]
    · simp [h]
  rw [hm']
  by_cases h : 0 < x.toInt
  · rw [if_pos (by simpa using h)]
    omega
  · rw [if_neg (by simpa using h)]
    rw [show (0 : BitVec w).toInt = 0 from BitVec.toInt_zero]
    omega

theorem relu_close {frac : ℕ} (hw : 0 < w) {z : BitVec w} {Q ε : ℚ} (h : Close frac z Q ε)
    (hr : (|Q| + ε) * 2 ^ frac < 2 ^ (w - 1)) : Close frac (reluWord z) (max 0 Q) ε := by
  have hN : (0 : ℚ) < 2 ^ frac := by positivity
  have hv := h.value hw hr
  have hm : z.toInt ≠ -2 ^ (w - 1) := by
    intro e
    have h1 : |(z.toInt : ℚ) / 2 ^ frac| ≤ |Q| + ε := by
      have := abs_sub_abs_le_abs_sub ((z.toInt : ℚ) / 2 ^ frac) Q
      linarith
    rw [abs_div, abs_of_pos hN, div_le_iff₀ hN, e] at h1
    push_cast at h1
    rw [abs_neg, abs_of_pos (by positivity)] at h1
    linarith
  refine ⟨max 0 z.toInt, by rw [← reluWord_value hw hm, BitVec.ofInt_toInt], ?_⟩
  have e1 : ((max 0 z.toInt : ℤ) : ℚ) / 2 ^ frac = max 0 ((z.toInt : ℚ) / 2 ^ frac) := by
    rw [Int.cast_max, Int.cast_zero]
    rcases le_total (0 : ℚ) (z.toInt : ℚ) with h | h
    · rw [max_eq_right h, max_eq_right (div_nonneg h hN.le)]
    · rw [max_eq_left h, max_eq_left (div_nonpos_of_nonpos_of_nonneg h hN.le), zero_div]
  rw [e1]
  refine le_trans ?_ hv
  have := abs_max_sub_max_le_max (0 : ℚ) ((z.toInt : ℚ) / 2 ^ frac) 0 Q
  simpa using this

/-- The weights of the model are within `δ` of the numbers. -/
def Arch.CloseParams (frac : ℕ) (δ : ℚ) {k l : ℕ} :
    (a : Arch k l) → a.Params (Words w) → a.Params Numbers → Prop
  | .nil, _, _ => True
  | .lin _ rest, V, v => (∀ s, Close frac (V.1 s) (v.1 s) δ) ∧ rest.CloseParams frac δ V.2 v.2
  | .bias _ rest, V, v => (∀ s, Close frac (V.1 s) (v.1 s) δ) ∧ rest.CloseParams frac δ V.2 v.2
  | .relu rest, V, v => rest.CloseParams frac δ V v
  | .maxpool _ rest, V, v => rest.CloseParams frac δ V v
  | .avgpool _ _ rest, V, v => rest.CloseParams frac δ V v

theorem le_largest {s : ℕ} (f : Fin (s + 1) → ℚ) (t : Fin (s + 1)) : f t ≤ largest f :=
  Finset.le_sup' f (Finset.mem_univ t)

theorem largest_eq {s : ℕ} (f : Fin (s + 1) → ℚ) : ∃ t, largest f = f t := by
  obtain ⟨t, -, h⟩ := Finset.exists_mem_eq_sup' Finset.univ_nonempty f
  exact ⟨t, h⟩

theorem slice_close {frac : ℕ} (win : Fin m → Option (Fin k)) {X : T (.arith w (p * k))} {i : Fin p}
    {x E : Fin k → ℚ} (hX : ∀ t, Close frac (X (finProdFinEquiv (i, t))) (x t) (E t)) (j : Fin m) :
    Close (w := w) frac (sliceT p win X (finProdFinEquiv (i, j))) (padded x (win j)) (padded E (win j)) := by
  unfold sliceT
  rw [Equiv.symm_apply_apply]
  cases win j with
  | some t => exact hX t
  | none => exact ⟨0, by simp, by simp [padded]⟩

/-- The maximum of values that are close to numbers. -/
theorem max_close {frac s : ℕ} (hw : 2 ≤ w) {y : BitVec w} {X : Fin (s + 1) → BitVec w} {x E : Fin (s + 1) → ℚ}
    (hX : ∀ t, Close frac (X t) (x t) (E t)) (hr : ∀ t, (|x t| + E t) * 2 ^ frac < 2 ^ (w - 2))
    (hy : (∀ t t', Comparable (X t) (X t')) → (∃ t, y = X t) ∧ ∀ t, (X t).toInt ≤ y.toInt) :
    Close frac y (largest x) (largest E) := by
  have hN : (0 : ℚ) < 2 ^ frac := by positivity
  have hpow : (2 : ℚ) ^ (w - 1) = 2 * 2 ^ (w - 2) := by
    rw [show w - 1 = (w - 2) + 1 by omega, pow_succ]; ring
  have hpowZ : (2 : ℤ) ^ (w - 1) = 2 * 2 ^ (w - 2) := by
    rw [show w - 1 = (w - 2) + 1 by omega, pow_succ]; ring
  have hp : (0 : ℚ) < 2 ^ (w - 2) := by positivity
  have hv : ∀ t, |((X t).toInt : ℚ) / 2 ^ frac - x t| ≤ E t := fun t =>
    (hX t).value (by omega) (by have := hr t; linarith)
  have hb : ∀ t, -2 ^ (w - 2) < (X t).toInt ∧ (X t).toInt < 2 ^ (w - 2) := by
    intro t
    have h1 : |((X t).toInt : ℚ) / 2 ^ frac| ≤ |x t| + E t := by
      have := abs_sub_abs_le_abs_sub (((X t).toInt : ℚ) / 2 ^ frac) (x t)
      linarith [hv t]
    rw [abs_div, abs_of_pos hN, div_le_iff₀ hN] at h1
    have h2 := abs_lt.1 (lt_of_le_of_lt h1 (hr t))
    exact ⟨by exact_mod_cast h2.1, by exact_mod_cast h2.2⟩
  obtain ⟨⟨t₀, rfl⟩, hm⟩ := hy fun t t' => by
    have := hb t
    have := hb t'
    constructor <;> omega
  refine ⟨_, BitVec.ofInt_toInt.symm, ?_⟩
  obtain ⟨t₁, h1⟩ := largest_eq x
  have a0 := abs_le.1 (hv t₀)
  have a1 := abs_le.1 (hv t₁)
  have e0 := le_largest E t₀
  have e1 := le_largest E t₁
  have x0 := le_largest x t₀
  have m1 : ((X t₁).toInt : ℚ) / 2 ^ frac ≤ ((X t₀).toInt : ℚ) / 2 ^ frac :=
    div_le_div_of_nonneg_right (by exact_mod_cast hm t₁) hN.le
  rw [abs_le]
  constructor
  · linarith [a1.1, a1.2]
  · linarith [a0.1, a0.2]

theorem sum_close {frac : ℕ} {X : Fin k → BitVec w} {x E : Fin k → ℚ} (hX : ∀ t, Close frac (X t) (x t) (E t))
    (L : List (Fin k)) : Close frac (L.map X).sum (L.map x).sum (L.map E).sum := by
  induction L with
  | nil => exact ⟨0, by simp, by simp⟩
  | cons t L ih =>
    simp only [List.map_cons, List.sum_cons]
    exact (hX t).add ih

theorem ran_close {frac : ℕ} {δ : ℚ} (hw : 2 ≤ w) (a : Arch k l) :
    ∀ {V : a.Params (Words w)} {v : a.Params Numbers} {X : T (.arith w (p * k))}
      {Z : T (.arith w (p * l))} {x E : Fin p → Fin k → ℚ},
      a.CloseParams frac δ V v →
      (∀ i t, Close frac (X (finProdFinEquiv (i, t))) (x i t) (E i t)) →
      (∀ i, a.Fits w frac δ v (x i) (E i)) → a.Ran frac V X Z →
      ∀ i j, |(real frac (Z (finProdFinEquiv (i, j)))) - a.plain v (x i) j| ≤
        a.err (1 / 2 ^ frac) δ v (x i) (E i) j := by
  induction a with
  | nil =>
    rintro V v X Z x E - hX hf rfl i j
    exact (hX i j).value (by omega) (hf i j)
  | @lin k m q l taps rest ih =>
    rintro V v X Z x E hV hX hf ⟨y, hy, hr⟩ i j
    refine ih hV.2 ?_ (fun i => (hf i).2) hr i j
    intro i j
    obtain ⟨S, e, hS⟩ := taps_close (X := fun t => X (finProdFinEquiv (i, t))) (hX i) hV.1 (taps j)
    refine round_close hw (y := linT p taps X V.1 (finProdFinEquiv (i, j))) ?_ hS ((hf i).1 j) (hy _)
    rw [← e]
    unfold linT
    rw [Equiv.symm_apply_apply]
  | bias r rest ih =>
    intro V v X Z x E hV hX hf hr i j
    refine ih hV.2 ?_ hf hr i j
    intro i j
    have := (hX i j).add (hV.1 (r j))
    refine cast ?_ this
    congr 1
    show _ = X _ + biasT p r V.1 _
    unfold biasT
    rw [Equiv.symm_apply_apply]
  | relu rest ih =>
    intro V v X Z x E hV hX hf hr i j
    exact ih hV (fun i j => relu_close (by omega) (hX i j) ((hf i).1 j)) (fun i => (hf i).2) hr i j
  | maxpool win rest ih =>
    rintro V v X Z x E hV hX hf ⟨y, hy, hr⟩ i j
    refine ih hV (fun i j => ?_) (fun i => (hf i).2) hr i j
    exact max_close hw (fun t => slice_close (win t) (hX i) j) ((hf i).1 j) (hy (finProdFinEquiv (i, j)))
  | avgpool c win rest ih =>
    rintro V v X Z x E hV hX hf ⟨plan, hp, y, hy, hr⟩ i j
    refine ih hV (fun i j => ?_) (fun i => (hf i).2) hr i j
    have hz := hy (finProdFinEquiv (i, j))
    unfold sumT at hz
    rw [Equiv.symm_apply_apply] at hz
    refine (num_close hw hp hz (sum_close (hX i) (win j)) (hf i).1.1 ((hf i).1.2 j)).mono (le_of_eq ?_)
    unfold avgErr
    rw [div_eq_mul_one_div]

theorem encode_close {frac : ℕ} (hw : 0 < w) (a : Arch k l) {v : a.Params Numbers}
    (h : a.Encodable w frac v) : a.CloseParams frac (1 / 2 ^ frac) (a.encode w frac v) v := by
  have hc : ∀ q : ℚ, |q| * 2 ^ frac < 2 ^ (w - 1) → Close frac (constWord w frac q) q (1 / 2 ^ frac) :=
    fun q hq => ⟨_, BitVec.ofInt_toInt.symm, (const_toward hw hq).2⟩
  induction a with
  | nil => trivial
  | lin _ _ ih => exact ⟨fun s => hc _ (h.1 s), ih h.2⟩
  | bias _ _ ih => exact ⟨fun s => hc _ (h.1 s), ih h.2⟩
  | relu _ ih => exact ih h
  | maxpool _ _ ih => exact ih h
  | avgpool _ _ _ ih => exact ih h

theorem avgErr_le {u δ κ A ε c : ℚ} (hu : 0 ≤ u) (huδ : u ≤ δ) (hε : 0 ≤ ε) {x E : Fin k → ℚ}
    (hE : ∀ t, E t ≤ ε) (L : List (Fin k)) (h1 : (|c| + δ) * L.length ≤ κ)
    (h2 : (L.map fun t => |x t|).sum ≤ A) : avgErr u c L x E ≤ κ * ε + A * δ + u := by
  have hS : (L.map E).sum ≤ L.length * ε := by
    clear h1 h2
    induction L with
    | nil => simp
    | cons t L ih =>
      simp only [List.map_cons, List.sum_cons, List.length_cons]
      push_cast
      linarith [hE t]
  have hX : |(L.map x).sum| ≤ (L.map fun t => |x t|).sum := by
    clear h1 h2 hS
    induction L with
    | nil => simp
    | cons t L ih =>
      simp only [List.map_cons, List.sum_cons]
      exact (abs_add_le _ _).trans (by linarith)
  have hl : (0 : ℚ) ≤ L.length := by positivity
  have g1 : (|c| + u) * (L.map E).sum ≤ (|c| + u) * (L.length * ε) :=
    mul_le_mul_of_nonneg_left hS (by positivity)
  have g2 : (|c| + u) * (L.length * ε) ≤ (|c| + δ) * (L.length * ε) :=
    mul_le_mul_of_nonneg_right (by linarith) (by positivity)
  have g3 : ((|c| + δ) * L.length) * ε ≤ κ * ε := mul_le_mul_of_nonneg_right h1 hε
  have g4 : |(L.map x).sum| * u ≤ |(L.map x).sum| * δ := mul_le_mul_of_nonneg_left huδ (abs_nonneg _)
  have g5 : |(L.map x).sum| * δ ≤ A * δ := mul_le_mul_of_nonneg_right (hX.trans h2) (by linarith)
  unfold avgErr
  linarith

/-- One more rounding. -/
theorem uniform_step {u δ κ A ε : ℚ} (hu : 0 ≤ u) (hδ : 0 ≤ δ) (hκ : 1 ≤ κ) (hA : 0 ≤ A) (d b : ℕ) :
    κ ^ d * (κ * ε + A * δ + u + d * (A * δ + u) + b * δ) ≤
      κ ^ (d + 1) * (ε + ((d + 1 : ℕ) : ℚ) * (A * δ + u) + b * δ) := by
  have hκ0 : 0 ≤ κ := by linarith
  have hAδ : 0 ≤ A * δ := mul_nonneg hA hδ
  rw [pow_succ, mul_assoc]
  refine mul_le_mul_of_nonneg_left ?_ (by positivity)
  have hb : (0 : ℚ) ≤ b * δ := by positivity
  have hd : (0 : ℚ) ≤ ((d + 1 : ℕ) : ℚ) * (A * δ + u) := by positivity
  have h3 : 0 ≤ (κ - 1) * (((d + 1 : ℕ) : ℚ) * (A * δ + u) + b * δ) :=
    mul_nonneg (by linarith) (by linarith)
  have e1 : κ * (ε + ((d + 1 : ℕ) : ℚ) * (A * δ + u) + b * δ) =
      κ * ε + ((d + 1 : ℕ) : ℚ) * (A * δ + u) + b * δ +
        (κ - 1) * (((d + 1 : ℕ) : ℚ) * (A * δ + u) + b * δ) := by ring
  rw [e1]
  push_cast at h3 ⊢
  linarith

theorem linErr_le {δ κ A ε : ℚ} (hδ : 0 ≤ δ) (hε : 0 ≤ ε) {v : Fin q → ℚ} {x E : Fin k → ℚ}
    (hE : ∀ t, E t ≤ ε) (L : List (Fin k × Fin q)) (h1 : (L.map fun ts => |v ts.2| + δ).sum ≤ κ)
    (h2 : (L.map fun ts => |x ts.1|).sum ≤ A) :
    (L.map fun ts => E ts.1 * (|v ts.2| + δ) + |x ts.1| * δ).sum ≤ κ * ε + A * δ := by
  have : (L.map fun ts => E ts.1 * (|v ts.2| + δ) + |x ts.1| * δ).sum ≤
      ε * (L.map fun ts => |v ts.2| + δ).sum + δ * (L.map fun ts => |x ts.1|).sum := by
    clear h1 h2
    induction L with
    | nil => simp
    | cons ts L ih =>
      simp only [List.map_cons, List.sum_cons]
      have h : E ts.1 * (|v ts.2| + δ) ≤ ε * (|v ts.2| + δ) :=
        mul_le_mul_of_nonneg_right (hE _) (add_nonneg (abs_nonneg _) hδ)
      linarith
  have g1 := mul_le_mul_of_nonneg_left h1 hε
  have g2 := mul_le_mul_of_nonneg_left h2 hδ
  linarith

/-- Every error is at most the uniform one. -/
theorem err_uniform {u δ κ A : ℚ} (hu : 0 ≤ u) (hδ : 0 ≤ δ) (huδ : u ≤ δ) (hκ : 1 ≤ κ) (hA : 0 ≤ A) (a : Arch k l) :
    ∀ {v : a.Params Numbers} {x E : Fin k → ℚ} {ε : ℚ}, a.Moderate δ κ A v x → (∀ t, E t ≤ ε) → 0 ≤ ε →
      ∀ j, a.err u δ v x E j ≤ κ ^ a.depth * (ε + a.depth * (A * δ + u) + a.biases * δ) := by
  induction a with
  | nil =>
    intro v x E ε _ hE _ j
    simpa [Arch.depth, Arch.biases, Arch.err] using hE j
  | lin taps rest ih =>
    intro v x E ε hm hE hε j
    have hκ0 : 0 ≤ κ := by linarith
    have hAδ : 0 ≤ A * δ := mul_nonneg hA hδ
    refine (ih (ε := κ * ε + A * δ + u) hm.2 (fun t => ?_) (by positivity) j).trans ?_
    · have := linErr_le hδ hε hE (taps t) (hm.1 t).1 (hm.1 t).2
      show linErr δ taps v.1 x E t + u ≤ _
      unfold linErr
      linarith
    · exact uniform_step hu hδ hκ hA rest.depth rest.biases
  | bias r rest ih =>
    intro v x E ε hm hE hε j
    refine (ih (ε := ε + δ) hm (fun t => add_le_add (hE t) le_rfl) (by linarith) j).trans (le_of_eq ?_)
    simp only [Arch.depth, Arch.biases]
    push_cast
    ring
  | relu rest ih =>
    intro v x E ε hm hE hε j
    exact ih hm hE hε j
  | maxpool win rest ih =>
    intro v x E ε hm hE hε j
    refine ih hm (fun t => ?_) hε j
    obtain ⟨t', ht'⟩ := largest_eq fun t' => padded E (win t' t)
    rw [ht']
    cases win t' t with
    | some i => exact hE i
    | none => exact hε
  | avgpool c win rest ih =>
    intro v x E ε hm hE hε j
    have hκ0 : 0 ≤ κ := by linarith
    have hAδ : 0 ≤ A * δ := mul_nonneg hA hδ
    refine (ih (ε := κ * ε + A * δ + u) hm.2 (fun t => ?_) (by positivity) j).trans
      (uniform_step hu hδ hκ hA rest.depth rest.biases)
    exact avgErr_le hu huδ hε hE (win t) (hm.1 t).1 (hm.1 t).2

end Verif.Aby3
