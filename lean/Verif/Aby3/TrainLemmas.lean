import Verif.Aby3.Train
import Verif.Aby3.NetworkLemmas
import Verif.Aby3.SigmoidProps

/-! # Both runs of a training step -/

namespace Verif.Aby3

open Verif

variable {w p k m a b n : ℕ} {σ : Fin 3}

attribute [local irreducible] M.All M.Sim

theorem tapT_left (taps : Fin m → List (Fin a × Fin b)) (x x' : T (.arith w a)) (y : T (.arith w b)) :
    tapT taps (x + x') y = tapT taps x y + tapT taps x' y := by
  funext i
  show _ = tapT taps x y i + tapT taps x' y i
  unfold tapT
  rw [← sum_map_add]
  refine congrArg List.sum (List.map_congr_left fun ts _ => ?_)
  exact add_mul _ _ _

theorem tapT_right (taps : Fin m → List (Fin a × Fin b)) (y y' : T (.arith w b)) (x : T (.arith w a)) :
    tapT taps x (y + y') = tapT taps x y + tapT taps x y' := by
  funext i
  show _ = tapT taps x y i + tapT taps x y' i
  unfold tapT
  rw [← sum_map_add]
  refine congrArg List.sum (List.map_congr_left fun ts _ => ?_)
  exact mul_add _ _ _

theorem tapS_sim {frac : ℕ} {plan : Option (BitVec w × BitVec w)}
    (hp : mulPlan w frac true true = .ok plan) (taps : Fin m → List (Fin a × Fin b))
    {c c' : T (.arith w a)} {x x' : Shares (T (.arith w a))} (hx : Alike σ c c' x x')
    {d d' : T (.arith w b)} {y y' : Shares (T (.arith w b))} (hy : Alike σ d d' y y') :
    M.Sim σ (Both σ (s := .arith w m) (fun z => ∀ j, TruncOk .heuristic frac (tapT taps c d j) (z j))
        (fun z => ∀ j, TruncOk .heuristic frac (tapT taps c' d' j) (z j)))
      (tapS frac plan taps x y) (tapS frac plan taps x' y') := by
  refine M.Sim.bind (bilin_sim (zs := .arith w m) (f := tapT taps) (bc := spreadA id)
    (fun a b c => tapT_left taps a b c) (fun a b c => tapT_right taps a b c) (fun _ _ => rfl)
    (fun v => ⟨v, rfl⟩) hx hy) fun _ _ hz => (mulRound_sim hp hz).mono ?_
  rintro o o' ⟨z, z', h, h', -, ho⟩
  exact ⟨z, z', h, h', ho⟩

/-- What `sigmoid` does to a tensor. -/
def SigVal {e : ℕ} (frac : ℕ) (x z : T (.arith (2 ^ e) n)) : Prop :=
  (∀ i, |real frac (x i)| ≤ 2 ^ (2 ^ e - 5 - 2 * frac)) → ∀ i,
    |((real frac (z i) : ℚ) : ℝ) - logistic (real frac (x i) : ℚ)| ≤ 0.042 + 6 * (1 / 2 ^ frac) ∧
    (14 ≤ frac → 0 ≤ real frac (z i) ∧ real frac (z i) ≤ 1)

theorem holds_unique {s : Srt} {v v' : T s} {x : Shares (T s)} (h : Holds v x) (h' : Holds v' x) : v = v' :=
  h.2.symm.trans h'.2

/-- The five-piece sigmoid of both runs. -/
theorem sigmoid_both {e : ℕ} (he : 0 < e) {frac : ℕ} (h1 : 1 ≤ frac) (hw : 2 * frac + 5 ≤ 2 ^ e) :
    ∃ F : Shares (T (.arith (2 ^ e) n)) → M (Shares (T (.arith (2 ^ e) n))),
      (∀ X, sigmoid frac X .five = .ok (F X)) ∧
      ∀ {x x' : T (.arith (2 ^ e) n)} {X X' : Shares (T (.arith (2 ^ e) n))}, Alike σ x x' X X' →
        M.Sim σ (Both σ (SigVal frac x) (SigVal frac x')) (F X) (F X') := by
  obtain ⟨F, hF, hsim⟩ := piecewise_sim (n := n) (frac := frac) (sc := true) he (fun _ => by omega)
    (fun i => constWord (2 ^ e) frac (breaks5 i)) (fun j => constWord (2 ^ e) frac (consts5 j))
    [fun j => constWord (2 ^ e) frac (slopes5 j)]
  refine ⟨F, hF, fun {x x' X X'} hx => ?_⟩
  have hall : ∀ {x : T (.arith (2 ^ e) n)} {X : Shares (T (.arith (2 ^ e) n))}, Holds x X →
      M.All (fun o => ∀ z, Holds z o → SigVal frac x z) (F X) := by
    intro x X hX
    by_cases hr : ∀ i, |real frac (x i)| ≤ 2 ^ (2 ^ e - 5 - 2 * frac)
    · obtain ⟨q, hq, ha⟩ := sigmoid_close he h1 hw hX hr
      have : q = F X := by
        have := hF X
        rw [show piecewise frac true X _ _ _ = sigmoid frac X .five from rfl, hq] at this
        exact Except.ok.inj this
      subst this
      refine M.All.mono ha ?_
      rintro o ⟨z, hz, h⟩ z' hz' - i
      rw [← holds_unique hz hz']
      exact h i
    · unfold M.All
      exact RandM.All.trivial (fun o z _ h => absurd h hr) _
  refine ((hsim (σ := σ) hx).and_all (hall hx.1) (hall hx.2.1)).mono ?_
  rintro o o' ⟨⟨f, f', -, -, ho⟩, ha, ha'⟩
  exact ⟨_, _, ha _ ho.1, ha' _ ho.2.1, ho⟩

/-- The two runs of the private variables. -/
structure AlikeReg (σ : Fin 3) (W W' V V' : T (.arith w k)) (B B' U U' : T (.arith w 1)) (s s' : LogReg w k) :
    Prop where
  kernel : Alike σ W W' s.kernel s'.kernel
  bias : Alike σ B B' s.bias s'.bias
  vKernel : Alike σ V V' s.vKernel s'.vKernel
  vBias : Alike σ U U' s.vBias s'.vBias

/-- What the plan of a training is made of. -/
structure PlanOk (frac p : ℕ) (lr mom : ℚ) (plan : TrainPlan w) : Prop where
  mul : mulPlan w frac true true = .ok plan.mul
  div : divPlan w frac true (p : ℚ) = .ok plan.div
  mom : numPlan w frac mom = .ok plan.mom
  rate : numPlan w frac lr = .ok plan.rate

theorem trainPlan_ok {frac p : ℕ} {lr mom : ℚ} {plan : TrainPlan w}
    (h : trainPlan w frac p lr mom = .ok plan) : PlanOk frac p lr mom plan := by
  unfold trainPlan at h
  split at h <;> first | (cases h; constructor <;> assumption) | cases h

/-- What `SGD` may do to a weight `W` with its `V`, given the gradient `G`: the new weight and `V`. -/
def SgdVal (frac : ℕ) (mom rate : DivPlan w) (W V G W' V' : T (.arith w n)) : Prop :=
  ∃ d g : T (.arith w n), (∀ i, DivVal frac mom (V i) (d i)) ∧ (∀ i, DivVal frac rate (G i) (g i)) ∧
    V' = d + g ∧ W' = W - V'

theorem sgd_sim {frac : ℕ} {mom lr : ℚ} {pm pr : DivPlan w} (hm : numPlan w frac mom = .ok pm)
    (hr : numPlan w frac lr = .ok pr) {W W' V V' G G' : T (.arith w n)} {w₀ w₀' v₀ v₀' g₀ g₀' : Shares (T (.arith w n))}
    (hW : Alike σ W W' w₀ w₀') (hV : Alike σ V V' v₀ v₀') (hG : Alike σ G G' g₀ g₀') :
    M.Sim σ (fun o o' => ∃ A A' B B', SgdVal frac pm pr W V G A B ∧ SgdVal frac pm pr W' V' G' A' B' ∧
      Alike σ A A' o.1 o'.1 ∧ Alike σ B B' o.2 o'.2) (sgd frac pm pr w₀ v₀ g₀) (sgd frac pm pr w₀' v₀' g₀') := by
  refine M.Sim.bind (numRun_sim hm hV) ?_
  rintro d d' ⟨D, D', hD, hD', hd⟩
  refine M.Sim.bind (numRun_sim hr hG) ?_
  rintro g g' ⟨E, E', hE, hE', hg⟩
  exact .pure ⟨_, _, _, _, ⟨D, E, hD, hE, rfl, rfl⟩, ⟨D', E', hD', hE', rfl, rfl⟩, hW.sub (hd.add hg), hd.add hg⟩

/-- What a batch may do to the words. -/
def BatchVal {e : ℕ} (frac : ℕ) (plan : TrainPlan (2 ^ e)) (D : Batch (2 ^ e) p k) (W V : T (.arith (2 ^ e) k))
    (B U : T (.arith (2 ^ e) 1)) (W' V' : T (.arith (2 ^ e) k)) (B' U' : T (.arith (2 ^ e) 1)) : Prop :=
  ∃ (z y : T (.arith (2 ^ e) p)) (g g' : T (.arith (2 ^ e) k)) (h : T (.arith (2 ^ e) 1)),
    (∀ i, TruncOk .heuristic frac (tapT (fwdTaps p k) D.1 W i) (z i)) ∧
    SigVal frac (z + spreadBias p B) y ∧
    (∀ t, TruncOk .heuristic frac (tapT (bwdTaps p k) D.1 (y - D.2) t) (g t)) ∧
    (∀ t, DivVal frac plan.div (g t) (g' t)) ∧
    (∀ t, DivVal frac plan.div (sumBatch (y - D.2) t) (h t)) ∧
    SgdVal frac plan.mom plan.rate W V g' W' V' ∧ SgdVal frac plan.mom plan.rate B U h B' U'

theorem sumBatch_add (c d : T (.arith w p)) : sumBatch (c + d) = sumBatch c + sumBatch d := by
  funext i
  exact sum_map_add (fun i => c i) (fun i => d i) _

theorem fitBatch_sim {e : ℕ} (he : 0 < e) {frac : ℕ} (h1 : 1 ≤ frac) (hw : 2 * frac + 5 ≤ 2 ^ e) {lr mom : ℚ}
    {plan : TrainPlan (2 ^ e)} (hp : PlanOk frac p lr mom plan) {D D' : Batch (2 ^ e) p k}
    {X X' : Shares (T (.arith (2 ^ e) (p * k)))} (hX : Alike σ D.1 D'.1 X X')
    {Y Y' : Shares (T (.arith (2 ^ e) p))} (hY : Alike σ D.2 D'.2 Y Y')
    {W W' V V' : T (.arith (2 ^ e) k)} {B B' U U' : T (.arith (2 ^ e) 1)} {s s' : LogReg (2 ^ e) k}
    (hs : AlikeReg σ W W' V V' B B' U U' s s') :
    M.Sim σ (fun o o' => ∃ W₁ W₁' V₁ V₁' B₁ B₁' U₁ U₁' s₁ s₁', o = .ok s₁ ∧ o' = .ok s₁' ∧
        BatchVal frac plan D W V B U W₁ V₁ B₁ U₁ ∧ BatchVal frac plan D' W' V' B' U' W₁' V₁' B₁' U₁' ∧
        AlikeReg σ W₁ W₁' V₁ V₁' B₁ B₁' U₁ U₁' s₁ s₁')
      (fitBatch frac .five plan X Y s) (fitBatch frac .five plan X' Y' s') := by
  obtain ⟨F, hF, hsig⟩ := sigmoid_both (n := p) (σ := σ) he h1 hw
  refine M.Sim.bind (tapS_sim hp.mul _ hX hs.kernel) ?_
  rintro z z' ⟨Z, Z', hZ, hZ', hz⟩
  dsimp only
  rw [hF, hF]
  dsimp only
  refine M.Sim.bind (hsig (hz.add (hs.bias.map (f := spreadBias p) fun _ _ => rfl))) ?_
  rintro y y' ⟨A, A', hA, hA', hy⟩
  have hd := hy.sub hY
  refine M.Sim.bind (tapS_sim hp.mul _ hd hs.kernel) ?_
  intro _ _ _
  refine M.Sim.bind (tapS_sim hp.mul _ hX hd) ?_
  rintro g g' ⟨G, G', hG, hG', hg⟩
  refine M.Sim.bind (divRun_sim hp.div hg) ?_
  rintro u u' ⟨P, P', hP, hP', -, hu⟩
  refine M.Sim.bind (divRun_sim hp.div (hd.map sumBatch_add)) ?_
  rintro q q' ⟨Q, Q', hQ, hQ', -, hq⟩
  refine M.Sim.bind (sgd_sim hp.mom hp.rate hs.kernel hs.vKernel hu) ?_
  rintro ⟨a, c⟩ ⟨a', c'⟩ ⟨W₁, W₁', V₁, V₁', s1, s1', ha, hc⟩
  refine M.Sim.bind (sgd_sim hp.mom hp.rate hs.bias hs.vBias hq) ?_
  rintro ⟨b, v⟩ ⟨b', v'⟩ ⟨B₁, B₁', U₁, U₁', t1, t1', hb, hv⟩
  exact .pure ⟨W₁, W₁', V₁, V₁', B₁, B₁', U₁, U₁', _, _, rfl, rfl,
    ⟨Z, A, G, P, Q, hZ, hA, hG, hP, hQ, s1, t1⟩, ⟨Z', A', G', P', Q', hZ', hA', hG', hP', hQ', s1', t1'⟩,
    ⟨ha, hb, hc, hv⟩⟩

/-- What all batches may do to the words. -/
def FitVal {e : ℕ} (frac : ℕ) (plan : TrainPlan (2 ^ e)) : List (Batch (2 ^ e) p k) → (W V : T (.arith (2 ^ e) k)) →
    (B U : T (.arith (2 ^ e) 1)) → (W' V' : T (.arith (2 ^ e) k)) → (B' U' : T (.arith (2 ^ e) 1)) → Prop
  | [], W, V, B, U, W', V', B', U' => W' = W ∧ V' = V ∧ B' = B ∧ U' = U
  | D :: Ds, W, V, B, U, W', V', B', U' => ∃ W₁ V₁ B₁ U₁, BatchVal frac plan D W V B U W₁ V₁ B₁ U₁ ∧
      FitVal frac plan Ds W₁ V₁ B₁ U₁ W' V' B' U'

theorem fitAll_sim {e : ℕ} (he : 0 < e) {frac : ℕ} (h1 : 1 ≤ frac) (hw : 2 * frac + 5 ≤ 2 ^ e) {lr mom : ℚ}
    {plan : TrainPlan (2 ^ e)} (hp : PlanOk frac p lr mom plan) {Ds Ds' : List (Batch (2 ^ e) p k)}
    (hl : Ds.length = Ds'.length)
    {W W' V V' : T (.arith (2 ^ e) k)} {B B' U U' : T (.arith (2 ^ e) 1)} {s s' : LogReg (2 ^ e) k}
    (hs : AlikeReg σ W W' V V' B B' U U' s s') :
    M.Sim σ (fun o o' => ∃ W₁ W₁' V₁ V₁' B₁ B₁' U₁ U₁' s₁ s₁', o = .ok s₁ ∧ o' = .ok s₁' ∧
        FitVal frac plan Ds W V B U W₁ V₁ B₁ U₁ ∧ FitVal frac plan Ds' W' V' B' U' W₁' V₁' B₁' U₁' ∧
        AlikeReg σ W₁ W₁' V₁ V₁' B₁ B₁' U₁ U₁' s₁ s₁')
      (fitAll frac .five plan Ds s) (fitAll frac .five plan Ds' s') := by
  induction Ds generalizing Ds' W W' V V' B B' U U' s s' with
  | nil =>
    obtain rfl : Ds' = [] := List.length_eq_zero_iff.1 hl.symm
    exact .pure ⟨_, _, _, _, _, _, _, _, _, _, rfl, rfl, ⟨rfl, rfl, rfl, rfl⟩, ⟨rfl, rfl, rfl, rfl⟩, hs⟩
  | cons D Ds ih =>
    cases Ds' with
    | nil => cases hl
    | cons D' Ds' =>
      refine M.Sim.bind (share_sim D.1 D'.1 σ) fun X X' hX => ?_
      refine M.Sim.bind (share_sim D.2 D'.2 σ) fun Y Y' hY => ?_
      refine M.Sim.bind (fitBatch_sim he h1 hw hp hX hY hs) ?_
      rintro _ _ ⟨W₁, W₁', V₁, V₁', B₁, B₁', U₁, U₁', s₁, s₁', rfl, rfl, h, h', hr⟩
      refine (ih (Nat.succ.inj hl) hr).mono ?_
      rintro o o' ⟨W₂, W₂', V₂, V₂', B₂, B₂', U₂, U₂', s₂, s₂', ho, ho', g, g', hr'⟩
      exact ⟨W₂, W₂', V₂, V₂', B₂, B₂', U₂, U₂', s₂, s₂', ho, ho', ⟨_, _, _, _, h, g⟩, ⟨_, _, _, _, h', g'⟩, hr'⟩

/-- Both runs of the whole training. -/
theorem train_sim {e : ℕ} (he : 0 < e) {frac : ℕ} (h1 : 1 ≤ frac) (hw : 2 * frac + 5 ≤ 2 ^ e) {lr mom : ℚ}
    {plan : TrainPlan (2 ^ e)} (hp : trainPlan (2 ^ e) frac p lr mom = .ok plan)
    {Ds Ds' : List (Batch (2 ^ e) p k)} (hl : Ds.length = Ds'.length)
    (W W' : T (.arith (2 ^ e) k)) (B B' : T (.arith (2 ^ e) 1)) :
    ∃ P P', train frac .five lr mom Ds W B = .ok P ∧ train frac .five lr mom Ds' W' B' = .ok P' ∧
      M.Sim σ (fun o o' => ∃ W₁ W₁' V₁ V₁' B₁ B₁' U₁ U₁' s₁ s₁', o = .ok s₁ ∧ o' = .ok s₁' ∧
        FitVal frac plan Ds W 0 B 0 W₁ V₁ B₁ U₁ ∧ FitVal frac plan Ds' W' 0 B' 0 W₁' V₁' B₁' U₁' ∧
        AlikeReg σ W₁ W₁' V₁ V₁' B₁ B₁' U₁ U₁' s₁ s₁') P P' := by
  unfold train
  rw [hp]
  refine ⟨_, _, rfl, rfl, ?_⟩
  refine M.Sim.bind (share_sim W W' σ) fun a a' ha => ?_
  refine M.Sim.bind (share_sim B B' σ) fun b b' hb => ?_
  refine M.Sim.bind (share_sim 0 0 σ) fun c c' hc => ?_
  refine M.Sim.bind (share_sim 0 0 σ) fun d d' hd => ?_
  exact fitAll_sim he h1 hw (trainPlan_ok hp) hl ⟨ha, hb, hc, hd⟩

end Verif.Aby3
