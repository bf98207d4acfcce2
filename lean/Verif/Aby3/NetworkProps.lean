import Verif.Aby3.NetworkLemmas
import Mathlib.Tactic.FinCases

/-!
# C88: private prediction with feed-forward networks

For every number of layers and samples, all weights, inputs, sharings and draws.
-/

namespace Verif.Aby3

open Verif

variable {p k l m : ℕ}

attribute [local irreducible] M.All M.Sim

/-- The linear part of a `Dense` layer is the product with its kernel. -/
theorem dense_plain (v : Fin (k * m) → ℚ) (x : Fin k → ℚ) (j : Fin m) :
    linPlain (denseTaps k m) v x j = ∑ t : Fin k, x t * v (finProdFinEquiv (t, j)) := by
  unfold linPlain denseTaps
  rw [List.map_map, ← List.ofFn_eq_map, List.sum_ofFn]
  rfl

/-- A network of `Dense` layers over the numbers. -/
theorem dense_layer (b f : Bool) (rest : Arch m l) (v : Fin (k * m) → ℚ) (x : Fin k → ℚ)
    (θ : ((fun r => if b then Arch.bias (id : Fin m → Fin m) r else r)
      (if f then .relu rest else rest)).Params Numbers) :
    (Arch.dense k m b f rest).plain (v, θ) x =
      Arch.plain _ θ fun j => ∑ t : Fin k, x t * v (finProdFinEquiv (t, j)) := by
  show Arch.plain _ θ (linPlain (denseTaps k m) v x) = _
  congr 1
  funext j
  exact dense_plain v x j

/-- **C88** (accuracy): weights and inputs are encoded, shared and run through the layers by the
servers. Nothing is raised, and whatever is drawn, the result is a sharing of numbers within
`Arch.err` of what the network computes over the rational numbers, provided that no intermediate result
leaves the range. -/
theorem predict_accuracy_partial {e frac : ℕ} (he : 0 < e) (hf : frac + frac + 2 ≤ 2 ^ e) (a : Arch k l)
    (ha : a.Averages (2 ^ e) frac) (θ : a.Params Numbers) (x : Fin p → Fin k → ℚ) (hθ : a.Encodable (2 ^ e) frac θ)
    (hx : ∀ i t, |x i t| * 2 ^ frac < 2 ^ (2 ^ e - 1))
    (hr : ∀ i, a.Fits (2 ^ e) frac (1 / 2 ^ frac) θ (x i) fun _ => 1 / 2 ^ frac) :
    ∃ prog, predict frac a (a.encode (2 ^ e) frac θ) (encodeBatch (2 ^ e) frac x) = .ok prog ∧
      M.All (fun Z => ∃ z : T (.arith (2 ^ e) (p * l)), Holds z Z ∧ ∀ i j, |real frac (z (finProdFinEquiv (i, j))) - a.plain θ (x i) j| ≤
        a.err (1 / 2 ^ frac) (1 / 2 ^ frac) θ (x i) (fun _ => 1 / 2 ^ frac) j) prog := by
  have hw : 2 ≤ 2 ^ e := by
    calc 2 = 2 ^ 1 := rfl
      _ ≤ 2 ^ e := Nat.pow_le_pow_right (by omega) he
  obtain ⟨plan, hp⟩ := plan_ok hf a ha
  refine ⟨_, by unfold predict; rw [hp], ?_⟩
  refine M.Sim.left (σ := 0) (M.Sim.bind (shareParams_sim 0 a _ (a.encode (2 ^ e) frac θ))
    fun v v' hv => M.Sim.bind (share_sim _ (encodeBatch (2 ^ e) frac x) 0) fun X X' hX =>
      M.Sim.mono (run_sim he a hp hv hX) fun _ _ h => h) ?_
  rintro Z Z' ⟨z, z', h1, -, h3⟩
  refine ⟨z, h3.1, ?_⟩
  refine ran_close hw a (encode_close (by omega) a hθ) ?_ hr h1
  intro i t
  refine ⟨_, BitVec.ofInt_toInt.symm, ?_⟩
  unfold encodeBatch
  rw [Equiv.symm_apply_apply]
  exact (const_toward (by omega) (hx i t)).2

/-- **C88** (accuracy, one bound for all layers): if the weights that go into one output sum up to at
most `κ` and the inputs that go into it to at most `A`, the error is at most
`κ ^ depth * (1 + depth * (A + 1) + biases)` units. -/
theorem predict_uniform {e frac : ℕ} (he : 0 < e) (hf : frac + frac + 2 ≤ 2 ^ e) (a : Arch k l)
    (ha : a.Averages (2 ^ e) frac) (θ : a.Params Numbers) (x : Fin p → Fin k → ℚ) (hθ : a.Encodable (2 ^ e) frac θ)
    (hx : ∀ i t, |x i t| * 2 ^ frac < 2 ^ (2 ^ e - 1))
    (hr : ∀ i, a.Fits (2 ^ e) frac (1 / 2 ^ frac) θ (x i) fun _ => 1 / 2 ^ frac)
    {κ A : ℚ} (hκ : 1 ≤ κ) (hA : 0 ≤ A) (hm : ∀ i, a.Moderate (1 / 2 ^ frac) κ A θ (x i)) :
    ∃ prog, predict frac a (a.encode (2 ^ e) frac θ) (encodeBatch (2 ^ e) frac x) = .ok prog ∧
      M.All (fun Z => ∃ z : T (.arith (2 ^ e) (p * l)), Holds z Z ∧ ∀ i j, |real frac (z (finProdFinEquiv (i, j))) - a.plain θ (x i) j| ≤
        κ ^ a.depth * (1 + a.depth * (A + 1) + a.biases) / 2 ^ frac) prog := by
  obtain ⟨prog, e1, h⟩ := predict_accuracy_partial he hf a ha θ x hθ hx hr
  refine ⟨prog, e1, M.All.mono h ?_⟩
  rintro Z ⟨z, hz, hb⟩
  refine ⟨z, hz, fun i j => (hb i j).trans ?_⟩
  have hu : (0 : ℚ) ≤ 1 / 2 ^ frac := by positivity
  refine (err_uniform hu hu le_rfl hκ hA a (ε := 1 / 2 ^ frac) (hm i) (fun _ => le_rfl) hu j).trans (le_of_eq ?_)
  ring

/-- **C88** (classification): if one class of a sample is ahead of all others by more than the sum of
the two errors, it is the class with the largest score in the private prediction. -/
theorem same_class {e frac : ℕ} (he : 0 < e) (hf : frac + frac + 2 ≤ 2 ^ e) (a : Arch k l)
    (ha : a.Averages (2 ^ e) frac) (θ : a.Params Numbers) (x : Fin p → Fin k → ℚ) (hθ : a.Encodable (2 ^ e) frac θ)
    (hx : ∀ i t, |x i t| * 2 ^ frac < 2 ^ (2 ^ e - 1))
    (hr : ∀ i, a.Fits (2 ^ e) frac (1 / 2 ^ frac) θ (x i) fun _ => 1 / 2 ^ frac)
    (c : Fin p → Fin l)
    (hc : ∀ i j, j ≠ c i → a.plain θ (x i) j +
      a.err (1 / 2 ^ frac) (1 / 2 ^ frac) θ (x i) (fun _ => 1 / 2 ^ frac) j +
      a.err (1 / 2 ^ frac) (1 / 2 ^ frac) θ (x i) (fun _ => 1 / 2 ^ frac) (c i) <
        a.plain θ (x i) (c i)) :
    ∃ prog, predict frac a (a.encode (2 ^ e) frac θ) (encodeBatch (2 ^ e) frac x) = .ok prog ∧
      M.All (fun Z => ∃ z : T (.arith (2 ^ e) (p * l)), Holds z Z ∧ ∀ i j, j ≠ c i →
        real frac (z (finProdFinEquiv (i, j))) < real frac (z (finProdFinEquiv (i, c i)))) prog := by
  obtain ⟨prog, e1, h⟩ := predict_accuracy_partial he hf a ha θ x hθ hx hr
  refine ⟨prog, e1, M.All.mono h ?_⟩
  rintro Z ⟨z, hz, hb⟩
  refine ⟨z, hz, fun i j hj => ?_⟩
  have h1 := abs_le.1 (hb i j)
  have h2 := abs_le.1 (hb i (c i))
  have h3 := hc i j hj
  linarith [h1.2, h2.1]

/-- **C88** (secrecy): what a server sees of a prediction depends only on the architecture and the size
of the batch, neither on the weights nor on the inputs. -/
theorem predict_secrecy {e frac : ℕ} (he : 0 < e) (σ : Fin 3) (a : Arch k l)
    (θ θ' : a.Params (Words (2 ^ e))) (x x' : T (.arith (2 ^ e) (p * k)))
    {prog prog' : M (Shares (T (.arith (2 ^ e) (p * l))))} (h : predict frac a θ x = .ok prog)
    (h' : predict frac a θ' x' = .ok prog') : M.view σ prog = M.view σ prog' := by
  unfold predict at h h'
  cases hp : a.plan (2 ^ e) frac with
  | error er =>
    rw [hp] at h
    cases h
  | ok plan =>
    rw [hp] at h h'
    cases h
    cases h'
    exact (M.Sim.bind (shareParams_sim σ a θ θ') fun v v' hv =>
      M.Sim.bind (share_sim x x' σ) fun X X' hX => run_sim he a hp hv hX).dist_eq

/-- **C88** (too much precision): the first product raises if twice the fractional bits and two more do
not fit into the word. -/
theorem predict_raises {w frac : ℕ} (hf : w < frac + frac + 2) (a : Arch k l) (hd : a.linear)
    (θ : a.Params (Words w)) (x : T (.arith w (p * k))) : predict frac a θ x = .error .valueError := by
  unfold predict
  rw [plan_raises hf a hd]

/-! ## Overflow -/

/-- One `Dense` layer with one input and one output. -/
def tiny : Arch 1 1 := .dense 1 1 false false .nil

/-- **C88** is false without the condition on the intermediate results: with 64 bits, 16 of them
fractional, the input `2 ^ 14`, the weight `2 ^ 18` and the exact result `2 ^ 32` can all be encoded, but
the prediction is `0`, up to one unit, whatever is drawn. -/
theorem predict_overflow_false :
    ∃ prog, predict (p := 1) (w := 2 ^ 6) 16 tiny (tiny.encode (2 ^ 6) 16 (fun _ => 2 ^ 18, ()))
        (encodeBatch (2 ^ 6) 16 fun _ _ => 2 ^ 14) = .ok prog ∧
      M.All (fun Z => ∃ z : T (.arith (2 ^ 6) (1 * 1)), Holds z Z ∧ 0 ≤ real 16 (z (finProdFinEquiv (0, 0))) ∧
        real 16 (z (finProdFinEquiv (0, 0))) ≤ 1 / 2 ^ 16) prog ∧
      tiny.plain (fun _ => 2 ^ 18, ()) (fun _ => 2 ^ 14) 0 = 2 ^ 32 ∧
      ((2 : ℚ) ^ 32) * 2 ^ 16 < 2 ^ (2 ^ 6 - 1) := by
  obtain ⟨plan, hp⟩ := plan_ok (w := 2 ^ 6) (frac := 16) (by decide) tiny trivial
  refine ⟨_, by unfold predict; rw [hp], ?_, by
    rw [show tiny.plain (fun _ => 2 ^ 18, ()) (fun _ => 2 ^ 14) 0 = linPlain (denseTaps 1 1) (fun _ => 2 ^ 18)
      (fun _ => 2 ^ 14) 0 from rfl, dense_plain]
    norm_num, by norm_num⟩
  refine M.Sim.left (σ := 0) (M.Sim.bind (shareParams_sim 0 tiny _
    (tiny.encode (2 ^ 6) 16 (fun _ => 2 ^ 18, ())))
    fun v v' hv => M.Sim.bind (share_sim _ (encodeBatch (2 ^ 6) 16 fun (_ : Fin 1) (_ : Fin 1) => 2 ^ 14) 0)
      fun X X' hX => M.Sim.mono (run_sim (by decide) tiny hp hv hX) fun _ _ h => h) ?_
  rintro Z Z' ⟨z, z', ⟨y, hy, rfl⟩, -, h3⟩
  refine ⟨_, h3.1, ?_⟩
  have h0 := hy (finProdFinEquiv (0, 0))
  have c1 : Fixed.toInt ((2 : ℚ) ^ 18 * 2 ^ 16) = 2 ^ 34 := by
    have := Fixed.toInt_intCast (2 ^ 34)
    rw [← this]
    norm_num
  have c2 : Fixed.toInt ((2 : ℚ) ^ 14 * 2 ^ 16) = 2 ^ 30 := by
    have := Fixed.toInt_intCast (2 ^ 30)
    rw [← this]
    norm_num
  have e0 : linT 1 (denseTaps 1 1) (encodeBatch (2 ^ 6) 16 fun (_ : Fin 1) (_ : Fin 1) => 2 ^ 14)
      (tiny.encode (2 ^ 6) 16 (fun _ => 2 ^ 18, ())).1 (finProdFinEquiv (0, 0)) = (0 : BitVec (2 ^ 6)) := by
    show (BitVec.ofInt (2 ^ 6) (Fixed.toInt ((2 : ℚ) ^ 14 * 2 ^ 16)) *
      BitVec.ofInt (2 ^ 6) (Fixed.toInt ((2 : ℚ) ^ 18 * 2 ^ 16)) + 0 : BitVec (2 ^ 6)) = 0
    rw [c1, c2]
    decide
  rw [e0] at h0
  have h0 := h0 (by rw [show (0 : BitVec (2 ^ 6)).toInt = 0 from BitVec.toInt_zero]; norm_num)
    (by rw [show (0 : BitVec (2 ^ 6)).toInt = 0 from BitVec.toInt_zero]; positivity)
  rw [show (0 : BitVec (2 ^ 6)).toInt = 0 from BitVec.toInt_zero] at h0
  unfold real
  rcases h0 with h | h <;> rw [h]
  · rw [show (BitVec.ofInt (2 ^ 6) (0 / 2 ^ 16)).toInt = 0 by decide]
    norm_num
  · rw [show (BitVec.ofInt (2 ^ 6) (0 / 2 ^ 16 + 1)).toInt = 1 by decide]
    norm_num

/-! ## A case that meets the hypotheses -/

/-- Two `Dense` layers, the first with `relu`. -/
def sampleNet : Arch 2 1 := .dense 2 2 true true (.dense 2 1 true false .nil)

/-- Some weights. -/
def sampleWeights : sampleNet.Params Numbers :=
  ((fun i => if i = 0 then 1 / 2 else -3 / 2), (fun _ => 1 / 3), (fun _ => 5 / 4), (fun _ => -1), ())

/-- Some inputs. -/
def sampleBatch : Fin 2 → Fin 2 → ℚ := fun i t => if i = t then 3 else -1

example : sampleNet.plain sampleWeights (sampleBatch 0) 0 = 19 / 6 := by decide +kernel

example : sampleNet.Encodable (2 ^ 6) 16 sampleWeights :=
  ⟨by decide +kernel, by decide +kernel, by decide +kernel, by decide +kernel, trivial⟩

example : ∀ i t, |sampleBatch i t| * 2 ^ 16 < 2 ^ (2 ^ 6 - 1) := by decide +kernel

example : ∀ i, sampleNet.Fits (2 ^ 6) 16 (1 / 2 ^ 16) sampleWeights (sampleBatch i) fun _ => 1 / 2 ^ 16 := by
  intro i
  fin_cases i
  · exact ⟨by decide +kernel, by decide +kernel, by decide +kernel, fun j => by revert j; decide +kernel⟩
  · exact ⟨by decide +kernel, by decide +kernel, by decide +kernel, fun j => by revert j; decide +kernel⟩

example : ∀ i, sampleNet.Moderate (1 / 2 ^ 16) 5 5 sampleWeights (sampleBatch i) := by
  intro i
  fin_cases i
  · exact ⟨by decide +kernel, by decide +kernel, trivial⟩
  · exact ⟨by decide +kernel, by decide +kernel, trivial⟩

/-- A margin that is large enough for `same_class`. -/
def classNet : Arch 1 2 := .dense 1 2 false false .nil

example : ∀ j, j ≠ (0 : Fin 2) →
    classNet.plain ((fun i => if i = 0 then 1 else -1), ()) (fun _ => 1) j +
      classNet.err (1 / 2 ^ 16) (1 / 2 ^ 16) ((fun i => if i = 0 then 1 else -1), ()) (fun _ => 1)
        (fun _ => 1 / 2 ^ 16) j +
      classNet.err (1 / 2 ^ 16) (1 / 2 ^ 16) ((fun i => if i = 0 then 1 else -1), ()) (fun _ => 1)
        (fun _ => 1 / 2 ^ 16) 0 <
      classNet.plain ((fun i => if i = 0 then 1 else -1), ()) (fun _ => 1) 0 := by
  decide +kernel

example : sampleNet.depth = 2 ∧ sampleNet.biases = 2 := by decide

end Verif.Aby3
