import Verif.Keras.OptimLemmas
import Mathlib.Algebra.BigOperators.Group.Finset.Basic
import Mathlib.Algebra.Order.Field.Basic
import Mathlib.Algebra.Order.AbsoluteValue.Basic
import Mathlib.Data.Rat.Floor
import Mathlib.Tactic.FieldSimp
import Mathlib.Tactic.NormNum

/-!
# C53, C58: the optimizers follow their recurrences through every history

The specification (`velocities`, `average`, `largest`) is written on lists of gradients of one weight
and knows nothing of layers, slots or clocks.
-/

namespace Verif.Keras

/-! ## Specification -/

/-- The velocities `V = bV + aG`, started at `v`. -/
def velocities (b a : ℚ) : ℚ → List ℚ → List ℚ
  | _, [] => []
  | v, g :: gs => (b * v + a * g) :: velocities b a (b * v + a * g) gs

/-- The decaying average `M = bM + (1-b)G`, started at 0. -/
def average (b : ℚ) (gs : List ℚ) : ℚ := gs.foldl (fun m g => b * m + (1 - b) * g) 0

/-- The decaying average of the squares. -/
def averageSq (b : ℚ) (gs : List ℚ) : ℚ := average b (gs.map fun g => g * g)

/-- The largest averages of squares up to now (AMSgrad), at least 0. -/
def largest (b : ℚ) (gs : List ℚ) : ℚ :=
  ((List.range gs.length).map fun t => averageSq b (gs.take (t + 1))).foldl max 0

/-- Exact arithmetic, with any inverse square root. -/
def exactOps (isq : ℚ → ℚ) : Ops ℚ where
  scale _ _ c x := c * x
  mul _ _ x y := x * y
  div _ _ x y := x / y
  max _ x y := Max.max x y
  invSqrt _ x := isq x
  const c := c

/-- Every multiplication by a number is within `δ` of the true product. -/
def Within (δ : ℚ) (op : Ops ℚ) : Prop := ∀ t j c x, |op.scale t j c x - c * x| ≤ δ

/-- What the operations produce for the velocities of a list of gradients, results being free. -/
inductive Recurrence {T : Type} [AddCommGroup T] (op : Ops T) (b a : ℚ) :
    List T → List T → T → Prop
  | nil : Recurrence op b a [] [] 0
  | snoc (t gs vs v g) : Recurrence op b a gs vs v →
      Recurrence op b a (gs ++ [g]) (vs ++ [op.scale t 0 b v + op.scale t 1 a g])
        (op.scale t 0 b v + op.scale t 1 a g)

/-! ## Helpers -/

theorem velocities_snoc (b a : ℚ) : ∀ (gs : List ℚ) (v g : ℚ), velocities b a v (gs ++ [g]) =
    velocities b a v gs ++ [b * (velocities b a v gs).getLastD v + a * g]
  | [], v, g => by simp [velocities]
  | x :: gs, v, g => by
      simp only [List.cons_append, velocities]
      rw [velocities_snoc b a gs]
      cases h : velocities b a (b * v + a * x) gs <;> simp [List.getLastD, h]

theorem average_snoc (b : ℚ) (gs : List ℚ) (g : ℚ) :
    average b (gs ++ [g]) = b * average b gs + (1 - b) * g := by
  simp [average]

theorem averageSq_snoc (b : ℚ) (gs : List ℚ) (g : ℚ) :
    averageSq b (gs ++ [g]) = b * averageSq b gs + (1 - b) * (g * g) := by
  simp [averageSq, average_snoc]

theorem take_snoc {α : Type} (gs : List α) (g : α) (t : ℕ) (h : t < gs.length) :
    (gs ++ [g]).take (t + 1) = gs.take (t + 1) := by
  rw [List.take_append_of_le_length h]

theorem largest_snoc (b : ℚ) (gs : List ℚ) (g : ℚ) :
    largest b (gs ++ [g]) = max (largest b gs) (averageSq b (gs ++ [g])) := by
  unfold largest
  rw [List.length_append, List.length_singleton, List.range_succ, List.map_append,
    List.foldl_append]
  simp only [List.map_cons, List.map_nil, List.foldl_cons, List.foldl_nil]
  rw [List.take_of_length_le (by simp)]
  congr 2
  apply List.map_congr_left
  intro t ht
  rw [take_snoc gs g t (List.mem_range.1 ht)]

theorem sum_snoc (f : List ℚ → ℚ) (gs : List ℚ) (g : ℚ) :
    ∑ t ∈ Finset.range (gs ++ [g]).length, f ((gs ++ [g]).take (t + 1)) =
      (∑ t ∈ Finset.range gs.length, f (gs.take (t + 1))) + f (gs ++ [g]) := by
  rw [List.length_append, List.length_singleton, Finset.sum_range_succ,
    List.take_of_length_le (by simp)]
  congr 1
  apply Finset.sum_congr rfl
  intro t ht
  rw [take_snoc gs g t (Finset.mem_range.1 ht)]

/-! ## SGD -/

section
variable {o : Opt ℚ ℚ Unit} {k i : ℕ} {w0 : ℚ} {layers : List ℕ} {h : List (ℕ × List ℚ)}

/-- **C53.** In exact arithmetic, whatever the layers and however their updates interleave: a weight
ends up at its initial value minus the sum of its velocities. -/
theorem sgd_exact (isq : ℚ → ℚ) (b a : ℚ) (hk : k ∈ layers) (hw : (o.weights k)[i]? = some w0)
    (hd : ((o.compile 0 () layers).run (fun _ p => p) (sgd (exactOps isq) b a) h).2 = .done) :
    (((o.compile 0 () layers).run (fun _ p => p) (sgd (exactOps isq) b a) h).1.weights k)[i]? =
      some (w0 - (velocities b a 0 (gradsOf h k i)).sum) := by
  obtain ⟨ss', p', w', s', _, _, h3, _, h5, _⟩ := run_inv (fun _ p => p) (sgd (exactOps isq) b a) k i
    (fun gs w s => w = w0 - (velocities b a 0 gs).sum ∧ s = (velocities b a 0 gs).getLastD 0)
    (fun _ _ => True) (fun _ _ _ _ => trivial)
    (by
      rintro gs t p w s g - ⟨rfl, rfl⟩
      rw [velocities_snoc]
      simp only [sgd, exactOps, List.sum_append, List.sum_cons, List.sum_nil, List.getLastD_concat]
      exact ⟨by ring, trivial⟩)
    h (o.compile 0 () layers) [] ((o.weights k).map fun _ => 0) () w0 0 hd
    (by simp [Opt.compile, hk]) (by simp [Opt.compile]) hw
    (by rw [List.getElem?_map, hw]; rfl) ⟨by simp [velocities], by simp [velocities]⟩ trivial
  rw [h3]
  simpa using h5.1

/-- **C53 (fixed point).** With products rounded within `δ`, each in its own way, and a momentum of
absolute value at most `β < 1`: after `n` gradients a weight is within `n · 2δ/(1-β)` of the exact
result. -/
theorem sgd_rounded (op : Ops ℚ) (δ : ℚ) (hop : Within δ op) (b a β : ℚ) (hb : |b| ≤ β) (hβ : β < 1)
    (hk : k ∈ layers) (hw : (o.weights k)[i]? = some w0)
    (hd : ((o.compile 0 () layers).run (fun _ p => p) (sgd op b a) h).2 = .done) :
    ∃ w, (((o.compile 0 () layers).run (fun _ p => p) (sgd op b a) h).1.weights k)[i]? = some w ∧
      |w - (w0 - (velocities b a 0 (gradsOf h k i)).sum)| ≤
        (gradsOf h k i).length * (2 * δ / (1 - β)) := by
  have hδ : 0 ≤ δ := le_trans (abs_nonneg _) (hop 0 0 0 0)
  have h1 : 0 < 1 - β := by linarith
  set e := 2 * δ / (1 - β) with he
  have hee : β * e + 2 * δ = e := by
    rw [he]; field_simp; ring
  have he0 : 0 ≤ e := by rw [he]; positivity
  obtain ⟨ss', p', w', s', _, _, h3, _, h5, _⟩ := run_inv (fun _ p => p) (sgd op b a) k i
    (fun gs w s => |w - (w0 - (velocities b a 0 gs).sum)| ≤ gs.length * e ∧
      |s - (velocities b a 0 gs).getLastD 0| ≤ e)
    (fun _ _ => True) (fun _ _ _ _ => trivial)
    (by
      rintro gs t p w s g - ⟨hw, hs⟩
      rw [velocities_snoc]
      simp only [sgd, List.sum_append, List.sum_cons, List.sum_nil, List.getLastD_concat,
        List.length_append, List.length_singleton, Nat.cast_add, Nat.cast_one]
      generalize (velocities b a 0 gs).sum = Z at *
      generalize (velocities b a 0 gs).getLastD 0 = v at *
      have x0 := hop t 0 b s
      have x1 := hop t 1 a g
      have x2 := hop t 2 a g
      generalize op.scale t 0 b s = d0 at *
      generalize op.scale t 1 a g = d1 at *
      generalize op.scale t 2 a g = d2 at *
      have y : |b * s - b * v| ≤ β * e := by
        rw [← mul_sub, abs_mul]
        exact mul_le_mul hb hs (abs_nonneg _) (le_trans (abs_nonneg _) hb)
      rw [abs_le] at hw hs x0 x1 x2 y
      exact ⟨abs_le.2 ⟨by nlinarith, by nlinarith⟩, abs_le.2 ⟨by nlinarith, by nlinarith⟩⟩)
    h (o.compile 0 () layers) [] ((o.weights k).map fun _ => 0) () w0 0 hd
    (by simp [Opt.compile, hk]) (by simp [Opt.compile]) hw
    (by rw [List.getElem?_map, hw]; rfl)
    ⟨by simp [velocities], by simpa [velocities] using he0⟩ trivial
  exact ⟨w', h3, by simpa using h5.1⟩
end

/-- **C53 (in the ring).** In any group (so with wrap-around too), if the two results of `lr * G` in a
step agree – the product is taken from the cache or is not randomised – then a weight is exactly its
initial value minus the velocities the optimizer computed. -/
theorem sgd_ring {T : Type} [AddCommGroup T] (op : Ops T) (hop : ∀ t c x, op.scale t 1 c x = op.scale t 2 c x)
    (b a : ℚ) (o : Opt T T Unit) (k i : ℕ) (w0 : T) (layers : List ℕ) (h : List (ℕ × List T))
    (hk : k ∈ layers) (hw : (o.weights k)[i]? = some w0)
    (hd : ((o.compile 0 () layers).run (fun _ p => p) (sgd op b a) h).2 = .done) :
    ∃ vs v, Recurrence op b a (gradsOf h k i) vs v ∧
      (((o.compile 0 () layers).run (fun _ p => p) (sgd op b a) h).1.weights k)[i]? =
        some (w0 - vs.sum) := by
  obtain ⟨ss', p', w', s', _, _, h3, _, h5, _⟩ := run_inv (fun _ p => p) (sgd op b a) k i
    (fun gs w s => ∃ vs, Recurrence op b a gs vs s ∧ w = w0 - vs.sum)
    (fun _ _ => True) (fun _ _ _ _ => trivial)
    (by
      rintro gs t p w s g - ⟨vs, hr, rfl⟩
      refine ⟨vs ++ [op.scale t 0 b s + op.scale t 1 a g], ?_, ?_⟩
      · have := Recurrence.snoc t gs vs s g hr
        simp only [sgd]
        rw [← hop]
        exact this
      · simp [sgd, sub_sub])
    h (o.compile 0 () layers) [] ((o.weights k).map fun _ => 0) () w0 0 hd
    (by simp [Opt.compile, hk]) (by simp [Opt.compile]) hw
    (by rw [List.getElem?_map, hw]; rfl) ⟨[], .nil, by simp⟩ trivial
  obtain ⟨vs, hr, rfl⟩ := h5
  exact ⟨vs, s', by simpa using hr, h3⟩

/-- Rounding that may go either way: down for the first of the two products, up for the second. -/
def eitherWay : Ops ℤ where
  scale _ j c x := if j = 2 then ⌈c * x⌉ else ⌊c * x⌋
  mul _ _ x y := x * y
  div _ _ x y := x / y
  max _ x y := Max.max x y
  invSqrt _ x := x
  const c := ⌊c⌋

/-- **C53 is not exact when products round at random**: every product is within one unit of the true
one, yet after one step the weight is not its initial value minus the velocity that is stored, since
`lr * G` is computed twice (optimizers.py:43-44). -/
theorem sgd_two_products_false :
    (∀ t j c x, |((eitherWay.scale t j c x : ℤ) : ℚ) - c * x| < 1) ∧
    ∃ (o : Opt ℤ ℤ Unit) (w v : ℤ), o.weights 0 = [5] ∧
      (o.run (fun _ p => p) (sgd eitherWay 0 (1/2)) [(0, [1])]).1.weights 0 = [w] ∧
      (o.run (fun _ p => p) (sgd eitherWay 0 (1/2)) [(0, [1])]).1.slots 0 = some ([v], ()) ∧
      w ≠ 5 - v := by
  constructor
  · intro t j c x
    simp only [eitherWay]
    split
    · rw [abs_lt]
      exact ⟨by linarith [Int.le_ceil (c * x)], by linarith [Int.ceil_lt_add_one (c * x)]⟩
    · rw [abs_lt]
      exact ⟨by linarith [Int.lt_floor_add_one (c * x)], by linarith [Int.floor_le (c * x)]⟩
  · have hf : ⌊(1 / 2 : ℚ) * ((1 : ℤ) : ℚ)⌋ = 0 := by rw [Int.floor_eq_iff]; norm_num
    have hc : ⌈(1 / 2 : ℚ) * ((1 : ℤ) : ℚ)⌉ = 1 := by rw [Int.ceil_eq_iff]; norm_num
    have hz : ⌊(0 : ℚ) * ((0 : ℤ) : ℚ)⌋ = 0 := by rw [Int.floor_eq_iff]; norm_num
    refine ⟨⟨fun _ => [5], fun _ => some ([0], ()), 0⟩, 5, 1, rfl, ?_, ?_, by norm_num⟩
    · simp only [Opt.run, Opt.apply, updateAll, sgd, eitherWay, hf, hz, Function.update_self]
      rfl
    · simp only [Opt.run, Opt.apply, updateAll, sgd, eitherWay, hf, hz, hc, Function.update_self]
      rfl

/-! ## Errors -/

section
variable {T S P : Type} (pre : ℕ → P → P) (upd : ℕ → P → T → S → T → T × S)

/-- **C53 (totality).** A compiled optimizer finishes every history whose calls name compiled layers
and bring a gradient for each weight. -/
theorem optimizer_total (o : Opt T S P) (s0 : S) (p0 : P) (layers : List ℕ) (h : List (ℕ × List T))
    (hn : ∀ k, o.slots k = none)
    (hs : ∀ c ∈ h, c.1 ∈ layers ∧ (o.weights c.1).length ≤ c.2.length) :
    ((o.compile s0 p0 layers).run pre upd h).2 = .done := by
  apply run_done
  · exact compile_matched s0 p0 o layers fun k ss p h => by rw [hn] at h; cases h
  · intro c hc
    obtain ⟨h1, h2⟩ := hs c hc
    exact ⟨by simp [Opt.compile, h1], h2⟩

/-- **C53 (errors).** A layer the optimizer was not compiled with raises and nothing changes; a layer
with too few gradients raises. -/
theorem optimizer_errors (o : Opt T S P) (k : ℕ) (g : List T) :
    (o.slots k = none → o.apply pre upd k g = (o, .unknownLayer)) ∧
    (∀ ss p, o.slots k = some (ss, p) → ss.length = (o.weights k).length →
      g.length < (o.weights k).length → (o.apply pre upd k g).2 = .missingGradient) := by
  constructor
  · intro h; simp [Opt.apply, h]
  · intro ss p h hl hg
    simp only [Opt.apply, h]
    exact updateAll_short _ _ _ _ _ hl.symm hg

/-- **C53 (layers do not interfere).** A call leaves the weights and slots of the other layers
alone. -/
theorem optimizer_frame (o : Opt T S P) (j k : ℕ) (g : List T) (h : j ≠ k) :
    (o.apply pre upd k g).1.weights j = o.weights j ∧
      (o.apply pre upd k g).1.slots j = o.slots j := by
  simp only [Opt.apply]
  split
  · exact ⟨rfl, rfl⟩
  · simp [Function.update_of_ne h]
end

/-! ## AMSgrad and Adam -/

/-- **C58 (AMSgrad).** In exact arithmetic, whatever the inverse square root: a weight ends up at its
initial value minus the sum, over its gradients, of `lr · M / sqrt(Vhat)` where M is the decaying
average of the gradients so far and Vhat the largest decaying average of their squares so far. -/
theorem amsgrad_exact (isq : ℚ → ℚ) (lr b1 b2 eps : ℚ) (o : Opt ℚ (ℚ × ℚ × ℚ) Unit) (k i : ℕ) (w0 : ℚ)
    (layers : List ℕ) (h : List (ℕ × List ℚ)) (hk : k ∈ layers) (hw : (o.weights k)[i]? = some w0)
    (hd : ((o.compile (0, 0, 0) () layers).run (fun _ p => p)
      (amsgrad (exactOps isq) lr b1 b2 eps) h).2 = .done) :
    (((o.compile (0, 0, 0) () layers).run (fun _ p => p)
      (amsgrad (exactOps isq) lr b1 b2 eps) h).1.weights k)[i]? =
      some (w0 - ∑ t ∈ Finset.range (gradsOf h k i).length,
        let gs := (gradsOf h k i).take (t + 1)
        lr * average b1 gs * isq (largest b2 gs + eps)) := by
  obtain ⟨ss', p', w', s', _, _, h3, _, h5, _⟩ := run_inv (fun _ p => p)
    (amsgrad (exactOps isq) lr b1 b2 eps) k i
    (fun gs w s => w = w0 - ∑ t ∈ Finset.range gs.length,
        (fun gs => lr * average b1 gs * isq (largest b2 gs + eps)) (gs.take (t + 1)) ∧
      s = (average b1 gs, averageSq b2 gs, largest b2 gs))
    (fun _ _ => True) (fun _ _ _ _ => trivial)
    (by
      rintro gs t p w s g - ⟨rfl, rfl⟩
      rw [sum_snoc fun gs => lr * average b1 gs * isq (largest b2 gs + eps)]
      simp only [amsgrad, exactOps]
      have e1 : b1 * average b1 gs + (1 - b1) * g = average b1 (gs ++ [g]) := (average_snoc ..).symm
      have e2 : b2 * averageSq b2 gs + (1 - b2) * g * g = averageSq b2 (gs ++ [g]) := by
        rw [averageSq_snoc]; ring
      rw [e1, e2, ← largest_snoc]
      exact ⟨by ring, rfl⟩)
    h (o.compile (0, 0, 0) () layers) [] ((o.weights k).map fun _ => (0, 0, 0)) () w0 (0, 0, 0) hd
    (by simp [Opt.compile, hk]) (by simp [Opt.compile]) hw
    (by rw [List.getElem?_map, hw]; rfl) ⟨by simp, by simp [average, averageSq, largest]⟩ trivial
  rw [h3]
  simpa using h5.1

/-- **C58 (Adam).** In exact arithmetic, whatever the inverse square root: a weight ends up at its
initial value minus the sum, over the steps `t` of its layer, of `lr · Mhat / sqrt(Vhat)` with the
averages corrected by `1 - b^t`. -/
theorem adam_exact (isq : ℚ → ℚ) (lr b1 b2 eps : ℚ) (o : Opt ℚ (ℚ × ℚ) (ℚ × ℚ)) (k i : ℕ) (w0 : ℚ)
    (layers : List ℕ) (h : List (ℕ × List ℚ)) (hk : k ∈ layers) (hw : (o.weights k)[i]? = some w0)
    (hd : ((o.compile (0, 0) (1, 1) layers).run (adamPre (exactOps isq) b1 b2)
      (adam (exactOps isq) lr b1 b2 eps) h).2 = .done) :
    (((o.compile (0, 0) (1, 1) layers).run (adamPre (exactOps isq) b1 b2)
      (adam (exactOps isq) lr b1 b2 eps) h).1.weights k)[i]? =
      some (w0 - ∑ t ∈ Finset.range (gradsOf h k i).length,
        let gs := (gradsOf h k i).take (t + 1)
        lr * (average b1 gs / (1 - b1 ^ (t + 1))) *
          isq (averageSq b2 gs / (1 - b2 ^ (t + 1)) + eps)) := by
  obtain ⟨ss', p', w', s', _, _, h3, _, h5, _⟩ := run_inv (adamPre (exactOps isq) b1 b2)
    (adam (exactOps isq) lr b1 b2 eps) k i
    (fun gs w s => w = w0 - ∑ t ∈ Finset.range gs.length,
        (fun gs => lr * (average b1 gs / (1 - b1 ^ gs.length)) *
          isq (averageSq b2 gs / (1 - b2 ^ gs.length) + eps)) (gs.take (t + 1)) ∧
      s = (average b1 gs, averageSq b2 gs))
    (fun n p => p = (b1 ^ n, b2 ^ n))
    (by
      rintro n t p rfl
      simp [adamPre, exactOps, pow_succ, mul_comm])
    (by
      rintro gs t p w s g rfl ⟨rfl, rfl⟩
      rw [sum_snoc fun gs => lr * (average b1 gs / (1 - b1 ^ gs.length)) *
          isq (averageSq b2 gs / (1 - b2 ^ gs.length) + eps)]
      simp only [adam, exactOps]
      have e1 : b1 * average b1 gs + (1 - b1) * g = average b1 (gs ++ [g]) := (average_snoc ..).symm
      have e2 : b2 * averageSq b2 gs + (1 - b2) * g * g = averageSq b2 (gs ++ [g]) := by
        rw [averageSq_snoc]; ring
      rw [e1, e2, List.length_append, List.length_singleton]
      exact ⟨by ring, rfl⟩)
    h (o.compile (0, 0) (1, 1) layers) [] ((o.weights k).map fun _ => (0, 0)) (1, 1) w0 (0, 0) hd
    (by simp [Opt.compile, hk]) (by simp [Opt.compile]) hw
    (by rw [List.getElem?_map, hw]; rfl) ⟨by simp, by simp [average, averageSq]⟩ (by simp)
  rw [h3, h5.1]
  congr 2
  apply Finset.sum_congr (by simp)
  intro t ht
  rw [Finset.mem_range] at ht
  simp only [List.nil_append]
  rw [List.length_take_of_le ht]

/-! ## The hypotheses are met -/

/-- Two layers, two weights in the first; three interleaved calls. -/
example :
    let o : Opt ℚ ℚ Unit := ⟨fun k => if k = 0 then [1, 2] else [3], fun _ => none, 0⟩
    let h : List (ℕ × List ℚ) := [(0, [1, 1]), (1, [4]), (0, [2, -1])]
    (∀ k, o.slots k = none) ∧ (∀ c ∈ h, c.1 ∈ [0, 1] ∧ (o.weights c.1).length ≤ c.2.length) ∧
      gradsOf h 0 1 = [1, -1] ∧ velocities (1/2) 1 0 [1, -1] = [1, -1/2] := by
  refine ⟨fun _ => rfl, ?_, ?_, ?_⟩
  · intro c hc
    simp only [List.mem_cons, List.not_mem_nil, or_false] at hc
    rcases hc with rfl | rfl | rfl <;> simp
  · simp [gradsOf]
  · norm_num [velocities]

/-- Rounding down to multiples of `1/1024` is within `1/1024`. -/
example : Within (1/1024) { exactOps id with scale := fun _ _ c x => ⌊c * x * 1024⌋ / 1024 } := by
  intro t j c x
  have h1 := Int.floor_le (c * x * 1024)
  have h2 := Int.lt_floor_add_one (c * x * 1024)
  rw [abs_le]
  constructor <;> simp only <;> linarith

end Verif.Keras
