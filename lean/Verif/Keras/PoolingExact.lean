import Verif.Keras.PoolingLemmas
import Verif.Keras.GradLemmas

/-!
# The gradients of pooling layers: lemmas

Handing the gradient of a window back to its pixels is the transpose of reading the window.
-/

namespace Verif.Keras

open Verif.Tensor Filter

section
variable {n c h w m m' : ℕ}

/-- Row and column, in the image, of entry `q` of the window at output `(i, j)`; negative, or beyond the
image, in the padding. -/
def PoolCfg.row (cfg : PoolCfg) (h i q : ℕ) : ℤ := (i : ℤ) * cfg.s0 + (q / cfg.pw : ℕ) - frontPad h cfg.ph cfg.s0 cfg.pad

@[inherit_doc PoolCfg.row]
def PoolCfg.col (cfg : PoolCfg) (w j q : ℕ) : ℤ := (j : ℤ) * cfg.s1 + (q % cfg.pw : ℕ) - frontPad w cfg.pw cfg.s1 cfg.pad

/-- Entry `q`, in row-major order, of the zero-padded window at output `i`. -/
def PoolCfg.win (cfg : PoolCfg) (x : Fin n × Fin c × Fin h × Fin w → ℝ) (i : Fin n × Fin c × Fin m × Fin m') (q : ℕ) : ℝ :=
  extend h w (fun y u => at4 x i.1 i.2.1 y u) (cfg.row h i.2.2.1 q) (cfg.col w i.2.2.2 q)

theorem win_moves (cfg : PoolCfg) {χ : ℝ → Fin n × Fin c × Fin h × Fin w → ℝ} {u : Fin n × Fin c × Fin h × Fin w → ℝ}
    {t : ℝ} (hm : Moves χ u t) (i : Fin n × Fin c × Fin m × Fin m') (q : ℕ) :
    HasDerivAt (fun s => cfg.win (χ s) i q) (cfg.win u i q) t := by
  unfold PoolCfg.win extend at4
  split_ifs
  · dsimp only
    split_ifs
    · exact hm _
    · exact hasDerivAt_const _ _
  · exact hasDerivAt_const _ _

/-- Reading windows with weights `ω`, and handing gradients back with the same weights. -/
theorem win_adjoint (cfg : PoolCfg) (len : ℕ) (ω : Fin n × Fin c × Fin m × Fin m' → ℕ → ℝ)
    (d : Fin n × Fin c × Fin m × Fin m' → ℝ) (u : Fin n × Fin c × Fin h × Fin w → ℝ) :
    ∑ i, d i * ∑ q : Fin len, ω i q * cfg.win u i q =
      ∑ p : Fin n × Fin c × Fin h × Fin w, (∑ i : Fin m, ∑ j : Fin m', ∑ q : Fin len,
        if cfg.row h i q = (p.2.2.1 : ℕ) ∧ cfg.col w j q = (p.2.2.2 : ℕ) then
          d (p.1, p.2.1, i, j) * ω (p.1, p.2.1, i, j) q else 0) * u p := by
  let F : Fin n → Fin c → (Fin m × Fin m' × Fin len) → (Fin h × Fin w) → ℝ := fun b k p r =>
    if cfg.row h p.1 p.2.2 = (r.1 : ℕ) ∧ cfg.col w p.2.1 p.2.2 = (r.2 : ℕ) then
      d (b, k, p.1, p.2.1) * ω (b, k, p.1, p.2.1) p.2.2 * u (b, k, r.1, r.2) else 0
  trans ∑ b, ∑ k, ∑ p, ∑ r, F b k p r
  · simp only [Fintype.sum_prod_type, Finset.mul_sum]
    refine Finset.sum_congr rfl fun b _ => Finset.sum_congr rfl fun k _ => Finset.sum_congr rfl fun i _ =>
      Finset.sum_congr rfl fun j _ => Finset.sum_congr rfl fun q _ => ?_
    unfold PoolCfg.win
    rw [extend_sum]
    simp only [Finset.mul_sum]
    refine Finset.sum_congr rfl fun y _ => Finset.sum_congr rfl fun x _ => ?_
    simp only [F]
    rw [mul_ite, mul_ite, mul_zero, mul_zero, at4_fin]
    refine if_congr Iff.rfl ?_ rfl
    ring
  · trans ∑ b, ∑ k, ∑ r, ∑ p, F b k p r
    · exact Finset.sum_congr rfl fun b _ => Finset.sum_congr rfl fun k _ => Finset.sum_comm
    · simp only [Fintype.sum_prod_type, Finset.sum_mul]
      refine Finset.sum_congr rfl fun b _ => Finset.sum_congr rfl fun k _ => Finset.sum_congr rfl fun y _ =>
        Finset.sum_congr rfl fun x _ => Finset.sum_congr rfl fun i _ => Finset.sum_congr rfl fun j _ =>
        Finset.sum_congr rfl fun q _ => ?_
      simp only [F]
      rw [ite_mul, zero_mul]

end

/-- The largest of finitely many moving numbers moves with the one that is largest now, if all that are
as large move with it. -/
theorem max_moves (f : ℝ → ℕ → ℝ) (v : ℕ → ℝ) (k : ℕ) (t : ℝ)
    (hf : ∀ q, q ≤ k → HasDerivAt (fun s => f s q) (v q) t)
    (hu : ∀ q, q ≤ k → f t q = f t (lastArg (f t) k) → ∀ s, f s q = f s (lastArg (f t) k)) :
    HasDerivAt (fun s => maxUpTo (f s) k) (v (lastArg (f t) k)) t := by
  have ha := lastArg_le (f t) k
  refine (hf _ ha).congr_of_eventuallyEq ?_
  have h1 : ∀ q ∈ Finset.range (k + 1), ∀ᶠ s in nhds t, f s q ≤ f s (lastArg (f t) k) := by
    intro q hq
    rw [Finset.mem_range] at hq
    rcases (le_lastArg (f t) k q (by omega)).lt_or_eq with hlt | he
    · filter_upwards [(hf q (by omega)).continuousAt.eventually_lt (hf _ ha).continuousAt hlt] with s hs
      exact hs.le
    · exact Eventually.of_forall fun s => (hu q (by omega) he s).le
  filter_upwards [(Finset.eventually_all (Finset.range (k + 1))).2 h1] with s hs
  refine le_antisymm ?_ (le_maxUpTo (f s) k _ ha)
  obtain ⟨q, hq, e⟩ := maxUpTo_mem (f s) k
  rw [e]
  exact hs q (Finset.mem_range.2 (by omega))

/-! ## From tensors to indexed tensors -/

section
variable {n c h w m m' : ℕ}

theorem windowAt_win (cfg : PoolCfg) (x : Fin n × Fin c × Fin h × Fin w → ℝ) (x1 : Ten ℝ)
    (hx : ∀ b k y u, x1.get [b, k, y, u] = at4 x b k y u) (i : Fin n × Fin c × Fin m × Fin m') (q : ℕ) :
    windowAt cfg x1 h w i.1 i.2.1 i.2.2.1 i.2.2.2 q = cfg.win x i q := by
  unfold windowAt windowEntry PoolCfg.win PoolCfg.row PoolCfg.col
  simp only [hx]

/-- `poolBack` on gradients `d` times weights `ω`. -/
theorem poolBack_weights (cfg : PoolCfg) (H : cfg.Fits n c h w) (hs : cfg.s0 = cfg.s1)
    (hh : h ≤ covered h cfg.ph cfg.s0 cfg.pad) (hw : w ≤ covered w cfg.pw cfg.s1 cfg.pad)
    (d : Fin n × Fin c × Fin (outputs h cfg.ph cfg.s0 cfg.pad) × Fin (outputs w cfg.pw cfg.s1 cfg.pad) → ℝ)
    (ω : Fin n × Fin c × Fin (outputs h cfg.ph cfg.s0 cfg.pad) × Fin (outputs w cfg.pw cfg.s1 cfg.pad) → ℕ → ℝ)
    (t : Ten ℝ)
    (ht : t.shape = [n, c, outputs h cfg.ph cfg.s0 cfg.pad, outputs w cfg.pw cfg.s1 cfg.pad, cfg.ph * cfg.pw])
    (hg : ∀ (b : Fin n) (k : Fin c) (i : Fin (outputs h cfg.ph cfg.s0 cfg.pad)) (j : Fin (outputs w cfg.pw cfg.s1 cfg.pad))
      (q : ℕ), q < cfg.ph * cfg.pw →
      t.get [(b : ℕ), (k : ℕ), (i : ℕ), (j : ℕ), q] = d (b, k, i, j) * ω (b, k, i, j) q) :
    ∃ z : Ten ℝ, poolBack cfg n c (outputs h cfg.ph cfg.s0 cfg.pad) (outputs w cfg.pw cfg.s1 cfg.pad) h w t = some z ∧
      ∀ p : Fin n × Fin c × Fin h × Fin w, cfg.fmt.entry z p.1 p.2.1 p.2.2.1 p.2.2.2 =
        ∑ i : Fin (outputs h cfg.ph cfg.s0 cfg.pad), ∑ j : Fin (outputs w cfg.pw cfg.s1 cfg.pad), ∑ q : Fin (cfg.ph * cfg.pw),
          if cfg.row h i q = (p.2.2.1 : ℕ) ∧ cfg.col w j q = (p.2.2.2 : ℕ) then
            d (p.1, p.2.1, i, j) * ω (p.1, p.2.1, i, j) q else 0 := by
  obtain ⟨z, e1, e2, e3⟩ := poolBack_some cfg n c h w H hs hh hw t ht
  refine ⟨z, e1, ?_⟩
  intro p
  rw [e3 p.1 p.2.1 p.2.2.1 p.2.2.2 p.1.2 p.2.1.2 p.2.2.1.2 p.2.2.2.2, Finset.sum_range]
  refine Finset.sum_congr rfl fun i _ => ?_
  rw [Finset.sum_range]
  refine Finset.sum_congr rfl fun j _ => ?_
  have hq : ∀ q : Fin (cfg.ph * cfg.pw), (if cfg.row h i q = (p.2.2.1 : ℕ) ∧ cfg.col w j q = (p.2.2.2 : ℕ) then
      d (p.1, p.2.1, i, j) * ω (p.1, p.2.1, i, j) q else 0) =
      (fun q : ℕ => if cfg.row h i q = (p.2.2.1 : ℕ) ∧ cfg.col w j q = (p.2.2.2 : ℕ) then
        t.get [(p.1 : ℕ), (p.2.1 : ℕ), (i : ℕ), (j : ℕ), q] else 0) q := by
    intro q
    dsimp only
    rw [hg _ _ _ _ _ q.2]
  rw [Finset.sum_congr rfl fun q _ => hq q, ← Finset.sum_range (fun q : ℕ =>
    if cfg.row h i q = (p.2.2.1 : ℕ) ∧ cfg.col w j q = (p.2.2.2 : ℕ) then
        t.get [(p.1 : ℕ), (p.2.1 : ℕ), (i : ℕ), (j : ℕ), q] else 0), sum_mul_range]
  refine Finset.sum_congr rfl fun di _ => Finset.sum_congr rfl fun dj hdj => ?_
  rw [Finset.mem_range] at hdj
  unfold PoolCfg.row PoolCfg.col
  rw [div_block _ 0 _ _ hdj, mod_block _ _ _ hdj]

end

end Verif.Keras
