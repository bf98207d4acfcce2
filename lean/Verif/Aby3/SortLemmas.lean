import Verif.Aby3.Sort
import Verif.Aby3.CompareProps
import Verif.Core.Bitonic
import Mathlib.Algebra.BigOperators.Group.Finset.Basic

/-!
# Lemmas: the sorting network
-/

namespace Verif.Aby3

open Verif Bitonic

variable {w n : ℕ} {σ : Fin 3}

/-! ## The same network on values -/

/-- `sortBody` on values. -/
def sortBodyV {m N : ℕ} (acc : Bool) (l r : Fin m → Fin N) (x : T (.arith w N)) : T (.arith w N) :=
  scatterT (if acc then l else r) (minV (gatherT l x) (gatherT r x))
    + scatterT (if acc then r else l) (maxV (gatherT l x) (gatherT r x))

/-- `subStage` on values. -/
def subStageV (acc : Bool) (K c : ℕ) (flip : Bool) (b : ℕ) (hb : b ≤ K)
    (x : T (.arith w (2 * 2 ^ K * c))) : T (.arith w (2 * 2 ^ K * c)) :=
  sortBodyV acc
    (rows c fun i : Fin (2 ^ K) => ⟨leftIdx (2 ^ b) i, leftIdx_lt (pow_dvd_pow 2 hb) i.2⟩)
    (rows c fun i : Fin (2 ^ K) => ⟨rightIdx flip (2 ^ b) i, rightIdx_lt (pow_dvd_pow 2 hb) i.2⟩) x

/-- `subStages` on values. -/
def subStagesV (acc : Bool) (K c : ℕ) :
    (b : ℕ) → b ≤ K + 1 → T (.arith w (2 * 2 ^ K * c)) → T (.arith w (2 * 2 ^ K * c))
  | 0, _, x => x
  | b + 1, hb, x => subStagesV acc K c b (by omega) (subStageV acc K c false b (by omega) x)

/-- `stages` on values. -/
def stagesV (acc : Bool) (K c : ℕ) :
    (s : ℕ) → s ≤ K + 1 → T (.arith w (2 * 2 ^ K * c)) → T (.arith w (2 * 2 ^ K * c))
  | 0, _, x => x
  | t + 1, ht, x => subStagesV acc K c t (by omega)
      (subStageV acc K c true t (by omega) (stagesV acc K c t (by omega) x))

theorem scatterT_add {m N : ℕ} (f : Fin m → Fin N) (u v : T (.arith w m)) :
    scatterT f (u + v) = scatterT f u + scatterT f v := by
  funext j
  show scatterT f (u + v) j = scatterT f u j + scatterT f v j
  unfold scatterT
  rw [← Finset.sum_add_distrib]
  refine Finset.sum_congr rfl fun i _ => ?_
  split
  · rfl
  · exact (add_zero _).symm

attribute [local irreducible] M.All M.Sim

theorem sortBody_sim {e m N : ℕ} (he : 0 < e) (acc : Bool) (l r : Fin m → Fin N)
    {v v' : T (.arith (2 ^ e) N)} {x x' : Shares (T (.arith (2 ^ e) N))} (hx : Alike σ v v' x x') :
    M.Sim σ (Alike σ (sortBodyV acc l r v) (sortBodyV acc l r v')) (sortBody acc l r x)
      (sortBody acc l r x') := by
  refine M.Sim.bind (cmpSwapS_sim he (hx.map (f := gatherT l) fun _ _ => rfl)
    (hx.map (f := gatherT r) fun _ _ => rfl)) fun z z' hz => ?_
  cases acc
  · exact .pure ((hz.1.map (scatterT_add _)).add (hz.2.map (scatterT_add _)))
  · exact .pure ((hz.1.map (scatterT_add _)).add (hz.2.map (scatterT_add _)))

theorem subStages_sim {e K c : ℕ} (he : 0 < e) (acc : Bool) (b : ℕ) (hb : b ≤ K + 1)
    {v v' : T (.arith (2 ^ e) (2 * 2 ^ K * c))} {x x' : Shares (T (.arith (2 ^ e) (2 * 2 ^ K * c)))}
    (hx : Alike σ v v' x x') :
    M.Sim σ (Alike σ (subStagesV acc K c b hb v) (subStagesV acc K c b hb v'))
      (subStages acc K c b hb x) (subStages acc K c b hb x') := by
  induction b generalizing v v' x x' with
  | zero => exact .pure hx
  | succ b ih => exact M.Sim.bind (sortBody_sim he acc _ _ hx) fun _ _ hz => ih (by omega) hz

theorem stages_sim {e K c : ℕ} (he : 0 < e) (acc : Bool) (s : ℕ) (hs : s ≤ K + 1)
    {v v' : T (.arith (2 ^ e) (2 * 2 ^ K * c))} {x x' : Shares (T (.arith (2 ^ e) (2 * 2 ^ K * c)))}
    (hx : Alike σ v v' x x') :
    M.Sim σ (Alike σ (stagesV acc K c s hs v) (stagesV acc K c s hs v'))
      (stages acc K c s hs x) (stages acc K c s hs x') := by
  induction s with
  | zero => exact .pure hx
  | succ t ih =>
    exact M.Sim.bind (ih (by omega)) fun _ _ hy =>
      M.Sim.bind (sortBody_sim he acc _ _ hy) fun _ _ hz => subStages_sim he acc t (by omega) hz

theorem toPrivate_holds {s : Srt} (v : T s) : Holds v (toPrivate v) := by
  refine ⟨fun i => by fin_cases i <;> rfl, ?_⟩
  show v + 0 + 0 = v
  rw [add_zero, add_zero]

theorem padRows_add {N c : ℕ} (a b : T (.arith w (n * c))) (p q : T (.arith w ((N - n) * c))) :
    padRows (N := N) (a + b) (p + q) = padRows a p + padRows b q := by
  funext k
  show padRows (N := N) (a + b) (p + q) k = padRows a p k + padRows b q k
  unfold padRows
  split <;> rfl

/-! ## Columns -/

/-- Column `k` as an array of integers, with the sign turned for descending order. -/
def col {N c : ℕ} (acc : Bool) (y : T (.arith w (N * c))) (k : Fin c) (i : ℕ) : ℤ :=
  if h : i < N then (if acc then 1 else -1) * (y (finProdFinEquiv (⟨i, h⟩, k))).toInt else 0

/-- The elements of a column can be compared with each other. -/
def Cmp {N c : ℕ} (y : T (.arith w (N * c))) : Prop :=
  ∀ (k : Fin c) (i j : Fin N), Comparable (y (finProdFinEquiv (i, k))) (y (finProdFinEquiv (j, k)))

theorem col_lt {N c : ℕ} (acc : Bool) (y : T (.arith w (N * c))) (k : Fin c) {i : ℕ} (h : i < N) :
    col acc y k i = (if acc then 1 else -1) * (y (finProdFinEquiv (⟨i, h⟩, k))).toInt := by
  rw [col, dif_pos h]

theorem Cmp.of_rearr {N c : ℕ} {acc : Bool} {y z : T (.arith w (N * c))} (hy : Cmp y)
    (h : ∀ k, Rearr N (col acc y k) (col acc z k)) : Cmp z := by
  intro k i j
  obtain ⟨π, hπ⟩ := h k
  have key : ∀ i : Fin N, (z (finProdFinEquiv (i, k))).toInt
      = (y (finProdFinEquiv (π i, k))).toInt := by
    intro i
    have := hπ i
    rw [col_lt _ _ _ i.2, col_lt _ _ _ (π i).2] at this
    cases acc
    · simpa using this
    · simpa using this
  unfold Comparable
  rw [key i, key j]
  exact hy k (π i) (π j)

theorem minV_toInt {e : ℕ} {x y : T (.arith (2 ^ e) n)} {i : Fin n} (hc : Comparable (y i) (x i)) :
    (minV x y i).toInt = min (x i).toInt (y i).toInt := by
  have h := hc.msb_sub
  show BitVec.toInt (if BitVec.ofBool (y i - x i).msb = 1#1 then y i else x i) = _
  cases hm : (y i - x i).msb
  · rw [hm] at h
    have : ¬ (y i).toInt < (x i).toInt := fun c => by simpa using h.2 c
    rw [if_neg (by decide)]; omega
  · have := h.1 hm
    rw [if_pos (by decide)]; omega

theorem maxV_toInt {e : ℕ} {x y : T (.arith (2 ^ e) n)} {i : Fin n} (hc : Comparable (y i) (x i)) :
    (maxV x y i).toInt = max (x i).toInt (y i).toInt := by
  rw [maxV_eq hc]
  split <;> omega

theorem scatterT_hit {m N : ℕ} {f : Fin m → Fin N} (hf : Function.Injective f) (u : T (.arith w m))
    (i : Fin m) : scatterT f u (f i) = u i := by
  unfold scatterT
  rw [Finset.sum_eq_single i]
  · rw [if_pos rfl]
  · intro j _ hj
    rw [if_neg fun h => hj (hf h)]
  · intro h; exact absurd (Finset.mem_univ i) h

theorem scatterT_miss {m N : ℕ} {f : Fin m → Fin N} (u : T (.arith w m)) {j : Fin N}
    (h : ∀ i, f i ≠ j) : scatterT f u j = 0 := by
  unfold scatterT
  exact Finset.sum_eq_zero fun i _ => if_neg (h i)

theorem rows_mk {h N c : ℕ} (f : Fin h → Fin N) (i : Fin h) (k : Fin c) :
    rows c f (finProdFinEquiv (i, k)) = finProdFinEquiv (f i, k) := by
  unfold rows
  rw [Equiv.symm_apply_apply]

theorem rows_inj {h N c : ℕ} {f : Fin h → Fin N} (hf : Function.Injective f) :
    Function.Injective (rows c f) := by
  intro a b hab
  unfold rows at hab
  have := finProdFinEquiv.injective hab
  rw [Prod.mk.injEq] at this
  apply finProdFinEquiv.symm.injective
  exact Prod.ext (hf this.1) this.2

theorem rows_ne {h N c : ℕ} {f : Fin h → Fin N} {j : Fin N} {k : Fin c} (hf : ∀ i, f i ≠ j)
    (a : Fin (h * c)) : rows c f a ≠ finProdFinEquiv (j, k) := by
  intro hab
  unfold rows at hab
  have := finProdFinEquiv.injective hab
  rw [Prod.mk.injEq] at this
  exact hf _ this.1

theorem leftIdx_mk {b q i : ℕ} (hi : i < b) : leftIdx b (b * q + i) = 2 * b * q + i := by
  unfold leftIdx
  rw [Nat.mul_add_div (by omega), Nat.div_eq_of_lt hi, Nat.mul_add_mod, Nat.mod_eq_of_lt hi, add_zero]

theorem rightIdx_mk {flip : Bool} {b q i : ℕ} (hi : i < b) :
    rightIdx flip b (b * q + i) = 2 * b * q + b + if flip then b - 1 - i else i := by
  unfold rightIdx
  rw [Nat.mul_add_div (by omega), Nat.div_eq_of_lt hi, Nat.mul_add_mod, Nat.mod_eq_of_lt hi, add_zero]

theorem split_idx {b : ℕ} (hb : 0 < b) (i : ℕ) : ∃ q r, r < b ∧ i = b * q + r :=
  ⟨i / b, i % b, Nat.mod_lt _ hb, (Nat.div_add_mod i b).symm⟩

theorem mul_add_inj {b q q' r r' : ℕ} (hr : r < b) (hr' : r' < b) (h : b * q + r = b * q' + r') :
    q = q' ∧ r = r' := by
  have h1 := congrArg (· / b) h
  have h2 := congrArg (· % b) h
  simp only [Nat.mul_add_mod, Nat.mod_eq_of_lt hr, Nat.mod_eq_of_lt hr'] at h2
  simp only [Nat.mul_add_div (show 0 < b by omega), Nat.div_eq_of_lt hr, Nat.div_eq_of_lt hr'] at h1
  exact ⟨by omega, h2⟩

theorem leftIdx_inj {b : ℕ} (hb : 0 < b) : Function.Injective (leftIdx b) := by
  intro i j h
  obtain ⟨q, r, hr, rfl⟩ := split_idx hb i
  obtain ⟨q', r', hr', rfl⟩ := split_idx hb j
  rw [leftIdx_mk hr, leftIdx_mk hr'] at h
  obtain ⟨rfl, rfl⟩ := mul_add_inj (by omega) (by omega) h
  rfl

theorem rightIdx_inj {flip : Bool} {b : ℕ} (hb : 0 < b) : Function.Injective (rightIdx flip b) := by
  intro i j h
  obtain ⟨q, r, hr, rfl⟩ := split_idx hb i
  obtain ⟨q', r', hr', rfl⟩ := split_idx hb j
  rw [rightIdx_mk hr, rightIdx_mk hr', add_assoc, add_assoc] at h
  obtain ⟨rfl, h⟩ := mul_add_inj (by split <;> omega) (by split <;> omega) h
  cases flip <;> simp only [Bool.false_eq_true, if_false, if_true] at h
  · congr 1; omega
  · congr 1; omega

theorem left_ne_right {flip : Bool} {b i j : ℕ} (hb : 0 < b) : leftIdx b i ≠ rightIdx flip b j := by
  intro h
  obtain ⟨q, r, hr, rfl⟩ := split_idx hb i
  obtain ⟨q', r', hr', rfl⟩ := split_idx hb j
  rw [leftIdx_mk hr, rightIdx_mk hr', add_assoc] at h
  obtain ⟨_, h⟩ := mul_add_inj (by omega) (by split <;> omega) h
  omega

/-- The partner of position `j` in a sub-stage. -/
def partner (flip : Bool) (b : ℕ) : ℕ → ℕ := if flip then pflip b else phalf b

theorem pairing_partner {flip : Bool} {b N : ℕ} (hb : 0 < b) (hN : 2 * b ∣ N) :
    Pairing N (partner flip b) := by
  cases flip
  · exact pairing_half hb hN
  · exact pairing_flip hb hN

theorem partner_left {flip : Bool} {b : ℕ} (hb : 0 < b) (i : ℕ) :
    partner flip b (leftIdx b i) = rightIdx flip b i := by
  obtain ⟨q, r, hr, rfl⟩ := split_idx hb i
  rw [leftIdx_mk hr, rightIdx_mk hr]
  cases flip
  · exact phalf_lower hr
  · exact pflip_lower hr

theorem left_or_right {flip : Bool} {b h : ℕ} (hb : 0 < b) (hh : b ∣ h) {j : ℕ} (hj : j < 2 * h) :
    ∃ i < h, j = leftIdx b i ∨ j = rightIdx flip b i := by
  obtain ⟨k, rfl⟩ := hh
  have key : ∀ q r, r < b → 2 * b * q + r < 2 * (b * k) → b * q + r < b * k := by
    intro q r hr hlt
    have hq : q < k := by
      by_contra hc
      have := Nat.mul_le_mul_left (2 * b) (not_lt.1 hc)
      have e : 2 * b * k = 2 * (b * k) := by ring
      omega
    have := Nat.mul_le_mul_left b (Nat.succ_le_of_lt hq)
    have e : b * q.succ = b * q + b := by rw [Nat.succ_eq_add_one]; ring
    omega
  obtain ⟨q, r, hr, rfl | rfl⟩ := exists_block hb j
  · exact ⟨b * q + r, key q r hr hj, .inl (leftIdx_mk hr).symm⟩
  · cases flip
    · exact ⟨b * q + r, key q r hr (by omega), .inr (by rw [rightIdx_mk hr]; simp)⟩
    · refine ⟨b * q + (b - 1 - r), key q _ (by omega) (by omega), .inr ?_⟩
      rw [rightIdx_mk (by omega), if_pos rfl]; omega

theorem left_lt_right {flip : Bool} {b : ℕ} (hb : 0 < b) (i : ℕ) :
    leftIdx b i < rightIdx flip b i := by
  obtain ⟨q, r, hr, rfl⟩ := split_idx hb i
  rw [leftIdx_mk hr, rightIdx_mk hr]
  omega

/-- One sub-stage is one compare-exchange step of the network on every column. -/
theorem col_subStage {e K c : ℕ} (acc flip : Bool) (b : ℕ) (hb : b ≤ K)
    {y : T (.arith (2 ^ e) (2 * 2 ^ K * c))} (hy : Cmp y) (k : Fin c) :
    col acc (subStageV acc K c flip b hb y) k = ce (partner flip (2 ^ b)) (col acc y k) := by
  have hb0 : 0 < 2 ^ b := by positivity
  have hd : 2 ^ b ∣ 2 ^ K := pow_dvd_pow 2 hb
  have hd' : 2 * 2 ^ b ∣ 2 * 2 ^ K := Nat.mul_dvd_mul_left 2 hd
  have hp : Pairing (2 * 2 ^ K) (partner flip (2 ^ b)) := pairing_partner hb0 hd'
  funext j
  by_cases hj : j < 2 * 2 ^ K
  · obtain ⟨i, hi, hji⟩ := left_or_right (flip := flip) hb0 hd hj
    have hl := leftIdx_lt hd hi
    have hr := rightIdx_lt (flip := flip) hd hi
    have hpl := partner_left (flip := flip) hb0 i
    have hpr : partner flip (2 ^ b) (rightIdx flip (2 ^ b) i) = leftIdx (2 ^ b) i := by
      rw [← hpl, hp.inv]
    have hlr := left_lt_right (flip := flip) hb0 i
    let L : Fin (2 ^ K) → Fin (2 * 2 ^ K) :=
      fun i => ⟨leftIdx (2 ^ b) i, leftIdx_lt (pow_dvd_pow 2 hb) i.2⟩
    let R : Fin (2 ^ K) → Fin (2 * 2 ^ K) :=
      fun i => ⟨rightIdx flip (2 ^ b) i, rightIdx_lt (pow_dvd_pow 2 hb) i.2⟩
    have hL : Function.Injective L := fun a a' h => Fin.ext (leftIdx_inj hb0 (Fin.ext_iff.1 h))
    have hR : Function.Injective R := fun a a' h => Fin.ext (rightIdx_inj hb0 (Fin.ext_iff.1 h))
    have hLR : ∀ a a', L a ≠ R a' := fun a a' h => left_ne_right hb0 (Fin.ext_iff.1 h)
    let z : Fin (2 ^ K * c) := finProdFinEquiv (⟨i, hi⟩, k)
    have zl : rows c L z = finProdFinEquiv (⟨leftIdx (2 ^ b) i, hl⟩, k) := rows_mk L _ _
    have zr : rows c R z = finProdFinEquiv (⟨rightIdx flip (2 ^ b) i, hr⟩, k) := rows_mk R _ _
    let gl := gatherT (rows c L) y
    let gr := gatherT (rows c R) y
    have hgl : gl z = y (finProdFinEquiv (⟨leftIdx (2 ^ b) i, hl⟩, k)) := congrArg y zl
    have hgr : gr z = y (finProdFinEquiv (⟨rightIdx flip (2 ^ b) i, hr⟩, k)) := congrArg y zr
    have hcmp : Comparable (gr z) (gl z) := by rw [hgl, hgr]; exact hy k _ _
    have hmin := minV_toInt hcmp
    have hmax := maxV_toInt hcmp
    rw [hgl, hgr] at hmin hmax
    have el : ∀ u v : T (.arith (2 ^ e) (2 ^ K * c)),
        (scatterT (rows c L) u + scatterT (rows c R) v)
          (finProdFinEquiv (⟨leftIdx (2 ^ b) i, hl⟩, k)) = u z := by
      intro u v
      show scatterT (rows c L) u _ + scatterT (rows c R) v _ = _
      rw [scatterT_miss v (rows_ne fun a h => hLR ⟨i, hi⟩ a h.symm), ← zl, scatterT_hit (rows_inj hL)]
      exact add_zero _
    have er : ∀ u v : T (.arith (2 ^ e) (2 ^ K * c)),
        (scatterT (rows c L) u + scatterT (rows c R) v)
          (finProdFinEquiv (⟨rightIdx flip (2 ^ b) i, hr⟩, k)) = v z := by
      intro u v
      show scatterT (rows c L) u _ + scatterT (rows c R) v _ = _
      rw [scatterT_miss u (rows_ne fun a h => hLR a ⟨i, hi⟩ h), ← zr, scatterT_hit (rows_inj hR)]
      exact zero_add _
    have es : subStageV acc K c flip b hb y
        = scatterT (rows c L) (if acc then minV gl gr else maxV gl gr)
          + scatterT (rows c R) (if acc then maxV gl gr else minV gl gr) := by
      cases acc
      · exact add_comm _ _
      · rfl
    rcases hji with rfl | rfl
    · unfold ce
      rw [hpl, if_pos hlr, col_lt _ _ _ hl, col_lt _ _ _ hl, col_lt _ _ _ hr, es, el]
      cases acc
      · simp only [Bool.false_eq_true, if_false]
        rw [hmax]; omega
      · simp only [if_true]
        rw [hmin]; omega
    · unfold ce
      rw [hpr, if_neg (by omega), col_lt _ _ _ hr, col_lt _ _ _ hl, col_lt _ _ _ hr, es, er]
      cases acc
      · simp only [Bool.false_eq_true, if_false]
        rw [hmin]; omega
      · simp only [if_true]
        rw [hmax]; omega
  · have hpj : ¬ partner flip (2 ^ b) j < 2 * 2 ^ K := fun h => hj (by
      have := hp.lt _ h
      rwa [hp.inv] at this)
    unfold ce
    simp only [col, dif_neg hj, dif_neg hpj, min_self, max_self, ite_self]

theorem cmp_subStage {e K c : ℕ} (acc flip : Bool) (b : ℕ) (hb : b ≤ K)
    {y : T (.arith (2 ^ e) (2 * 2 ^ K * c))} (hy : Cmp y) : Cmp (subStageV acc K c flip b hb y) :=
  hy.of_rearr (acc := acc) fun k => by
    rw [col_subStage acc flip b hb hy]
    exact ce_rearr (pairing_partner (by positivity)
      (Nat.mul_dvd_mul_left 2 (pow_dvd_pow 2 hb))) _

theorem col_subStages {e K c : ℕ} (acc : Bool) (b : ℕ) (hb : b ≤ K + 1)
    {y : T (.arith (2 ^ e) (2 * 2 ^ K * c))} (hy : Cmp y) :
    (∀ k, col acc (subStagesV acc K c b hb y) k = clean b (col acc y k)) ∧
      Cmp (subStagesV acc K c b hb y) := by
  induction b generalizing y with
  | zero => exact ⟨fun _ => rfl, hy⟩
  | succ b ih =>
    obtain ⟨h1, h2⟩ := ih (by omega) (cmp_subStage acc false b (by omega) hy)
    refine ⟨fun k => ?_, h2⟩
    show col acc (subStagesV acc K c b _ (subStageV acc K c false b _ y)) k = _
    rw [h1 k, col_subStage acc false b (by omega) hy]
    rfl

/-- The whole network on every column. -/
theorem col_stages {e K c : ℕ} (acc : Bool) (s : ℕ) (hs : s ≤ K + 1)
    {y : T (.arith (2 ^ e) (2 * 2 ^ K * c))} (hy : Cmp y) :
    (∀ k, col acc (stagesV acc K c s hs y) k = net s (col acc y k)) ∧
      Cmp (stagesV acc K c s hs y) := by
  induction s with
  | zero => exact ⟨fun _ => rfl, hy⟩
  | succ t ih =>
    obtain ⟨h1, h2⟩ := ih (by omega)
    obtain ⟨h3, h4⟩ := col_subStages acc t (by omega) (cmp_subStage acc true t (by omega) h2)
    refine ⟨fun k => ?_, h4⟩
    show col acc (subStagesV acc K c t _ (subStageV acc K c true t _ _)) k = _
    rw [h3 k, col_subStage acc true t (by omega) h2, h1 k]
    rfl

end Verif.Aby3
