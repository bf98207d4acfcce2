import Verif.Aby3.Softmax
import Verif.Aby3.NatExpLemmas
import Verif.Aby3.RecipLemmas
import Verif.Aby3.SortProps

/-!
# Both runs of softmax

What softmax computes on words, up to roundings, and that the two runs look alike to any one server.
-/

namespace Verif.Aby3

open Verif

variable {w n c : ℕ} {σ : Fin 3}

attribute [local irreducible] M.All M.Sim

theorem firstRow_add (h : 0 < n) (a b : T (.arith w (n * c))) :
    firstRow h (a + b) = firstRow h a + firstRow h b := rfl

theorem row_add (i : Fin n) (a b : T (.arith w (n * c))) : row i (a + b) = row i a + row i b := rfl

theorem spreadRows_add (a b : T (.arith w c)) : spreadRows n (a + b) = spreadRows n a + spreadRows n b := rfl

theorem colSums_add (a b : T (.arith w (n * c))) : colSums (a + b) = colSums a + colSums b := by
  funext k
  exact Finset.sum_add_distrib

/-- The words that are exponentiated. -/
def shiftV (frac : ℕ) (x : T (.arith w (n * c))) (mx : T (.arith w c)) : T (.arith w (n * c)) :=
  fun k => x k - mx (finProdFinEquiv.symm k).2 - constWord w frac (1 / 2 ^ frac)

theorem softmaxShift_alike {frac : ℕ} {x x' : T (.arith w (n * c))} {mx mx' : T (.arith w c)}
    {X X' : Shares (T (.arith w (n * c)))} {Y Y' : Shares (T (.arith w c))} (hx : Alike σ x x' X X')
    (hm : Alike σ mx mx' Y Y') :
    Alike σ (shiftV frac x mx) (shiftV frac x' mx') (softmaxShift frac X Y) (softmaxShift frac X' Y') := by
  unfold shiftV softmaxShift
  generalize constWord w frac (1 / 2 ^ frac) = q
  exact (hx.sub (hm.map (f := spreadRows n) spreadRows_add)).subPub (s := .arith w (n * c))
    (y := fun _ _ => q) (y' := fun _ _ => q) (c := fun _ => q) (fun _ => rfl) (fun _ => rfl)

/-- A possible result, from the maximum. -/
def SoftmaxVal (rev : BitVec w → BitVec w) (frac m prec : ℕ) (x : T (.arith w (n * c)))
    (mx : T (.arith w c)) (z : T (.arith w (n * c))) : Prop :=
  ∃ (ex : T (.arith w (n * c))) (r : T (.arith w c)), NatExpVal frac .neg (shiftV frac x mx) ex ∧
    (∀ k, RecipPosVal rev frac m prec (colSums ex k) (r k)) ∧
    ∀ k, TruncOk .heuristic frac (ex k * r (finProdFinEquiv.symm k).2) (z k)

theorem softmaxRun_sim {e : ℕ} {rev : BitVec (2 ^ e) → BitVec (2 ^ e)} (hrev : ∀ v, rev v = v.reverse)
    (he : 0 < e) (he7 : e ≤ 7) {frac m : ℕ} (prec : ℕ) (hd : padeDegree frac ≠ 0)
    (hw : frac + frac + 2 ≤ 2 ^ e) (hw32 : frac + 2 ^ 5 + 2 ≤ 2 ^ e) (h0 : 0 < m) (h63 : m ≤ 63)
    (hm : m ≤ 2 ^ e) (hmf : m < 2 * frac) {x x' : T (.arith (2 ^ e) (n * c))} {mx mx' : T (.arith (2 ^ e) c)}
    {X X' : Shares (T (.arith (2 ^ e) (n * c)))} {Y Y' : Shares (T (.arith (2 ^ e) c))}
    (hx : Alike σ x x' X X') (hmx : Alike σ mx mx' Y Y') :
    M.Sim σ (fun o o' => ∃ O O', o = .ok O ∧ o' = .ok O' ∧ ∃ z z', SoftmaxVal rev frac m prec x mx z ∧
      SoftmaxVal rev frac m prec x' mx' z' ∧ Alike σ z z' O O')
      (softmaxRun rev frac m prec X Y) (softmaxRun rev frac m prec X' Y') := by
  obtain ⟨plan, hp⟩ := mulPlan_ok (sx := true) (sy := true) (frac := frac) (w := 2 ^ e) fun _ => hw
  obtain ⟨F, hF, hs⟩ := natExp_sim (n := n * c) he he7 hd hw hw32 .neg
  obtain ⟨G, hG, hr⟩ := recipPos_sim (n := c) hrev prec h0 h63 hm hmf (by omega)
  unfold softmaxRun softmaxTail
  simp only [hF, hp]
  refine .bind (hs (softmaxShift_alike hx hmx)) ?_
  rintro _ _ ⟨E, E', rfl, rfl, ex, ex', h1, h1', hE⟩
  simp only [softmaxCont, hG]
  refine .bind (hr (hE.map colSums_add)) ?_
  rintro R R' ⟨r, r', h2, h2', hR⟩
  refine .bind (mulS_sim hp hE (hR.map spreadRows_add)) ?_
  rintro Z Z' ⟨z, z', h3, h3', -, hZ⟩
  exact .pure ⟨Z, Z', rfl, rfl, z, z', ⟨ex, r, h1, h2, h3⟩, ⟨ex', r', h1', h2', h3'⟩, hZ⟩

theorem reduceMaxNet_sim {e : ℕ} (he : 0 < e) (hn : 2 ≤ n) :
    ∃ F : Shares (T (.arith (2 ^ e) (n * c))) → M (Shares (T (.arith (2 ^ e) c))),
      (∀ X, reduceMaxNet n c X = .ok (F X)) ∧
      ∀ {σ : Fin 3} {x x' : T (.arith (2 ^ e) (n * c))} {X X' : Shares (T (.arith (2 ^ e) (n * c)))},
        Alike σ x x' X X' →
        M.Sim σ (Alike σ (firstRow (by omega) (sortV false n c x (le_two_mul_clog hn)))
          (firstRow (by omega) (sortV false n c x' (le_two_mul_clog hn)))) (F X) (F X') := by
  obtain ⟨F, hF, hs⟩ := sort_sim (c := c) he hn false
  refine ⟨fun X => do let y ← F X; return y.map (firstRow (by omega)), fun X => ?_, ?_⟩
  · unfold reduceMaxNet
    rw [dif_pos (by omega), hF]
  · intro σ x x' X X' hx
    exact .bind (hs hx) fun y y' hy => .pure (hy.map (firstRow_add _))

theorem softmaxNet_sim {e : ℕ} {rev : BitVec (2 ^ e) → BitVec (2 ^ e)} (hrev : ∀ v, rev v = v.reverse)
    (he : 0 < e) (he7 : e ≤ 7) (hn : 2 ≤ n) {frac m : ℕ} (prec : ℕ) (hd : padeDegree frac ≠ 0)
    (hw : frac + frac + 2 ≤ 2 ^ e) (hw32 : frac + 2 ^ 5 + 2 ≤ 2 ^ e) (h0 : 0 < m) (h63 : m ≤ 63)
    (hm : m ≤ 2 ^ e) (hmf : m < 2 * frac) :
    ∃ F : Shares (T (.arith (2 ^ e) (n * c))) → M (Except Err (Shares (T (.arith (2 ^ e) (n * c))))),
      (∀ X, softmaxNet rev frac m prec n c X = .ok (F X)) ∧
      ∀ {σ : Fin 3} {x x' : T (.arith (2 ^ e) (n * c))} {X X' : Shares (T (.arith (2 ^ e) (n * c)))},
        Alike σ x x' X X' →
        M.Sim σ (fun o o' => ∃ O O', o = .ok O ∧ o' = .ok O' ∧ ∃ z z',
          SoftmaxVal rev frac m prec x (firstRow (by omega) (sortV false n c x (le_two_mul_clog hn))) z ∧
          SoftmaxVal rev frac m prec x' (firstRow (by omega) (sortV false n c x' (le_two_mul_clog hn))) z' ∧
          Alike σ z z' O O') (F X) (F X') := by
  obtain ⟨F, hF, hs⟩ := reduceMaxNet_sim (c := c) he hn
  refine ⟨fun X => do let mx ← F X; softmaxRun rev frac m prec X mx, fun X => ?_, ?_⟩
  · unfold softmaxNet
    rw [hF]
  · intro σ x x' X X' hx
    exact .bind (hs hx) fun Y Y' hY => softmaxRun_sim hrev he he7 prec hd hw hw32 h0 h63 hm hmf hx hY

/-- The maximum of the rows, as the tree computes it. -/
def treeMax {e : ℕ} (h : 0 < n) (x : T (.arith (2 ^ e) (n * c))) : T (.arith (2 ^ e) c) :=
  vtree maxV (List.ofFn fun i : Fin n => row i x) (by rw [ne_eq, List.ofFn_eq_nil_iff]; omega)

theorem softmaxTree_sim {e : ℕ} {rev : BitVec (2 ^ e) → BitVec (2 ^ e)} (hrev : ∀ v, rev v = v.reverse)
    (he : 0 < e) (he7 : e ≤ 7) (hn : 0 < n) {frac m : ℕ} (prec : ℕ) (hd : padeDegree frac ≠ 0)
    (hw : frac + frac + 2 ≤ 2 ^ e) (hw32 : frac + 2 ^ 5 + 2 ≤ 2 ^ e) (h0 : 0 < m) (h63 : m ≤ 63)
    (hm : m ≤ 2 ^ e) (hmf : m < 2 * frac) :
    ∃ F : Shares (T (.arith (2 ^ e) (n * c))) → M (Except Err (Shares (T (.arith (2 ^ e) (n * c))))),
      (∀ X, softmaxTree rev frac m prec n c X = .ok (F X)) ∧
      ∀ {σ : Fin 3} {x x' : T (.arith (2 ^ e) (n * c))} {X X' : Shares (T (.arith (2 ^ e) (n * c)))},
        Alike σ x x' X X' →
        M.Sim σ (fun o o' => ∃ O O', o = .ok O ∧ o' = .ok O' ∧ ∃ z z',
          SoftmaxVal rev frac m prec x (treeMax hn x) z ∧
          SoftmaxVal rev frac m prec x' (treeMax hn x') z' ∧ Alike σ z z' O O') (F X) (F X') := by
  refine ⟨fun X => do
      let mx ← reduceMaxTree (List.ofFn fun i : Fin n => X.map (row i)) (by
        rw [ne_eq, List.ofFn_eq_nil_iff]; omega)
      softmaxRun rev frac m prec X mx, fun X => ?_, ?_⟩
  · unfold softmaxTree
    rw [dif_pos hn]
  · intro σ x x' X X' hx
    refine .bind ?_ fun Y Y' hY => softmaxRun_sim hrev he he7 prec hd hw hw32 h0 h63 hm hmf hx hY
    have h := reduceMaxTree_sim (σ := σ) he
      (List.ofFn fun i : Fin n => (row i x, row i x', X.map (row i), X'.map (row i)))
      (fun t ht => by
        rw [List.mem_ofFn] at ht
        obtain ⟨i, rfl⟩ := ht
        exact hx.map (row_add i)) (by rw [ne_eq, List.ofFn_eq_nil_iff]; omega)
    simp only [List.map_ofFn, Function.comp_def] at h
    exact h

end Verif.Aby3
