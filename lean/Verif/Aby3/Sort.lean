import Verif.Aby3.Compare
import Mathlib.Data.Nat.Log
import Mathlib.Algebra.BigOperators.Fin
import Mathlib.Logic.Equiv.Fin.Basic

/-!
# ABY3 sort

`_sort_private` (aby3.py:5783-5905): a bitonic sorting network along the first axis. A tensor of
`n` rows and `c` columns is flattened row by row; element `(i, k)` is number `i * c + k`. The
transpositions that bring another axis to the front are permutations of the elements and are left
out. The loop over the sub-stages is written as a recursion; every iteration draws its own masks.
-/

namespace Verif.Aby3

open Verif

variable {w : ℕ}

/-- `left_idx` of `bitonic_index` (aby3.py:5792-5807): the even ones of the blocks of size `b`,
concatenated. -/
def leftIdx (b i : ℕ) : ℕ := 2 * b * (i / b) + i % b

/-- `right_idx`: the odd blocks, each reversed in the first sub-stage of a stage. -/
def rightIdx (flip : Bool) (b i : ℕ) : ℕ :=
  2 * b * (i / b) + b + if flip then b - 1 - i % b else i % b

theorem leftIdx_lt {b h i : ℕ} (hb : b ∣ h) (hi : i < h) : leftIdx b i < 2 * h := by
  obtain ⟨q, rfl⟩ := hb
  have hb0 : 0 < b := by
    rcases Nat.eq_zero_or_pos b with rfl | h
    · simp at hi
    · exact h
  have h1 : i / b < q := Nat.div_lt_of_lt_mul hi
  have h2 := Nat.mod_lt i hb0
  unfold leftIdx
  nlinarith [Nat.mul_le_mul_left b (Nat.succ_le_of_lt h1)]

theorem rightIdx_lt {flip : Bool} {b h i : ℕ} (hb : b ∣ h) (hi : i < h) :
    rightIdx flip b i < 2 * h := by
  obtain ⟨q, rfl⟩ := hb
  have hb0 : 0 < b := by
    rcases Nat.eq_zero_or_pos b with rfl | h
    · simp at hi
    · exact h
  have h1 : i / b < q := Nat.div_lt_of_lt_mul hi
  have h2 := Nat.mod_lt i hb0
  have h3 : (if flip then b - 1 - i % b else i % b) < b := by split <;> omega
  unfold rightIdx
  nlinarith [Nat.mul_le_mul_left b (Nat.succ_le_of_lt h1)]

/-- An index map on rows, applied to the flattened tensor. -/
def rows {h N : ℕ} (c : ℕ) (f : Fin h → Fin N) (k : Fin (h * c)) : Fin (N * c) :=
  finProdFinEquiv (f (finProdFinEquiv.symm k).1, (finProdFinEquiv.symm k).2)

/-- `gather(x, idx, axis=0)`. -/
def gatherT {m N : ℕ} (f : Fin m → Fin N) (x : T (.arith w N)) : T (.arith w m) := fun i => x (f i)

/-- `scatter_nd(idx, updates, shape)`: updates with the same index are added. -/
def scatterT {m N : ℕ} (f : Fin m → Fin N) (u : T (.arith w m)) : T (.arith w N) :=
  fun j => ∑ i, if f i = j then u i else 0

/-- One iteration of the loop (aby3.py:5875-5893): gather both sides, compare and swap, scatter.
-/
def sortBody {m N : ℕ} (acc : Bool) (l r : Fin m → Fin N) (x : Shares (T (.arith w N))) :
    M (Shares (T (.arith w N))) := do
  let (lo, hi) ← cmpSwapS (x.map (gatherT l)) (x.map (gatherT r))
  let (il, ir) := if acc then (l, r) else (r, l)
  return Shares.map₂ (· + ·) (lo.map (scatterT il)) (hi.map (scatterT ir))

/-- The indices of one sub-stage on `2^(K+1)` rows: `flip` and the block size `2^b`. -/
def subStage (acc : Bool) (K c : ℕ) (flip : Bool) (b : ℕ) (hb : b ≤ K)
    (x : Shares (T (.arith w (2 * 2 ^ K * c)))) : M (Shares (T (.arith w (2 * 2 ^ K * c)))) :=
  sortBody acc
    (rows c fun i : Fin (2 ^ K) => ⟨leftIdx (2 ^ b) i, leftIdx_lt (pow_dvd_pow 2 hb) i.2⟩)
    (rows c fun i : Fin (2 ^ K) => ⟨rightIdx flip (2 ^ b) i, rightIdx_lt (pow_dvd_pow 2 hb) i.2⟩) x

/-- Sub-stages with block sizes `2^(b-1), …, 2, 1`: those after the first of a stage. -/
def subStages (acc : Bool) (K c : ℕ) : (b : ℕ) → b ≤ K + 1 → Shares (T (.arith w (2 * 2 ^ K * c))) →
    M (Shares (T (.arith w (2 * 2 ^ K * c))))
  | 0, _, x => return x
  | b + 1, hb, x => do
    let y ← subStage acc K c false b (by omega) x
    subStages acc K c b (by omega) y

/-- Stages `0, …, s - 1`: stage `t` has sub-stage 0, reversed, with blocks of `2^t`, and `t` more.
-/
def stages (acc : Bool) (K c : ℕ) : (s : ℕ) → s ≤ K + 1 → Shares (T (.arith w (2 * 2 ^ K * c))) →
    M (Shares (T (.arith w (2 * 2 ^ K * c))))
  | 0, _, x => return x
  | t + 1, ht, x => do
    let y ← stages acc K c t (by omega) x
    let z ← subStage acc K c true t (by omega) y
    subStages acc K c t (by omega) z

/-- The padding (aby3.py:5852-5859): `np.ones(…) * ((1 << (w - 2)) - 1)` is an array of doubles, so
`2^(w-2) - 1` is rounded to `2^(w-2)` when it has more than 53 bits. -/
def padWord (w : ℕ) : BitVec w := BitVec.ofInt w (if w - 2 ≤ 53 then 2 ^ (w - 2) - 1 else 2 ^ (w - 2))

/-- `to_private` (aby3_tensors.py:488-493): the value is the first component, the others are
zero. -/
def toPrivate {s : Srt} (v : T s) : Shares (T s) := fun i =>
  if i = 0 then (v, 0) else if i = 2 then (0, v) else (0, 0)

/-- `concat([x, pad], axis=0)`: `N` rows, the first `n` from `x`. -/
def padRows {n N c : ℕ} (x : T (.arith w (n * c))) (p : T (.arith w ((N - n) * c))) :
    T (.arith w (N * c)) := fun k =>
  if h : (finProdFinEquiv.symm k).1.1 < n then
    x (finProdFinEquiv (⟨(finProdFinEquiv.symm k).1.1, h⟩, (finProdFinEquiv.symm k).2))
  else p (finProdFinEquiv (⟨(finProdFinEquiv.symm k).1.1 - n, by
    have := (finProdFinEquiv.symm k).1.2; omega⟩, (finProdFinEquiv.symm k).2))

/-- `x[k : k + n]` on rows. -/
def cutRows {N c : ℕ} (k n : ℕ) (h : k + n ≤ N) (x : T (.arith w (N * c))) : T (.arith w (n * c)) :=
  gatherT (rows c fun i : Fin n => ⟨k + i.1, by omega⟩) x

/-- `sort(x, axis=0, acc)` on `n` rows. For one row `np.stack([])` raises. -/
def sort (acc : Bool) (n c : ℕ) (x : Shares (T (.arith w (n * c)))) :
    Except Err (M (Shares (T (.arith w (n * c))))) :=
  if h : n ≤ 1 then .error .valueError
  else
    let K := Nat.clog 2 n - 1
    have hK : n ≤ 2 * 2 ^ K := by
      have h1 : 0 < Nat.clog 2 n := Nat.clog_pos (by omega) (by omega)
      have h2 := Nat.le_pow_clog (b := 2) (by omega) n
      calc n ≤ 2 ^ Nat.clog 2 n := h2
        _ = 2 * 2 ^ K := by rw [← pow_succ']; congr 1; omega
    .ok do
      let p := toPrivate (fun _ => padWord w : T (.arith w ((2 * 2 ^ K - n) * c)))
      let y ← stages acc K c (K + 1) le_rfl (Shares.map₂ (padRows (N := 2 * 2 ^ K)) x p)
      return y.map (if acc then cutRows 0 n (by omega) else cutRows (2 * 2 ^ K - n) n (by omega))

end Verif.Aby3
