import Verif.Aby3.SortLemmas
import Verif.Aby3.Dist
import Mathlib.Data.List.Sort
import Mathlib.Data.List.FinRange
import Mathlib.Data.List.Perm.Basic

/-!
# C30: sorting private tensors
-/

namespace Verif.Aby3

open Verif Bitonic

variable {w n c : ℕ}

/-! ## Specification -/

/-- Column `k` of a tensor of `n` rows and `c` columns, top to bottom. -/
def column (x : T (.arith w (n * c))) (k : Fin c) : List (BitVec w) :=
  List.ofFn fun i : Fin n => x (finProdFinEquiv (i, k))

/-- `l` has the elements of `l₀`, in ascending (`acc`) or descending order of their signed
values. -/
def IsSorted (acc : Bool) (l₀ l : List (BitVec w)) : Prop :=
  l.Perm l₀ ∧ l.Pairwise fun a b => if acc then a.toInt ≤ b.toInt else b.toInt ≤ a.toInt

/-- Any two elements can be compared. -/
def PairComparable (l : List (BitVec w)) : Prop := ∀ a ∈ l, ∀ b ∈ l, Comparable a b

/-- The padding is not below any element, and can be compared with it. -/
def BelowPad (l : List (BitVec w)) : Prop :=
  ∀ a ∈ l, a.toInt ≤ (padWord w).toInt ∧ Comparable a (padWord w) ∧ Comparable (padWord w) a

/-! ## Lists -/

theorem take_sorted {S X : List ℤ} {p : ℤ} {m : ℕ} (hs : S.Pairwise (· ≤ ·))
    (hp : S.Perm (X ++ List.replicate m p)) (hX : ∀ a ∈ X, a ≤ p) : (S.take X.length).Perm X := by
  let U := X.insertionSort (· ≤ ·)
  have hU : U.Perm X := List.perm_insertionSort _ X
  have e : S = U ++ List.replicate m p := by
    refine List.Perm.eq_of_pairwise' hs ?_ (hp.trans (hU.symm.append_right _))
    rw [List.pairwise_append]
    refine ⟨List.pairwise_insertionSort _ X, by simp [List.pairwise_replicate], fun a ha b hb => ?_⟩
    rw [List.eq_of_mem_replicate hb]
    exact hX a (hU.mem_iff.1 ha)
  rw [e, ← hU.length_eq, List.take_left]
  exact hU

theorem drop_sorted {S X : List ℤ} {p : ℤ} {m : ℕ} (hs : S.Pairwise (· ≤ ·))
    (hp : S.Perm (X ++ List.replicate m p)) (hX : ∀ a ∈ X, p ≤ a) : (S.drop m).Perm X := by
  let U := X.insertionSort (· ≤ ·)
  have hU : U.Perm X := List.perm_insertionSort _ X
  have e : S = List.replicate m p ++ U := by
    refine List.Perm.eq_of_pairwise' hs ?_
      (hp.trans ((hU.symm.append_right _).trans List.perm_append_comm))
    rw [List.pairwise_append]
    refine ⟨by simp [List.pairwise_replicate], List.pairwise_insertionSort _ X, fun a ha b hb => ?_⟩
    rw [List.eq_of_mem_replicate ha]
    exact hX b (hU.mem_iff.1 hb)
  rw [e, List.drop_left' (by simp)]
  exact hU

/-- The signed value, turned for descending order. -/
def key (acc : Bool) (v : BitVec w) : ℤ := (if acc then 1 else -1) * v.toInt

theorem key_inj (acc : Bool) : Function.Injective (key (w := w) acc) := by
  intro a b h
  apply BitVec.eq_of_toInt_eq
  cases acc <;> simpa [key] using h

theorem isSorted_of_key {acc : Bool} {l₀ l : List (BitVec w)}
    (h1 : (l.map (key acc)).Perm (l₀.map (key acc))) (h2 : (l.map (key acc)).Pairwise (· ≤ ·)) :
    IsSorted acc l₀ l := by
  refine ⟨(List.map_perm_map_iff (key_inj acc)).1 h1, ?_⟩
  rw [List.pairwise_map] at h2
  refine h2.imp fun {a b} h => ?_
  cases acc <;> simpa [key] using h

theorem column_key {N : ℕ} (acc : Bool) (y : T (.arith w (N * c))) (k : Fin c) :
    (column y k).map (key acc) = List.ofFn fun i : Fin N => col acc y k i := by
  unfold column
  rw [List.map_ofFn]
  congr 1
  funext i
  rw [col_lt _ _ _ i.2]
  rfl

theorem column_pad {N : ℕ} (h : n ≤ N) (x : T (.arith w (n * c))) (k : Fin c) :
    column (padRows (N := N) x fun _ => padWord w) k
      = column x k ++ List.replicate (N - n) (padWord w) := by
  apply List.ext_getElem
  · simp [column]; omega
  · intro i h1 h2
    simp only [column, List.getElem_ofFn, padRows, Equiv.symm_apply_apply]
    by_cases hi : i < n
    · rw [List.getElem_append_left (by simpa using hi), dif_pos hi, List.getElem_ofFn]
    · rw [List.getElem_append_right (by simpa using hi), dif_neg hi, List.getElem_replicate]

theorem column_cut {N : ℕ} (s : ℕ) (h : s + n ≤ N) (y : T (.arith w (N * c))) (k : Fin c) :
    column (cutRows s n h y) k = ((column y k).drop s).take n := by
  apply List.ext_getElem
  · simp [column]; omega
  · intro i h1 h2
    simp only [column, List.getElem_ofFn, List.getElem_take, List.getElem_drop]
    show y (rows c _ (finProdFinEquiv _)) = _
    rw [rows_mk]

attribute [local irreducible] M.All M.Sim

/-- The result of the network on values. -/
theorem stages_sorted {e K : ℕ} (acc : Bool) (hn : n ≤ 2 * 2 ^ K)
    {x : T (.arith (2 ^ e) (n * c))} (k : Fin c) (hc : ∀ k, PairComparable (column x k))
    (hp : n = 2 * 2 ^ K ∨ ∀ k, BelowPad (column x k)) :
    IsSorted acc (column x k) (column ((if acc then cutRows 0 n (by omega)
        else cutRows (2 * 2 ^ K - n) n (by omega))
      (stagesV acc K c (K + 1) le_rfl (padRows (N := 2 * 2 ^ K) x fun _ => padWord (2 ^ e)))) k) := by
  have hmem : ∀ (k : Fin c) (i : Fin (2 * 2 ^ K)),
      padRows (N := 2 * 2 ^ K) x (fun _ => padWord (2 ^ e)) (finProdFinEquiv (i, k))
        ∈ column x k ++ List.replicate (2 * 2 ^ K - n) (padWord (2 ^ e)) := by
    intro k i
    rw [← column_pad hn, column, List.mem_ofFn]
    exact ⟨i, rfl⟩
  have hz : ∀ v : BitVec (2 ^ e), Comparable v v := by
    intro v
    unfold Comparable Bits.Fits
    rw [sub_self]
    have : (0 : ℤ) < 2 ^ (2 ^ e - 1) := by positivity
    constructor <;> omega
  have hcmp : Cmp (padRows (N := 2 * 2 ^ K) x fun _ => padWord (2 ^ e)) := by
    intro k i j
    have hi := List.mem_append.1 (hmem k i)
    have hj := List.mem_append.1 (hmem k j)
    rcases hp with hp | hp
    · have h0 : 2 * 2 ^ K - n = 0 := by omega
      have none : ∀ v, v ∉ List.replicate (2 * 2 ^ K - n) (padWord (2 ^ e)) := by
        intro v; rw [h0]; simp
      exact hc k _ (hi.resolve_right (none _)) _ (hj.resolve_right (none _))
    · rcases hi with hi | hi <;> rcases hj with hj | hj
      · exact hc k _ hi _ hj
      · rw [List.eq_of_mem_replicate hj]; exact (hp k _ hi).2.1
      · rw [List.eq_of_mem_replicate hi]; exact (hp k _ hj).2.2
      · rw [List.eq_of_mem_replicate hi, List.eq_of_mem_replicate hj]; exact hz _
  have hnet := (col_stages acc (K + 1) le_rfl hcmp).1 k
  generalize stagesV acc K c (K + 1) le_rfl (padRows (N := 2 * 2 ^ K) x fun _ => padWord (2 ^ e)) = y
    at hnet ⊢
  have e2 : 2 * 2 ^ K = 2 ^ (K + 1) := by rw [pow_succ]; ring
  have hs : ((column y k).map (key acc)).Pairwise (· ≤ ·) := by
    rw [column_key, List.pairwise_ofFn]
    intro i j hij
    rw [hnet]
    have := net_sorts (K + 1) 0 (col acc (padRows (N := 2 * 2 ^ K) x fun _ => padWord (2 ^ e)) k)
      (i := i) (j := j) hij.le (e2 ▸ j.2)
    simpa using this
  have hperm : ((column y k).map (key acc)).Perm
      ((column x k).map (key acc) ++ List.replicate (2 * 2 ^ K - n) (key acc (padWord (2 ^ e)))) := by
    rw [← List.map_replicate, ← List.map_append, ← column_pad hn, column_key, column_key, hnet]
    obtain ⟨π, hπ⟩ := net_rearr (t := K + 1) (N := 2 * 2 ^ K) (e2 ▸ dvd_rfl)
      (col acc (padRows (N := 2 * 2 ^ K) x fun _ => padWord (2 ^ e)) k)
    rw [show (fun i : Fin (2 * 2 ^ K) => net (K + 1)
        (col acc (padRows (N := 2 * 2 ^ K) x fun _ => padWord (2 ^ e)) k) i)
      = (fun i : Fin (2 * 2 ^ K) => col acc (padRows (N := 2 * 2 ^ K) x fun _ => padWord (2 ^ e)) k i)
        ∘ π from funext hπ]
    exact π.ofFn_comp_perm _
  have hlen : ((column x k).map (key acc)).length = n := by simp [column]
  have hleny : ((column y k).map (key acc)).length = 2 * 2 ^ K := by simp [column]
  have hbp : acc = true → ∀ a ∈ (column x k).map (key acc), n = 2 * 2 ^ K ∨ a ≤ key acc (padWord (2 ^ e)) := by
    rintro rfl a ha
    rcases hp with hp | hp
    · exact .inl hp
    · obtain ⟨v, hv, rfl⟩ := List.mem_map.1 ha
      exact .inr (by simpa [key] using (hp k v hv).1)
  have hbn : acc = false → ∀ a ∈ (column x k).map (key acc), n = 2 * 2 ^ K ∨ key acc (padWord (2 ^ e)) ≤ a := by
    rintro rfl a ha
    rcases hp with hp | hp
    · exact .inl hp
    · obtain ⟨v, hv, rfl⟩ := List.mem_map.1 ha
      exact .inr (by simpa [key] using (hp k v hv).1)
  cases acc
  · simp only [Bool.false_eq_true, if_false, column_cut]
    have ht : ((column y k).drop (2 * 2 ^ K - n)).take n = (column y k).drop (2 * 2 ^ K - n) := by
      apply List.take_of_length_le
      simp [column]; omega
    rw [ht]
    apply isSorted_of_key
    · rw [List.map_drop]
      by_cases hN : n = 2 * 2 ^ K
      · have : 2 * 2 ^ K - n = 0 := by omega
        rw [this] at hperm ⊢
        simpa using hperm
      · exact drop_sorted hs hperm fun a ha => (hbn rfl a ha).resolve_left hN
    · rw [List.map_drop]
      exact hs.drop
  · simp only [if_true, column_cut, List.drop_zero]
    apply isSorted_of_key
    · rw [List.map_take]
      by_cases hN : n = 2 * 2 ^ K
      · have h0 : 2 * 2 ^ K - n = 0 := by omega
        rw [h0] at hperm
        rw [List.take_of_length_le (by omega)]
        simpa using hperm
      · have := take_sorted hs hperm fun a ha => (hbp rfl a ha).resolve_left hN
        rwa [hlen] at this
    · rw [List.map_take]
      exact hs.take

/-- The value the sort computes, and what it shows a server. -/
def sortV (acc : Bool) (n c : ℕ) (x : T (.arith w (n * c))) (hn : n ≤ 2 * 2 ^ (Nat.clog 2 n - 1)) :
    T (.arith w (n * c)) :=
  (if acc then cutRows 0 n (by omega) else cutRows (2 * 2 ^ (Nat.clog 2 n - 1) - n) n (by omega))
    (stagesV acc (Nat.clog 2 n - 1) c (Nat.clog 2 n - 1 + 1) le_rfl
      (padRows (N := 2 * 2 ^ (Nat.clog 2 n - 1)) x fun _ => padWord w))

theorem two_mul_clog (hn : 2 ≤ n) : 2 * 2 ^ (Nat.clog 2 n - 1) = 2 ^ Nat.clog 2 n := by
  have h1 : 0 < Nat.clog 2 n := Nat.clog_pos (by omega) (by omega)
  rw [← pow_succ']
  congr 1
  omega

theorem le_two_mul_clog (hn : 2 ≤ n) : n ≤ 2 * 2 ^ (Nat.clog 2 n - 1) :=
  two_mul_clog hn ▸ Nat.le_pow_clog (by omega) n

theorem sort_sim {e : ℕ} (he : 0 < e) (hn : 2 ≤ n) (acc : Bool) :
    ∃ F : Shares (T (.arith (2 ^ e) (n * c))) → M (Shares (T (.arith (2 ^ e) (n * c)))),
      (∀ X, sort acc n c X = .ok (F X)) ∧
      ∀ {σ : Fin 3} {x x' : T (.arith (2 ^ e) (n * c))} {X X' : Shares (T (.arith (2 ^ e) (n * c)))},
        Alike σ x x' X X' →
        M.Sim σ (Alike σ (sortV acc n c x (le_two_mul_clog hn)) (sortV acc n c x' (le_two_mul_clog hn)))
          (F X) (F X') := by
  refine ⟨_, fun X => by rw [sort, dif_neg (by omega)], ?_⟩
  intro σ x x' X X' hx
  refine M.Sim.bind (stages_sim he acc _ le_rfl (hx.map₂ padRows_add ((toPrivate_holds _).alike σ)))
    fun y y' hy => .pure ?_
  unfold sortV
  cases acc
  · exact hy.map fun _ _ => rfl
  · exact hy.map fun _ _ => rfl

/-- **C30.** Sorting `n ≥ 2` rows of private words, ascending or descending, for every sharing and
every draw: each column of the result has the elements of that column of the input, in order. The
elements of a column have to be comparable with each other, and, when `n` is not a power of two,
with the padding. -/
theorem sort_value_partial {e : ℕ} (he : 0 < e) (hn : 2 ≤ n) (acc : Bool) {x : T (.arith (2 ^ e) (n * c))}
    {X : Shares (T (.arith (2 ^ e) (n * c)))} (hx : Holds x X)
    (hc : ∀ k, PairComparable (column x k))
    (hp : (∃ t, n = 2 ^ t) ∨ ∀ k, BelowPad (column x k)) :
    ∃ m, ∃ y : T (.arith (2 ^ e) (n * c)), sort acc n c X = .ok m ∧ M.All (Holds y) m ∧
      ∀ k, IsSorted acc (column x k) (column y k) := by
  obtain ⟨F, h1, h2⟩ := sort_sim (c := c) he hn acc
  refine ⟨F X, _, h1 X, holds_of_sim (h2 (hx.alike 0)) rfl, fun k => ?_⟩
  refine stages_sorted acc (le_two_mul_clog hn) k hc (hp.imp_left ?_)
  rintro ⟨t, rfl⟩
  rw [two_mul_clog hn, Nat.clog_pow 2 t (by omega)]

theorem small_sortable {e : ℕ} (he : 0 < e) {x : T (.arith (2 ^ e) (n * c))}
    (hs : ∀ i, |(x i).toInt| < 2 ^ (2 ^ e - 2)) :
    (∀ k, PairComparable (column x k)) ∧ ∀ k, BelowPad (column x k) := by
  have hmem : ∀ k, ∀ a ∈ column x k, |a.toInt| < 2 ^ (2 ^ e - 2) := by
    intro k a ha
    rw [column, List.mem_ofFn] at ha
    obtain ⟨i, rfl⟩ := ha
    exact hs _
  have h2 : 2 ≤ 2 ^ e := by
    calc 2 = 2 ^ 1 := rfl
      _ ≤ 2 ^ e := Nat.pow_le_pow_right (by omega) (by omega)
  have h4 : (2 : ℤ) ^ (2 ^ e - 1) = 2 * 2 ^ (2 ^ e - 2) := by
    rw [show 2 ^ e - 1 = (2 ^ e - 2) + 1 by omega, pow_succ]; ring
  have h5 : (1 : ℤ) ≤ 2 ^ (2 ^ e - 2) := one_le_pow₀ (by norm_num)
  have hpad : (padWord (2 ^ e)).toInt
      = if 2 ^ e - 2 ≤ 53 then 2 ^ (2 ^ e - 2) - 1 else 2 ^ (2 ^ e - 2) := by
    unfold padWord
    refine Bits.toInt_ofInt (by positivity) ?_ ?_ <;> rw [h4] <;> split <;> omega
  constructor
  · intro k a ha b hb
    have := abs_lt.1 (hmem k a ha)
    have := abs_lt.1 (hmem k b hb)
    exact comparable_of_small he (by omega) (by omega)
  · intro k a ha
    have := abs_lt.1 (hmem k a ha)
    unfold Comparable Bits.Fits
    rw [hpad, h4]
    split <;> refine ⟨?_, ⟨?_, ?_⟩, ?_, ?_⟩ <;> omega

/-- Every element is less than a quarter of the ring away from zero: then everything can be
sorted. -/
theorem sort_small_partial {e : ℕ} (he : 0 < e) (hn : 2 ≤ n) (acc : Bool)
    {x : T (.arith (2 ^ e) (n * c))} {X : Shares (T (.arith (2 ^ e) (n * c)))} (hx : Holds x X)
    (hs : ∀ i, |(x i).toInt| < 2 ^ (2 ^ e - 2)) :
    ∃ m, ∃ y : T (.arith (2 ^ e) (n * c)), sort acc n c X = .ok m ∧ M.All (Holds y) m ∧
      ∀ k, IsSorted acc (column x k) (column y k) := by
  obtain ⟨h1, h2⟩ := small_sortable he hs
  exact sort_value_partial he hn acc hx h1 (.inr h2)

/-- **C07** for sorting, when every pass of the loop draws its own masks: a server's view does not
depend on the values. -/
theorem sort_secrecy {e : ℕ} (he : 0 < e) (hn : 2 ≤ n) (acc : Bool) :
    ∃ F : Shares (T (.arith (2 ^ e) (n * c))) → M (Shares (T (.arith (2 ^ e) (n * c)))),
      (∀ X, sort acc n c X = .ok (F X)) ∧
      ∀ (σ : Fin 3) (v v' : T (.arith (2 ^ e) (n * c))),
        M.view σ (share v >>= F) = M.view σ (share v' >>= F) := by
  obtain ⟨F, h1, h2⟩ := sort_sim (c := c) he hn acc
  exact ⟨F, h1, fun σ v v' => hides_of_sim fun _ _ h => h2 h⟩

/-- One row cannot be sorted: building the list of steps fails. -/
theorem sort_one_raises (acc : Bool) (X : Shares (T (.arith w (1 * c)))) :
    sort acc 1 c X = .error .valueError := by
  rw [sort, dif_pos le_rfl]

/-- The hypotheses of `sort_value_partial` are met by three words in one column, shared in any way. -/
example (a b : T (.arith (2 ^ 6) (3 * 1))) :
    let x : T (.arith (2 ^ 6) (3 * 1)) := ![5, -2, 0]
    ∃ m, ∃ y : T (.arith (2 ^ 6) (3 * 1)),
    sort true 3 1 ![(a, b), (b, x - a - b), (x - a - b, a)] = .ok m ∧ M.All (Holds y) m ∧
      column y 0 = [-2, 0, 5] := by
  intro x
  obtain ⟨m, y, h1, h2, h3⟩ := sort_small_partial (n := 3) (c := 1) (e := 6) (by decide) (by decide)
    true (exists_holds x a b) (by intro i; fin_cases i <;> decide)
  refine ⟨m, y, h1, h2, ?_⟩
  obtain ⟨hp, hs⟩ := h3 0
  have hl : (column x 0).Perm [-2, 0, 5] := by decide
  refine List.Perm.eq_of_pairwise (fun a b _ _ h1 h2 => ?_) hs ?_ (hp.trans hl)
  · simp only [if_true] at h1 h2
    exact BitVec.eq_of_toInt_eq (le_antisymm h1 h2)
  · decide

/-- **C30 fails** for the word `-2^62` in a 64-bit ring when padding is needed: the padding is
taken for something smaller than it, and one of the input's elements is lost. -/
theorem sort_pad_false {x : T (.arith (2 ^ 6) (3 * 1))} (hx : x = ![-2 ^ 62, 0, 1])
    {X : Shares (T (.arith (2 ^ 6) (3 * 1)))} (h : Holds x X) :
    PairComparable (column x 0) ∧
    ∃ m, ∃ y : T (.arith (2 ^ 6) (3 * 1)), sort true 3 1 X = .ok m ∧ M.All (Holds y) m ∧
      1 ∈ column x 0 ∧ 1 ∉ column y 0 := by
  obtain ⟨F, h1, h2⟩ := sort_sim (c := 1) (n := 3) (e := 6) (by decide) (by decide) true
  have hc : column x 0 = [-2 ^ 62, 0, 1] := by subst hx; decide +kernel
  refine ⟨?_, F X, _, h1 X, holds_of_sim (h2 (h.alike 0)) rfl, ?_, ?_⟩
  · rw [hc]
    unfold PairComparable
    have h0 : (-2 ^ 62 : BitVec (2 ^ 6)).toInt = -2 ^ 62 := by decide +kernel
    have h1 : (0 : BitVec (2 ^ 6)).toInt = 0 := by decide +kernel
    have h2 : (1 : BitVec (2 ^ 6)).toInt = 1 := by decide +kernel
    simp only [List.mem_cons, List.not_mem_nil, or_false, forall_eq_or_imp, forall_eq]
    unfold Comparable Bits.Fits
    simp only [h0, h1, h2]
    norm_num
  · rw [hc]; simp
  · subst hx
    have : column (sortV (w := 2 ^ 6) true 3 1 ![-2 ^ 62, 0, 1] (le_two_mul_clog (by decide))) 0
        = [0, 2 ^ 62, -2 ^ 62] := by decide +kernel
    rw [this]
    decide +kernel

end Verif.Aby3
