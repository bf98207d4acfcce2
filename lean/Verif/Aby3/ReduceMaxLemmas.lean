import Verif.Aby3.ReduceMax
import Verif.Aby3.ReduceMaxSpec
import Verif.Tensor.Lemmas
import Mathlib.Tactic.Push
import Mathlib.Data.List.Basic
import Mathlib.Data.List.GetD

/-!
# Lemmas about `reduce_max`
-/

namespace Verif.Aby3.ReduceMax

open Verif.Tensor

variable {α : Type} [LinearOrder α]

theorem axisOf_of {r : ℕ} {a : ℤ} {k : ℕ} (h : IsAxis r a k) : axisOf r a = some k ∧ (a % r).toNat = k := by
  obtain ⟨hk, h⟩ := h
  have hm : (a % r).toNat = k := by
    rcases h with rfl | rfl
    · rw [Int.emod_eq_of_lt (by omega) (by omega)]; omega
    · rw [show (k : ℤ) - r = k + (-1) * r by omega, Int.add_mul_emod_self_right,
        Int.emod_eq_of_lt (by omega) (by omega)]; omega
  refine ⟨?_, hm⟩
  rw [axisOf, if_pos (by omega), hm]

theorem axisOf_none {r : ℕ} {a : ℤ} (h : ∀ k, ¬ IsAxis r a k) : axisOf r a = none := by
  rw [axisOf, if_neg]
  intro ⟨h1, h2⟩
  by_cases h0 : 0 ≤ a
  · exact h a.toNat ⟨by omega, by omega⟩
  · exact h (a + r).toNat ⟨by omega, by omega⟩

theorem inShape_len : ∀ {s i : List ℕ}, InShape s i → i.length = s.length
  | [], [], _ => rfl
  | _ :: _, _ :: _, h => by simp [inShape_len h.2]

theorem inShape_set_src : ∀ {s i : List ℕ} {k j : ℕ}, InShape (s.set k 1) i → j < s.getD k 0 →
    InShape s (i.set k j) ∧ (i.set k j).set k 0 = i
  | [], _, _, _, _, h => by simp at h
  | d :: s, [], 0, _, h, _ => h.elim
  | d :: s, [], k + 1, _, h, _ => h.elim
  | d :: s, q :: i, 0, j, h, hj => by
      obtain ⟨h1, h2⟩ := h
      simp only [List.set_cons_zero, List.cons.injEq, and_true]
      exact ⟨⟨by simpa using hj, h2⟩, by omega⟩
  | d :: s, q :: i, k + 1, j, h, hj => by
      obtain ⟨h1, h2⟩ := h
      obtain ⟨h3, h4⟩ := inShape_set_src (k := k) (j := j) h2 (by simpa using hj)
      simp only [List.set_cons_succ, h4, and_true]
      exact ⟨h1, h3⟩

theorem src_of_set : ∀ {s src : List ℕ} {k : ℕ}, InShape s src → k < s.length →
    ∃ j, j < s.getD k 0 ∧ src = (src.set k 0).set k j
  | [], _, _, _, h => by simp at h
  | d :: s, [], _, h, _ => h.elim
  | d :: s, q :: i, 0, h, _ => ⟨q, by simpa using h.1, by simp⟩
  | d :: s, q :: i, k + 1, h, hk => by
      obtain ⟨j, h1, h2⟩ := src_of_set (k := k) h.2 (by simpa using hk)
      exact ⟨j, by simpa using h1, by simpa using h2⟩

theorem inShape_insert : ∀ {s i : List ℕ} {k : ℕ}, InShape (s.eraseIdx k) i → k < s.length →
    InShape (s.set k 1) (i.insertIdx k 0)
  | [], _, _, _, h => by simp at h
  | d :: s, i, 0, h, _ => by
      simp only [List.set_cons_zero, List.insertIdx_zero]
      exact ⟨by omega, h⟩
  | d :: s, [], k + 1, h, hk => h.elim
  | d :: s, q :: i, k + 1, h, hk => by
      simp only [List.set_cons_succ, List.insertIdx_succ_cons]
      exact ⟨h.1, inShape_insert h.2 (by simpa using hk)⟩

theorem set_eq_insert : ∀ {src i : List ℕ} {k : ℕ}, k < src.length → i.length + 1 = src.length →
    (src.set k 0 = i.insertIdx k 0 ↔ src.eraseIdx k = i)
  | [], _, _, h, _ => by simp at h
  | a :: src, i, 0, _, _ => by simp
  | a :: src, [], k + 1, hk, hl => by
      simp only [List.length_cons, List.length_nil] at hk hl; omega
  | a :: src, b :: i, k + 1, hk, hl => by
      simp only [List.set_cons_succ, List.insertIdx_succ_cons, List.cons.injEq, List.eraseIdx_cons_succ]
      rw [set_eq_insert (by simpa using hk) (by simpa using hl)]

/-- Dropping the reduced axis of a result that has kept it. -/
theorem drop_axis {x m : Ten α} {k : ℕ} (hk : k < x.shape.length) (h : IsReduceMax x (some k) true m) :
    IsReduceMax x (some k) false ⟨m.shape.eraseIdx k, fun idx => m.get (idx.insertIdx k 0)⟩ := by
  obtain ⟨hs, h⟩ := h
  simp only [resultShape] at hs
  have he : m.shape.eraseIdx k = x.shape.eraseIdx k := by rw [hs, List.eraseIdx_set_eq]
  refine ⟨he, fun idx hi => ?_⟩
  simp only at hi
  rw [he] at hi
  have hin := inShape_insert hi hk
  rw [← hs] at hin
  have hl := inShape_len hi
  rw [List.length_eraseIdx, if_pos hk] at hl
  have hF : ∀ src, Feeds x.shape (some k) false idx src ↔ Feeds x.shape (some k) true (idx.insertIdx k 0) src := by
    intro src
    refine and_congr_right fun hsrc => ?_
    have := inShape_len hsrc
    exact (set_eq_insert (by omega) (by omega)).symm
  obtain ⟨⟨src, h1, h2⟩, h3⟩ := h _ hin
  exact ⟨⟨src, (hF src).2 h1, h2⟩, fun src' hs' => h3 src' ((hF src').1 hs')⟩

/-- What an entry has to be, by the positions along the axis. -/
theorem isReduceMax_of_lane {x y : Ten α} {k : ℕ} (hk : k < x.shape.length) (hs : y.shape = x.shape.set k 1)
    (h : ∀ idx, InShape y.shape idx → (∃ j < x.shape.getD k 0, y.get idx = x.get (idx.set k j)) ∧
      ∀ j < x.shape.getD k 0, x.get (idx.set k j) ≤ y.get idx) : IsReduceMax x (some k) true y := by
  refine ⟨hs, fun idx hi => ?_⟩
  obtain ⟨⟨j, hj, h1⟩, h2⟩ := h idx hi
  rw [hs] at hi
  refine ⟨⟨_, inShape_set_src hi hj, h1⟩, fun src ⟨hsrc, he⟩ => ?_⟩
  simp only at he
  obtain ⟨q, hq, h3⟩ := src_of_set hsrc hk
  rw [h3, he]
  exact h2 q hq

theorem comparisonTree_ok (s : List ℕ) : ∀ (n : ℕ) (ts : List (Ten α)), ts.length = n → ts ≠ [] → (∀ t ∈ ts, t.shape = s) →
    ∃ m, comparisonTree ts = .ok m ∧ m.shape = s ∧
      ∀ idx, (∃ t ∈ ts, m.get idx = t.get idx) ∧ ∀ t ∈ ts, t.get idx ≤ m.get idx := by
  intro n
  induction n using Nat.strong_induction_on with
  | _ n ih =>
    intro ts hn hne hsh
    match ts, hn, hne with
    | [t], _, _ =>
      refine ⟨t, by rw [comparisonTree], hsh t (by simp), fun idx => ⟨⟨t, by simp, rfl⟩, ?_⟩⟩
      simp
    | a :: b :: r, hn, _ =>
      set l := a :: b :: r with hl
      have hlen : l.length = r.length + 2 := by simp [hl]
      obtain ⟨m1, h1, s1, g1⟩ := ih (l.take (l.length / 2)).length (by rw [List.length_take]; omega) _ rfl
        (List.ne_nil_of_length_pos (by rw [List.length_take]; omega))
        (fun t ht => hsh t (List.mem_of_mem_take ht))
      obtain ⟨m2, h2, s2, g2⟩ := ih (l.drop (l.length / 2)).length (by rw [List.length_drop]; omega) _ rfl
        (List.ne_nil_of_length_pos (by rw [List.length_drop]; omega))
        (fun t ht => hsh t (List.mem_of_mem_drop ht))
      refine ⟨maximum m1 m2, ?_, s1, fun idx => ⟨?_, fun t ht => ?_⟩⟩
      · rw [hl, comparisonTree, ← hl, h1, h2]; rfl
      · rcases le_total (m1.get idx) (m2.get idx) with h | h
        · obtain ⟨t, ht, e⟩ := (g2 idx).1
          exact ⟨t, List.mem_of_mem_drop ht, (max_eq_right h).trans e⟩
        · obtain ⟨t, ht, e⟩ := (g1 idx).1
          exact ⟨t, List.mem_of_mem_take ht, (max_eq_left h).trans e⟩
      · rw [← List.take_append_drop (l.length / 2) l, List.mem_append] at ht
        rcases ht with ht | ht
        · exact le_trans ((g1 idx).2 t ht) (le_max_left _ _)
        · exact le_trans ((g2 idx).2 t ht) (le_max_right _ _)

theorem vectorMax_ok : ∀ (n : ℕ) (v : ℕ → α), 0 < n →
    ∃ m, vectorMax n v = .ok m ∧ (∃ i < n, m = v i) ∧ ∀ i < n, v i ≤ m := by
  intro n
  induction n using Nat.strong_induction_on with
  | _ n ih =>
    intro v hn
    by_cases h1 : n = 1
    · subst h1
      refine ⟨v 0, by rw [vectorMax]; simp, ⟨0, by omega, rfl⟩, fun i hi => ?_⟩
      rw [show i = 0 by omega]
    · obtain ⟨m, e, ⟨i, hi, rfl⟩, g⟩ := ih (n / 2 + n % 2) (by omega) (fun i => max (v i) (v (n / 2 + i))) (by omega)
      refine ⟨max (v i) (v (n / 2 + i)), ?_, ?_, fun j hj => ?_⟩
      · rw [vectorMax, if_neg (by omega), if_neg h1]; exact e
      · rcases le_total (v i) (v (n / 2 + i)) with h | h
        · exact ⟨n / 2 + i, by omega, max_eq_right h⟩
        · exact ⟨i, by omega, max_eq_left h⟩
      · by_cases hj2 : j < n / 2
        · exact le_trans (le_max_left _ _) (g j (by omega))
        · have := g (j - n / 2) (by omega)
          rw [show n / 2 + (j - n / 2) = j by omega] at this
          exact le_trans (le_max_right _ _) this

theorem idxOf_range' : ∀ (n s a : ℕ), s ≤ a → a < s + n → (List.range' s n).idxOf a = a - s
  | 0, s, a, h1, h2 => by omega
  | n + 1, s, a, h1, h2 => by
      rw [List.range'_succ, List.idxOf_cons]
      by_cases h : s = a
      · simp [h]
      · have hb : (s == a) = false := by simpa using h
        rw [hb, cond_false, idxOf_range' n (s + 1) a (by omega) (by omega)]
        omega

theorem idxOf_front {k r a : ℕ} (hk : k < r) (ha : a < r) :
    ([k] ++ List.range k ++ List.range' (k + 1) (r - (k + 1))).idxOf a = if a = k then 0 else if a < k then a + 1 else a := by
  rw [List.idxOf_append, List.idxOf_append]
  by_cases h1 : a = k
  · subst h1; simp
  · by_cases h2 : a < k
    · rw [if_pos (by simp [h2]), if_neg (by simpa using h1), List.range_eq_range',
        idxOf_range' k 0 a (by omega) (by omega), if_neg h1, if_pos h2]
      simp
    · rw [if_neg (by simp; omega), idxOf_range' _ _ a (by omega) (by omega), if_neg h1, if_neg h2]
      simp; omega

theorem idxOf_back {k r a : ℕ} (hk : k < r) (ha : a < r) :
    (List.range' 1 k ++ [0] ++ List.range' (k + 1) (r - (k + 1))).idxOf a = if a = 0 then k else if a ≤ k then a - 1 else a := by
  rw [List.idxOf_append, List.idxOf_append]
  by_cases h1 : a = 0
  · subst h1; simp
  · by_cases h2 : a ≤ k
    · rw [if_pos (by simp; omega), if_pos (by simp; omega), idxOf_range' k 1 a (by omega) (by omega), if_neg h1, if_pos h2]
    · rw [if_neg (by simp; omega), idxOf_range' _ _ a (by omega) (by omega), if_neg h1, if_neg h2]
      simp; omega

/-- The index list that the first transposition reads. -/
theorem read_front {k r j : ℕ} {rest : List ℕ} (hk : k < r) (hr : rest.length + 1 = r) :
    ((List.range r).map fun a => (j :: rest).getD
      (([k] ++ List.range k ++ List.range' (k + 1) (r - (k + 1))).idxOf a) 0) = rest.insertIdx k j := by
  apply List.ext_getElem
  · rw [List.length_map, List.length_range, List.length_insertIdx_of_le_length (by omega), hr]
  · intro a h1 h2
    rw [List.length_map, List.length_range] at h1
    rw [List.getElem_map, List.getElem_range, idxOf_front hk h1, List.getElem_insertIdx]
    by_cases e : a = k
    · subst e; simp
    · by_cases e2 : a < k
      · rw [if_neg e, if_pos e2, dif_pos e2]; simp [show a < rest.length by omega]
      · rw [if_neg e, if_neg e2, dif_neg e2, dif_neg e]
        obtain ⟨b, rfl⟩ : ∃ b, a = b + 1 := ⟨a - 1, by omega⟩
        simp [show b < rest.length by omega]

/-- The index list that the second transposition reads. -/
theorem read_back {k r : ℕ} {idx : List ℕ} (hk : k < r) (hr : idx.length = r) :
    ((List.range r).map fun a => idx.getD
      ((List.range' 1 k ++ [0] ++ List.range' (k + 1) (r - (k + 1))).idxOf a) 0) = idx.getD k 0 :: idx.eraseIdx k := by
  apply List.ext_getElem
  · rw [List.length_map, List.length_range, List.length_cons, List.length_eraseIdx, if_pos (by omega)]; omega
  · intro a h1 h2
    rw [List.length_map, List.length_range] at h1
    rw [List.getElem_map, List.getElem_range, idxOf_back hk h1]
    rcases a with - | a
    · simp
    · rw [if_neg (by omega), List.getElem_cons_succ, List.getElem_eraseIdx]
      by_cases e : a < k
      · rw [if_pos (by omega), dif_pos e]; simp [show a < idx.length by omega]
      · rw [if_neg (by omega), dif_neg e]; simp [show a + 1 < idx.length by omega]

theorem map_getD_range (s : List ℕ) : (List.range s.length).map (fun a => s.getD a 0) = s := by
  apply List.ext_getElem
  · simp
  · intro a h1 h2; simp [h2]

/-- The shape after the first transposition. -/
theorem shape_front {s : List ℕ} {k : ℕ} (hk : k < s.length) :
    (([k] ++ List.range k ++ List.range' (k + 1) (s.length - (k + 1))).map fun a => s.getD a 0)
      = s.getD k 0 :: s.eraseIdx k := by
  rw [List.map_append, List.map_append, List.eraseIdx_eq_take_drop_succ]
  simp only [List.map_cons, List.map_nil, List.cons_append, List.cons.injEq, true_and]
  congr 1
  · apply List.ext_getElem
    · simp; omega
    · intro a h1 h2; simp at h1; simp [show a < s.length by omega]
  · apply List.ext_getElem
    · simp
    · intro a h1 h2; simp at h1; simp [show k + 1 + a < s.length by omega]

/-- The shape after the second transposition. -/
theorem shape_back {s : List ℕ} {k : ℕ} (hk : k < s.length) :
    ((List.range' 1 k ++ [0] ++ List.range' (k + 1) (s.length - (k + 1))).map fun a => (s.getD k 0 :: s.eraseIdx k).getD a 0)
      = s := by
  apply List.ext_getElem
  · simp; omega
  · intro a h1 h2
    rw [List.getElem_map]
    by_cases e : a < k
    · rw [List.getElem_append_left (by simp; omega), List.getElem_append_left (by simp; omega), List.getElem_range']
      rw [show 1 + 1 * a = a + 1 by omega, List.getD_cons_succ, List.getD_eq_getElem _ _ (by
        rw [List.length_eraseIdx, if_pos hk]; omega), List.getElem_eraseIdx, dif_pos e]
    · by_cases e2 : a = k
      · subst e2
        rw [List.getElem_append_left (by simp), List.getElem_append_right (by simp)]
        simp [h2]
      · rw [List.getElem_append_right (by simp; omega), List.getElem_range']
        simp only [List.length_append, List.length_range', List.length_singleton, one_mul]
        rw [show k + 1 + (a - (k + 1)) = (a - 1) + 1 by omega, List.getD_cons_succ, List.getD_eq_getElem _ _ (by
          rw [List.length_eraseIdx, if_pos hk]; omega), List.getElem_eraseIdx, dif_neg (by omega)]
        congr 1; omega

theorem insert_erase : ∀ {i : List ℕ} {k j : ℕ}, k < i.length → (i.eraseIdx k).insertIdx k j = i.set k j
  | [], _, _, h => by simp at h
  | a :: i, 0, j, _ => by simp
  | a :: i, k + 1, j, h => by
      simp only [List.eraseIdx_cons_succ, List.insertIdx_succ_cons, List.set_cons_succ]
      rw [insert_erase (by simpa using h)]

/-- `sort` along an axis with at least two entries sorts every lane along it. -/
theorem sort_ok {x : Ten α} {a : ℤ} {k : ℕ} (acc : Bool) (hk : k < x.shape.length) (ha : (a % x.shape.length).toNat = k)
    (hn : 2 ≤ x.shape.getD k 0) : ∃ y, sort x a acc = .ok y ∧ y.shape = x.shape ∧
      ∀ idx, idx.length = x.shape.length → y.get idx =
        (((List.range (x.shape.getD k 0)).map fun j => x.get (idx.set k j)).mergeSort
          fun u v => if acc then decide (u ≤ v) else decide (v ≤ u)).getD (idx.getD k 0) (x.get idx) := by
  by_cases h0 : k = 0
  · subst h0
    obtain ⟨s, g⟩ := x
    match s, hk, hn with
    | n :: s, hk, hn =>
      refine ⟨⟨n :: s, fun idx => ((column ⟨n :: s, g⟩ n idx.tail).mergeSort
        fun u v => if acc then decide (u ≤ v) else decide (v ≤ u)).getD (idx.headD 0) (g idx)⟩, ?_, rfl, ?_⟩
      · rw [sort]
        simp only [ha]
        rw [if_neg (by simp)]
        simp only [ne_eq, not_true, if_false]
        show (sortRows acc (⟨n :: s, g⟩ : Ten α)).bind _ = _
        rw [sortRows]
        simp only
        rw [if_neg (by simp at hn; omega)]
        rfl
      · intro idx hi
        match idx, hi with
        | i :: idx, _ =>
          simp only [column, List.tail_cons, List.headD_cons, List.getD_cons_zero, List.set_cons_zero]
  · have ht1 : transpose x ([k] ++ List.range k ++ List.range' (k + 1) (x.shape.length - (k + 1))) =
        some ⟨x.shape.getD k 0 :: x.shape.eraseIdx k, fun idx => x.get ((List.range x.shape.length).map fun a => idx.getD
          (([k] ++ List.range k ++ List.range' (k + 1) (x.shape.length - (k + 1))).idxOf a) 0)⟩ := by
      rw [transpose, if_pos, shape_front hk]
      refine ⟨by simp; omega, fun b hb => ?_⟩
      simp at hb ⊢; omega
    have hlen : (x.shape.getD k 0 :: x.shape.eraseIdx k).length = x.shape.length := by
      rw [List.length_cons, List.length_eraseIdx, if_pos hk]; omega
    refine ⟨⟨x.shape, fun idx => ((column ⟨x.shape.getD k 0 :: x.shape.eraseIdx k, fun idx => x.get ((List.range x.shape.length).map fun a => idx.getD
          (([k] ++ List.range k ++ List.range' (k + 1) (x.shape.length - (k + 1))).idxOf a) 0)⟩ (x.shape.getD k 0)
            (((List.range x.shape.length).map fun a => idx.getD
      ((List.range' 1 k ++ [0] ++ List.range' (k + 1) (x.shape.length - (k + 1))).idxOf a) 0).tail)).mergeSort
        fun u v => if acc then decide (u ≤ v) else decide (v ≤ u)).getD (((List.range x.shape.length).map fun a => idx.getD
      ((List.range' 1 k ++ [0] ++ List.range' (k + 1) (x.shape.length - (k + 1))).idxOf a) 0).headD 0) 
        (x.get ((List.range x.shape.length).map fun a => ((List.range x.shape.length).map fun a => idx.getD
      ((List.range' 1 k ++ [0] ++ List.range' (k + 1) (x.shape.length - (k + 1))).idxOf a) 0).getD
          (([k] ++ List.range k ++ List.range' (k + 1) (x.shape.length - (k + 1))).idxOf a) 0))⟩, ?_, rfl, ?_⟩
    · rw [sort]
      simp only [ha]
      rw [if_neg (by omega), if_pos h0, ht1]
      show (sortRows acc _).bind _ = _
      rw [sortRows]
      simp only
      rw [if_neg (by omega)]
      show (if k ≠ 0 then _ else _) = _
      rw [if_pos h0, transpose]
      simp only [hlen]
      rw [if_pos, shape_back hk]
      · rfl
      refine ⟨by simp; omega, fun b hb => ?_⟩
      simp at hb ⊢; omega
    · intro idx hi
      have hle : (idx.eraseIdx k).length + 1 = x.shape.length := by
        rw [List.length_eraseIdx, if_pos (by omega)]; omega
      simp only [read_back hk hi, List.tail_cons, List.headD_cons, column]
      have hread : ∀ j, ((List.range x.shape.length).map fun a => (j :: idx.eraseIdx k).getD
          (([k] ++ List.range k ++ List.range' (k + 1) (x.shape.length - (k + 1))).idxOf a) 0) = idx.set k j := by
        intro j
        rw [read_front hk hle, insert_erase (by omega)]
      simp only [hread]
      congr 2
      rw [List.getD_eq_getElem _ _ (by omega), List.set_getElem_self]

/-- The first of a list sorted in descending order is the largest. -/
theorem head_sorted (l : List α) (d : α) (hl : l ≠ []) :
    (l.mergeSort fun u v => if false then decide (u ≤ v) else decide (v ≤ u)).getD 0 d ∈ l ∧
    ∀ b ∈ l, b ≤ (l.mergeSort fun u v => if false then decide (u ≤ v) else decide (v ≤ u)).getD 0 d := by
  simp only [Bool.false_eq_true, if_false]
  have hp := List.mergeSort_perm l fun u v => decide (v ≤ u)
  have hs := List.pairwise_mergeSort (le := fun u v : α => decide (v ≤ u))
    (fun a b c h1 h2 => by simp only [decide_eq_true_eq] at *; exact le_trans h2 h1)
    (fun a b => by simp only [Bool.or_eq_true, decide_eq_true_eq]; exact le_total b a) l
  match hm : l.mergeSort fun u v => decide (v ≤ u) with
  | [] => rw [hm] at hp; exact absurd (List.nil_perm.1 hp) hl
  | m :: r =>
    rw [hm] at hp hs
    rw [List.getD_cons_zero]
    refine ⟨hp.subset (by simp), fun b hb => ?_⟩
    rcases List.mem_cons.1 (hp.symm.subset hb) with rfl | hb
    · exact le_rfl
    · simpa using (List.pairwise_cons.1 hs).1 b hb

end Verif.Aby3.ReduceMax
