import Verif.Aby3.Argmax
import Verif.Aby3.ReduceMaxLemmas
import Verif.Convert.StructLemmas

/-!
# Lemmas about `argmax`
-/

namespace Verif.Aby3.ReduceMax

open Verif.Tensor Verif.Keras

variable {α : Type} [LinearOrder α] {β : Type}

/-- Among the positions `js` along axis `k`, `j` is the last one with the largest entry. -/
def LastIn (x : Ten α) (k : ℕ) (idx : List ℕ) (js : List ℕ) (j : ℕ) : Prop :=
  j ∈ js ∧ ∀ q ∈ js, x.get (idx.set k q) ≤ x.get (idx.set k j) ∧ (j < q → x.get (idx.set k q) < x.get (idx.set k j))

theorem bget_fit (t : Ten β) : ∀ {idx : List ℕ}, InShape t.shape idx → Ten.bget t idx = t.get idx := by
  intro idx h
  unfold Ten.bget
  congr 1
  rw [inShape_len h, Nat.sub_self, List.drop_zero]
  generalize t.shape = s at h
  induction s generalizing idx with
  | nil => cases idx with
    | nil => rfl
    | cons => exact h.elim
  | cons d s ih => cases idx with
    | nil => exact h.elim
    | cons i idx =>
      simp only [List.zip_cons_cons, List.map_cons, ih h.2, List.cons.injEq, and_true]
      split_ifs with h1
      · have := h.1; omega
      · rfl

theorem bget_set {t : Ten β} {s : List ℕ} {k : ℕ} {idx : List ℕ} (ht : t.shape = s.set k 1) (h : InShape s idx)
    (hk : k < s.length) : Ten.bget t idx = t.get (idx.set k 0) := by
  unfold Ten.bget
  congr 1
  rw [ht, List.length_set, inShape_len h, Nat.sub_self, List.drop_zero]
  clear ht
  induction s generalizing idx k with
  | nil => simp at hk
  | cons d s ih => cases idx with
    | nil => exact h.elim
    | cons i idx =>
      have hi := h.1
      cases k with
      | zero =>
        simp only [List.set_cons_zero, List.zip_cons_cons, List.map_cons, if_true, List.cons.injEq, true_and]
        have h2 := h.2
        clear ih hk h
        induction s generalizing idx with
        | nil => cases idx with
          | nil => rfl
          | cons => exact h2.elim
        | cons e s ih => cases idx with
          | nil => exact h2.elim
          | cons j idx =>
            simp only [List.zip_cons_cons, List.map_cons, ih _ h2.2, List.cons.injEq, and_true]
            split_ifs with h3
            · have := h2.1; omega
            · rfl
      | succ k =>
        simp only [List.set_cons_succ, List.zip_cons_cons, List.map_cons, ih h.2 (by simpa using hk),
          List.cons.injEq, and_true]
        split_ifs with h1
        · omega
        · rfl

theorem lead_same (s : List ℕ) : Convert.Onnx.lead s.length s = s := by simp [Convert.Onnx.lead]

theorem bcast_self (s : List ℕ) : bcastShape s s = some s := by
  rw [Convert.bcastShape_iff]
  refine ⟨by simp, fun k _ => ?_⟩
  rw [lead_same]; simp

theorem bcast_set {s : List ℕ} {k : ℕ} : bcastShape s (s.set k 1) = some s := by
  rw [Convert.bcastShape_iff]
  refine ⟨by simp, fun q hq => ?_⟩
  have h : Convert.Onnx.lead s.length (s.set k 1) = s.set k 1 := by simp [Convert.Onnx.lead]
  rw [lead_same, h]
  refine ⟨Or.inl rfl, ?_, Or.inl rfl⟩
  by_cases e : k = q
  · subst e; right; simp [hq]
  · left; simp [List.getElem?_set, e]

theorem lead_one {s : List ℕ} {q : ℕ} (hq : q < s.length) :
    (Convert.Onnx.lead s.length [1]).getD q 0 = 1 := by
  have : Convert.Onnx.lead s.length [1] = List.replicate s.length 1 := by
    rw [Convert.Onnx.lead]
    show _ ++ List.replicate 1 1 = _
    rw [List.replicate_append_replicate]
    congr 1
    simp; omega
  rw [this]
  simp [hq]

theorem bcast_one_left {s : List ℕ} (h : 0 < s.length) : bcastShape [1] s = some s := by
  rw [Convert.bcastShape_iff]
  refine ⟨by simp; omega, fun q hq => ?_⟩
  rw [lead_same, lead_one hq]
  simp

theorem bcast_one_right {s : List ℕ} (h : 0 < s.length) : bcastShape s [1] = some s := by
  rw [Convert.bcastShape_iff]
  refine ⟨by simp; omega, fun q hq => ?_⟩
  rw [lead_same, lead_one hq]
  simp

theorem bcast_length {a b s : List ℕ} (h : bcastShape a b = some s) : s.length = max a.length b.length :=
  (Convert.bcastShape_iff.1 h).1

theorem select_ok {c : Ten Bool} {x y : Ten β} {s z : List ℕ} (h1 : bcastShape x.shape y.shape = some s)
    (h2 : bcastShape s c.shape = some z) :
    select c x y = .ok ⟨z, fun idx => if Ten.bget c idx then Ten.bget y idx else Ten.bget x idx⟩ := by
  rw [select, h1]
  show (orValue (bcastShape s c.shape)).bind _ = _
  rw [h2]; rfl

theorem argTree_step {ts : List (Ten α × Ten β)} {p q : Ten α × Ten β} {mx : Ten α} {ax : Ten β} (h : 2 ≤ ts.length)
    (h1 : argTree (ts.take (ts.length / 2)) = .ok p) (h2 : argTree (ts.drop (ts.length / 2)) = .ok q)
    (h3 : select (greater p.1 q.1) q.1 p.1 = .ok mx) (h4 : select (greater p.1 q.1) q.2 p.2 = .ok ax) :
    argTree ts = .ok (mx, ax) := by
  match ts, h with
  | a :: b :: r, _ =>
    rw [argTree, h1]
    show (argTree _).bind _ = _
    rw [h2]
    show (select (greater p.1 q.1) q.1 p.1).bind _ = _
    rw [h3]
    show (select (greater p.1 q.1) q.2 p.2).bind _ = _
    rw [h4]; rfl

/-- The comparison tree, for index tensors that stand for `code j` and whose shapes satisfy `P`. -/
theorem argTree_ok {x : Ten α} {k : ℕ} {S Z : List ℕ} {P : List ℕ → Prop} {code : ℕ → List ℕ → β} {ix : ℕ → Ten β}
    (hS : S = x.shape.set k 1)
    (hZ : P Z) (hP : ∀ a b, P a → P b → ∃ c, bcastShape a b = some c ∧ bcastShape c S = some Z)
    (hix : ∀ j, P (ix j).shape) (hcode : ∀ j idx, InShape Z idx → Ten.bget (ix j) idx = code j idx)
    (hg : ∀ (t : Ten Bool) idx, t.shape = S → InShape Z idx → InShape S (idx.set k 0) ∧ Ten.bget t idx = t.get (idx.set k 0)) :
    ∀ (m : ℕ) (js : List ℕ), js.length = m → js ≠ [] → js.Pairwise (· < ·) →
    ∃ mx ax, argTree (js.map fun j => ((⟨x.shape.set k 1, fun idx => x.get (idx.set k j)⟩ : Ten α), ix j)) = .ok (mx, ax) ∧
      mx.shape = S ∧ P ax.shape ∧ (2 ≤ js.length → ax.shape = Z) ∧
      ∀ idx, InShape S idx → ∃ j, LastIn x k idx js j ∧ mx.get idx = x.get (idx.set k j) ∧
        ∀ idx', InShape Z idx' → idx'.set k 0 = idx → Ten.bget ax idx' = code j idx' := by
  intro m
  induction m using Nat.strong_induction_on with
  | _ m ih =>
    intro js hm hne hinc
    match js, hm, hne with
    | [j], _, _ =>
      refine ⟨_, ix j, by rw [List.map_cons, List.map_nil, argTree], hS.symm, hix j, by simp, fun idx hi => ⟨j, ?_, rfl, ?_⟩⟩
      · refine ⟨by simp, fun q hq => ?_⟩
        rw [List.mem_singleton] at hq
        subst hq
        exact ⟨le_rfl, fun h => absurd h (lt_irrefl _)⟩
      · intro idx' hi' _
        exact hcode j idx' hi'
    | a :: b :: r, hm, _ =>
      set l := a :: b :: r with hl
      have hlen : l.length = r.length + 2 := by simp [hl]
      have hsplit := List.take_append_drop (l.length / 2) l
      have hcross : ∀ p ∈ l.take (l.length / 2), ∀ q ∈ l.drop (l.length / 2), p < q := by
        rw [← hsplit] at hinc
        exact (List.pairwise_append.1 hinc).2.2
      obtain ⟨m1, a1, h1, s1, p1, -, g1⟩ := ih (l.take (l.length / 2)).length (by rw [List.length_take]; omega) _ rfl
        (List.ne_nil_of_length_pos (by rw [List.length_take]; omega)) (hinc.sublist (List.take_sublist _ _))
      obtain ⟨m2, a2, h2, s2, p2, -, g2⟩ := ih (l.drop (l.length / 2)).length (by rw [List.length_drop]; omega) _ rfl
        (List.ne_nil_of_length_pos (by rw [List.length_drop]; omega)) (hinc.sublist (List.drop_sublist _ _))
      obtain ⟨c, hc, hcz⟩ := hP _ _ p2 p1
      have e1 := select_ok (c := greater m1 m2) (x := m2) (y := m1) (s := S) (z := S)
        (by rw [s1, s2]; exact bcast_self S) (by show bcastShape S m1.shape = _; rw [s1]; exact bcast_self S)
      have e2 := select_ok (c := greater m1 m2) (x := a2) (y := a1) (s := c) (z := Z) hc
        (by show bcastShape c m1.shape = _; rw [s1]; exact hcz)
      refine ⟨⟨S, fun idx => if Ten.bget (greater m1 m2) idx then Ten.bget m1 idx else Ten.bget m2 idx⟩,
        ⟨Z, fun idx => if Ten.bget (greater m1 m2) idx then Ten.bget a1 idx else Ten.bget a2 idx⟩,
        ?_, rfl, hZ, fun _ => rfl, fun idx hi => ?_⟩
      · refine argTree_step (p := (m1, a1)) (q := (m2, a2)) (by rw [List.length_map]; omega) ?_ ?_ e1 e2
        · rw [List.length_map, ← List.map_take]; exact h1
        · rw [List.length_map, ← List.map_drop]; exact h2
      · obtain ⟨j1, ⟨l1, q1⟩, v1, c1⟩ := g1 idx hi
        obtain ⟨j2, ⟨l2, q2⟩, v2, c2⟩ := g2 idx hi
        have b1 : Ten.bget m1 idx = m1.get idx := bget_fit m1 (s1 ▸ hi)
        have b2 : Ten.bget m2 idx = m2.get idx := bget_fit m2 (s2 ▸ hi)
        have bg : Ten.bget (greater m1 m2) idx = decide (m2.get idx < m1.get idx) :=
          bget_fit (greater m1 m2) (by show InShape m1.shape idx; rw [s1]; exact hi)
        have bg' : ∀ idx', InShape Z idx' → idx'.set k 0 = idx →
            Ten.bget (greater m1 m2) idx' = decide (m2.get idx < m1.get idx) := by
          intro idx' hi' he
          rw [(hg (greater m1 m2) idx' s1 hi').2, he]; rfl
        by_cases hlt : m2.get idx < m1.get idx
        · have hlt' := hlt
          rw [v1, v2] at hlt'
          refine ⟨j1, ⟨List.mem_of_mem_take l1, fun q hq => ?_⟩, ?_, fun idx' hi' he => ?_⟩
          · rw [← hsplit, List.mem_append] at hq
            rcases hq with hq | hq
            · exact q1 q hq
            · have := lt_of_le_of_lt (q2 q hq).1 hlt'
              exact ⟨this.le, fun _ => this⟩
          · show (if Ten.bget (greater m1 m2) idx then Ten.bget m1 idx else Ten.bget m2 idx) = _
            rw [bg, if_pos (by simpa using hlt), b1, v1]
          · rw [bget_fit _ hi']
            simp only [bg' idx' hi' he, hlt, decide_true, if_true]
            exact c1 idx' hi' he
        · have hlt' := not_lt.1 hlt
          rw [v1, v2] at hlt'
          refine ⟨j2, ⟨List.mem_of_mem_drop l2, fun q hq => ?_⟩, ?_, fun idx' hi' he => ?_⟩
          · rw [← hsplit, List.mem_append] at hq
            rcases hq with hq | hq
            · refine ⟨le_trans (q1 q hq).1 hlt', fun h => ?_⟩
              exact absurd h (not_lt.2 (hcross q hq j2 l2).le)
            · exact q2 q hq
          · show (if Ten.bget (greater m1 m2) idx then Ten.bget m1 idx else Ten.bget m2 idx) = _
            rw [bg, if_neg (by simpa using hlt), b2, v2]
          · rw [bget_fit _ hi']
            simp only [bg' idx' hi' he, hlt, decide_false, Bool.false_eq_true, if_false]
            exact c2 idx' hi' he

end Verif.Aby3.ReduceMax
