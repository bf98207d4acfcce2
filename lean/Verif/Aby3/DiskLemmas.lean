import Verif.Aby3.Disk
import Verif.I128.Lemmas
import Verif.Tensor.Lemmas

/-!
# Lemmas about the files of private tensors
-/

namespace Verif.Aby3.Disk

open Verif.Tensor

theorem digit_inj {a b : ℕ} (ha : a < 10) (hb : b < 10) (h : toString a = toString b) : a = b := by
  interval_cases a <;> interval_cases b <;> first | rfl | (exact absurd h (by decide))

/-- **No two shares have the same file**, not even on the same machine. -/
theorem fileName_inj {p p' : String} {i i' : Fin 3} {j j' : Fin 2} (h : fileName p i j = fileName p' i' j') :
    p = p' ∧ i = i' ∧ j = j' := by
  have key : ∀ (p : String) (i : Fin 3) (j : Fin 2), ∃ a b : Char, (fileName p i j).toList = p.toList ++ "_share".toList ++ [a, b] ∧
      (toString i.val).toList = [a] ∧ (toString j.val).toList = [b] := by
    intro p i j
    have d : ∀ n < 3, ∃ c, (toString n).toList = [c] := by
      intro n hn
      interval_cases n <;> exact ⟨_, rfl⟩
    obtain ⟨a, ha⟩ := d i.val i.isLt
    obtain ⟨b, hb⟩ := d j.val (by omega)
    refine ⟨a, b, ?_, ha, hb⟩
    rw [fileName, String.toList_append, String.toList_append, String.toList_append, ha, hb]
    simp
  obtain ⟨a, b, e1, e2, e3⟩ := key p i j
  obtain ⟨a', b', f1, f2, f3⟩ := key p' i' j'
  rw [h, f1] at e1
  have e4 := List.append_inj_left' e1 rfl
  have e5 := List.append_inj_right' e1 rfl
  have e6 := List.append_inj_left' e4 rfl
  simp only [List.cons.injEq, and_true] at e5
  refine ⟨String.toList_inj.1 e6.symm, Fin.ext (digit_inj (by omega) (by omega) (String.toList_inj.1 ?_)),
    Fin.ext (digit_inj (by omega) (by omega) (String.toList_inj.1 ?_))⟩
  · rw [e2, f2, e5.1]
  · rw [e3, f3, e5.2]

/-- A file after one write. -/
def newFile (old : Option (List Rec)) (r : Rec) (append : Bool) : Option (List Rec) :=
  if append then some (old.getD [] ++ [r]) else some [r]

theorem writeSome_other (host : Fin 3 → ℕ) (x : Priv) (pre : String) (append : Bool) (m : ℕ) (n : String) :
    ∀ (ops : List (Fin 3 × Fin 2)) (d : Files), (∀ o ∈ ops, ¬(m = host o.1 ∧ n = fileName pre o.1 o.2)) →
      writeSome host x pre append ops d m n = d m n
  | [], _, _ => rfl
  | (i, j) :: rest, d, H => by
      rw [writeSome, writeSome_other host x pre append m n rest _ fun o ho => H o (List.mem_cons_of_mem _ ho), writeRecord,
        if_neg (H (i, j) List.mem_cons_self)]

theorem writeSome_mem (host : Fin 3 → ℕ) (x : Priv) (pre : String) (append : Bool) (i : Fin 3) (j : Fin 2) :
    ∀ (ops : List (Fin 3 × Fin 2)) (d : Files), ops.Nodup → (i, j) ∈ ops →
      writeSome host x pre append ops d (host i) (fileName pre i j) =
        newFile (d (host i) (fileName pre i j)) (x.shares i j) append
  | [], _, _, h => by simp at h
  | (i', j') :: rest, d, hn, h => by
      rw [writeSome]
      by_cases e : (i, j) = (i', j')
      · cases e
        rw [writeSome_other host x pre append _ _ rest, writeRecord, if_pos ⟨rfl, rfl⟩]
        · rfl
        · rintro ⟨a, b⟩ ho ⟨_, e2⟩
          obtain ⟨_, rfl, rfl⟩ := fileName_inj e2
          exact (List.nodup_cons.1 hn).1 ho
      · rw [writeSome_mem host x pre append i j rest _ (List.nodup_cons.1 hn).2 (by simpa [e] using h), writeRecord, if_neg]
        rintro ⟨_, e2⟩
        obtain ⟨_, rfl, rfl⟩ := fileName_inj e2
        exact e rfl

theorem mem_allShares (i : Fin 3) (j : Fin 2) : (i, j) ∈ allShares := by fin_cases i <;> fin_cases j <;> decide

theorem write_own (host : Fin 3 → ℕ) (x : Priv) (pre : String) (append : Bool) (d : Files) (i : Fin 3) (j : Fin 2) :
    write host x pre append d (host i) (fileName pre i j) = newFile (d (host i) (fileName pre i j)) (x.shares i j) append :=
  writeSome_mem host x pre append i j allShares d (by decide) (mem_allShares i j)

theorem write_other (host : Fin 3 → ℕ) (x : Priv) (pre p : String) (append : Bool) (d : Files) (i : Fin 3) (j : Fin 2) (h : p ≠ pre) (m : ℕ) :
    write host x pre append d m (fileName p i j) = d m (fileName p i j) :=
  writeSome_other host x pre append _ _ allShares d fun _ _ e => h (fileName_inj e.2).1

/-! ## Reading -/

theorem decodeAll_int : ∀ ts : List (Ten (BitVec 64)), decodeAll (ts.map .int) = .ok ts
  | [] => rfl
  | t :: ts => by rw [List.map_cons, decodeAll, decodeAll_int ts]

theorem stackBatch_ok (ts : List (Ten (BitVec 64))) (s : List ℕ) (hne : ts ≠ []) (hs : ∀ t ∈ ts, t.shape = s) :
    ∃ b, stackBatch ts = .ok b ∧ b.shape = ts.length :: s ∧ ∀ r rest t, ts[r]? = some t → b.get (r :: rest) = t.get rest := by
  cases ts with
  | nil => exact absurd rfl hne
  | cons t ts =>
      rw [stackBatch, if_pos fun u hu => (hs u (List.mem_cons_of_mem _ hu)).trans (hs t List.mem_cons_self).symm]
      refine ⟨_, rfl, by simp [hs t List.mem_cons_self], fun r rest u hu => ?_⟩
      show ((t :: ts).getD r t).get rest = u.get rest
      rw [List.getD_eq_getElem?_getD, hu]
      rfl

/-- The `n`-th element of the iterator of one share: the records of the batch, one after the other in
row-major order, if they have as many entries as the shape asked for; else an exception. -/
theorem batchAt_chunk (k : ℕ) (out s : List ℕ) (ts : List (Ten (BitVec 64))) (n : ℕ) (hk : 0 < k) (hne : ts ≠ [])
    (hs : ∀ t ∈ ts, t.shape = s) :
    let c := n % batches k ts.length
    let L := min k (ts.length - c * k)
    0 < L ∧
    (out.prod = L * s.prod → ∃ t, batchAt k out (ts.map .int) n = .ok t ∧ t.shape = out ∧
      ∀ idx u, InShape out idx → ts[c * k + flat out idx / s.prod]? = some u → t.get idx = u.get (unflat s (flat out idx % s.prod))) ∧
    (out.prod ≠ L * s.prod → batchAt k out (ts.map .int) n = .error .invalid) := by
  intro c L
  have hN : 0 < ts.length := List.length_pos_of_ne_nil hne
  have hb : 0 < batches k ts.length := Nat.div_pos (by omega) hk
  have hc : c < batches k ts.length := Nat.mod_lt _ hb
  have hck : c * k < ts.length := by
    have h1 : batches k ts.length * k ≤ ts.length + k - 1 := Nat.div_mul_le_self _ _
    have h2 : (c + 1) * k ≤ batches k ts.length * k := Nat.mul_le_mul_right _ hc
    rw [Nat.add_mul] at h2
    omega
  have hL : 0 < L := by simp only [L]; omega
  have hlen : ((ts.drop (c * k)).take k).length = L := by simp [L]
  have hnil : (ts.drop (c * k)).take k ≠ [] := fun e => by rw [e] at hlen; simp at hlen; omega
  obtain ⟨b, b1, b2, b3⟩ := stackBatch_ok ((ts.drop (c * k)).take k) s hnil fun t ht =>
    hs t (List.mem_of_mem_drop (List.mem_of_mem_take ht))
  have hcommon : batchAt k out (ts.map .int) n =
      (match Tensor.reshape b out with
            | none => .error .invalid
            | some t => .ok t) := by
    unfold batchAt
    rw [if_neg (by simpa using hne), List.length_map, ← List.map_drop, ← List.map_take, decodeAll_int]
    simp only [c] at b1
    simp only [b1]
    cases Tensor.reshape b out <;> rfl
  have hprod : b.shape.prod = L * s.prod := by rw [b2, List.prod_cons, hlen]
  refine ⟨hL, fun hp => ?_, fun hp => ?_⟩
  · rw [hcommon, reshape_some b out (by rw [hp, hprod])]
    refine ⟨_, rfl, rfl, fun idx u hi hu => ?_⟩
    show b.get (unflat b.shape (flat out idx)) = _
    rw [b2]
    show b.get (flat out idx / s.prod :: unflat s (flat out idx % s.prod)) = _
    refine b3 _ _ u ?_
    have hlt := flat_lt out idx hi
    have hs0 : 0 < s.prod := Nat.pos_of_ne_zero fun e => by rw [hp, e] at hlt; simp at hlt
    have hq : flat out idx / s.prod < L := by
      rw [Nat.div_lt_iff_lt_mul hs0, ← hp]; exact hlt
    rw [List.getElem?_take_of_lt (by simp only [L] at hq; omega), List.getElem?_drop]
    exact hu
  · rw [hcommon]
    have : Tensor.reshape b out = none := by
      unfold Tensor.reshape
      rw [if_neg (by rw [hprod]; exact hp)]
    rw [this]

theorem tensorAt_ok (host : Fin 3 → ℕ) (d : Files) (ps : List String) (k : ℕ) (out : List ℕ) (n : ℕ)
    (t : Fin 3 → Fin 2 → Ten (BitVec 64)) (H : ∀ i j, shareAt host d ps k out n i j = .ok (t i j)) :
    ∃ y, tensorAt host d ps k out n = .ok y ∧ y.scaled = true ∧ y.kind = .arithmetic ∧ ∀ i j, y.shares i j = .int (t i j) := by
  unfold tensorAt
  simp only [H]
  refine ⟨_, rfl, rfl, rfl, fun i j => ?_⟩
  fin_cases i <;> fin_cases j <;> rfl

theorem tensorAt_error (host : Fin 3 → ℕ) (d : Files) (ps : List String) (k : ℕ) (out : List ℕ) (n : ℕ) (e : DErr)
    (H : shareAt host d ps k out n 0 0 = .error e) : tensorAt host d ps k out n = .error e := by
  unfold tensorAt
  rw [H]
  rfl

end Verif.Aby3.Disk
