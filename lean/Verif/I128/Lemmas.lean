import Verif.I128.Model
import Mathlib.Tactic.Ring
import Mathlib.Tactic.Linarith

/-! Helper lemmas for the 128-bit words. -/

namespace Verif.I128

open Verif.Tensor

/-! ## One word -/

theorem load_bit (p : Limbs) (i : ℕ) :
    (load p).getLsbD i = if i < 64 then p.1.getLsbD i else p.2.getLsbD (i - 64) := by
  unfold load
  rw [BitVec.getLsbD_append]

theorem load_store (v : BitVec 128) : load (store v) = v := by
  apply BitVec.eq_of_getLsbD_eq
  intro i hi
  rw [load_bit]
  unfold store
  by_cases h : i < 64
  · rw [if_pos h, BitVec.getLsbD_setWidth]
    simp [h]
  · rw [if_neg h, BitVec.getLsbD_setWidth, BitVec.getLsbD_sshiftRight]
    have e : 64 + (i - 64) = i := by omega
    have h1 : i - 64 < 64 := by omega
    have h2 : ¬ 128 ≤ i - 64 := by omega
    rw [e]
    simp [h1, h2, hi]

theorem store_load (p : Limbs) : store (load p) = p := by
  unfold store
  refine Prod.ext ?_ ?_
  · apply BitVec.eq_of_getLsbD_eq
    intro i hi
    rw [BitVec.getLsbD_setWidth, load_bit, if_pos hi]
    simp [hi]
  · apply BitVec.eq_of_getLsbD_eq
    intro i hi
    rw [BitVec.getLsbD_setWidth, BitVec.getLsbD_sshiftRight]
    have h2 : ¬ 128 ≤ i := by omega
    have h3 : 64 + i < 128 := by omega
    simp only [hi, h2, h3, decide_true, decide_false, Bool.true_and, Bool.not_false, if_true]
    rw [load_bit, if_neg (by omega)]
    congr 1
    omega

theorem load_inj {p q : Limbs} (h : load p = load q) : p = q := by
  rw [← store_load p, h, store_load]

theorem load_toNat (p : Limbs) : (load p).toNat = p.1.toNat + 2 ^ 64 * p.2.toNat := by
  unfold load
  rw [BitVec.toNat_append, ← Nat.shiftLeft_add_eq_or_of_lt p.1.isLt, Nat.shiftLeft_eq]
  ring

theorem load_toInt (p : Limbs) : (load p).toInt = (p.1.toNat : ℤ) + p.2.toInt * 2 ^ 64 := by
  have h := load_toNat p
  have h1 := p.1.isLt
  have h2 := p.2.isLt
  rw [BitVec.toInt_eq_toNat_cond, BitVec.toInt_eq_toNat_cond]
  split <;> split <;> push_cast <;> omega

/-! ## Bytes -/

theorem bytes_eq (k : ℕ) : ∀ n, ofBytes ((List.range n).map fun i => k / 256 ^ i % 256) = k % 256 ^ n := by
  intro n
  induction n generalizing k with
  | zero => simp [ofBytes, Nat.mod_one]
  | succ n ih =>
    rw [List.range_succ_eq_map, List.map_cons, List.map_map]
    have : ((fun i => k / 256 ^ i % 256) ∘ Nat.succ) = fun i => (k / 256) / 256 ^ i % 256 := by
      funext i
      simp only [Function.comp, Nat.succ_eq_add_one]
      rw [Nat.div_div_eq_div_mul, pow_succ']
    rw [this]
    show k / 256 ^ 0 % 256 + 256 * ofBytes _ = _
    rw [ih, pow_zero, Nat.div_one, pow_succ', Nat.mod_mul]

theorem fromBuffer_toBytes (k : ℕ) (hk : k < 2 ^ 128) :
    fromBuffer (toBytes k) = (BitVec.ofNat 64 (k % 2 ^ 64), BitVec.ofNat 64 (k / 2 ^ 64)) := by
  unfold fromBuffer toBytes
  rw [← List.map_take, ← List.map_drop]
  have e1 : (List.range 16).take 8 = List.range 8 := by decide
  have e2 : (List.range 16).drop 8 = (List.range 8).map (8 + ·) := by decide
  rw [e1, e2, bytes_eq, List.map_map]
  have : ((fun i => k / 256 ^ i % 256) ∘ (8 + ·)) = fun i => (k / 256 ^ 8) / 256 ^ i % 256 := by
    funext i
    simp only [Function.comp]
    rw [Nat.div_div_eq_div_mul, ← pow_add]
  rw [this, bytes_eq]
  have e3 : (256 : ℕ) ^ 8 = 2 ^ 64 := by norm_num
  rw [e3, Nat.mod_eq_of_lt (a := k / 2 ^ 64)]
  rw [Nat.div_lt_iff_lt_mul (by positivity), ← pow_add]
  exact hk

/-! ## Shapes and indices -/

theorem inShape_length : ∀ {s i : List ℕ}, InShape s i → i.length = s.length
  | [], [], _ => rfl
  | _ :: _, _ :: _, h => by simpa using inShape_length h.2
  | [], _ :: _, h => h.elim
  | _ :: _, [], h => h.elim

theorem inShape_snoc : ∀ {s i : List ℕ} {d b : ℕ}, InShape s i → b < d → InShape (s ++ [d]) (i ++ [b])
  | [], [], _, _, _, hb => ⟨hb, trivial⟩
  | _ :: _, _ :: _, _, _, h, hb => ⟨h.1, inShape_snoc h.2 hb⟩
  | [], _ :: _, _, _, h, _ => h.elim
  | _ :: _, [], _, _, h, _ => h.elim

theorem flat_snoc : ∀ {s i : List ℕ} {d b : ℕ}, i.length = s.length →
    flat (s ++ [d]) (i ++ [b]) = flat s i * d + b
  | [], [], _, _, _ => by simp [flat]
  | x :: s, y :: i, d, b, h => by
      show y * (s ++ [d]).prod + flat (s ++ [d]) (i ++ [b]) = (y * s.prod + flat s i) * d + b
      rw [flat_snoc (by simpa using h), List.prod_append, List.prod_singleton]
      ring

theorem unflat_snoc : ∀ {s : List ℕ} {d b k : ℕ}, b < d → unflat (s ++ [d]) (k * d + b) = unflat s k ++ [b] ∨
    s = [] := by
  intro s
  induction s with
  | nil => intros; right; rfl
  | cons x s ih =>
    intro d b k hb
    left
    show (k * d + b) / (s ++ [d]).prod :: unflat (s ++ [d]) ((k * d + b) % (s ++ [d]).prod) =
      k / s.prod :: (unflat s (k % s.prod) ++ [b])
    rw [List.prod_append, List.prod_singleton]
    have h1 : (k * d + b) / (s.prod * d) = k / s.prod := by
      rw [mul_comm s.prod d, ← Nat.div_div_eq_div_mul, mul_comm k d, Nat.mul_add_div (by omega),
        Nat.div_eq_of_lt hb, Nat.add_zero]
    have h2 : (k * d + b) % (s.prod * d) = (k % s.prod) * d + b := by
      rw [mul_comm s.prod d, Nat.mod_mul, mul_comm k d, Nat.mul_add_mod, Nat.mod_eq_of_lt hb,
        Nat.mul_add_div (by omega), Nat.div_eq_of_lt hb, Nat.add_zero]
      ring
    rw [h1, h2]
    rcases ih (k := k % s.prod) hb with h | h
    · rw [h]
    · subst h
      simp [unflat, Nat.mod_one]

theorem unflat_snoc' {s : List ℕ} {d b k : ℕ} (hb : b < d) (hk : k < s.prod) :
    unflat (s ++ [d]) (k * d + b) = unflat s k ++ [b] := by
  rcases unflat_snoc (s := s) (k := k) hb with h | h
  · exact h
  · subst h
    have : k = 0 := by simpa using hk
    subst this
    simp [unflat]

theorem getLastD_snoc (i : List ℕ) (b : ℕ) : (i ++ [b]).getLastD 0 = b := by simp

theorem words_limbs (u : Ten (BitVec 128)) : words (limbs u) = u := by
  unfold words limbs
  congr 1
  · simp
  · funext idx
    simp only [getLastD_snoc, List.dropLast_concat, if_true, one_ne_zero, if_false]
    exact load_store _

theorem valid_limbs (u : Ten (BitVec 128)) : Valid (limbs u) := ⟨u.shape, rfl⟩

theorem words_shape {t : Store} {s : List ℕ} (h : t.shape = s ++ [2]) : (words t).shape = s := by
  show t.shape.dropLast = s
  rw [h, List.dropLast_concat]

theorem eraseIdx_snoc {i : List ℕ} {a b : ℕ} (h : a < i.length) :
    (i ++ [b]).eraseIdx a = i.eraseIdx a ++ [b] := List.eraseIdx_append_of_lt_length h _

theorem set_snoc {i : List ℕ} {a b x : ℕ} (h : a < i.length) :
    (i ++ [b]).set a x = i.set a x ++ [b] := List.set_append_left _ _ h

theorem getD_snoc {i : List ℕ} {a b : ℕ} (h : a < i.length) : (i ++ [b]).getD a 0 = i.getD a 0 := by
  rw [List.getD_eq_getElem?_getD, List.getD_eq_getElem?_getD, List.getElem?_append_left h]

theorem insertIdx_snoc {i : List ℕ} {a b x : ℕ} (h : a ≤ i.length) :
    (i ++ [b]).insertIdx a x = i.insertIdx a x ++ [b] := by
  induction i generalizing a with
  | nil =>
    have : a = 0 := by simpa using h
    subst this
    rfl
  | cons y i ih =>
    cases a with
    | zero => rfl
    | succ a =>
      simp only [List.cons_append, List.insertIdx_succ_cons]
      rw [ih (by simpa using h)]

theorem normAxis_nat {a r : ℕ} (h : a < r) : normAxis (a : ℤ) r = some a := by
  unfold normAxis
  rw [if_pos (by omega), if_neg (by omega)]
  simp

theorem liftAxis_nat {a r : ℕ} (h : a < r) : liftAxis (a : ℤ) r = some (a : ℤ) := by
  unfold liftAxis
  rw [if_neg (by omega), if_pos (by omega)]

theorem getD_map {α β : Type} (f : α → β) (l : List α) (i : ℕ) (d : α) :
    (l.map f).getD i (f d) = f (l.getD i d) := by
  rw [List.getD_eq_getElem?_getD, List.getElem?_map, List.getD_eq_getElem?_getD, Option.getD_map]

theorem stackT_some {α : Type} {x : Ten α} {xs : List (Ten α)} {axis : ℤ} {a : ℕ}
    (h : ∀ y ∈ x :: xs, y.shape = x.shape) (ha : normAxis axis (x.shape.length + 1) = some a) :
    stackT (x :: xs) axis = some ⟨x.shape.insertIdx a (x :: xs).length,
      fun idx => ((x :: xs).getD (idx.getD a 0) x).get (idx.eraseIdx a)⟩ := by
  simp only [stackT]
  rw [if_pos h, ha]
  rfl

theorem concatT_some {α : Type} {x : Ten α} {xs : List (Ten α)} {axis : ℤ} {a : ℕ}
    (ha : normAxis axis x.shape.length = some a)
    (h : ∀ y ∈ x :: xs, y.shape.length = x.shape.length ∧ y.shape.eraseIdx a = x.shape.eraseIdx a) :
    concatT (x :: xs) axis = some ⟨x.shape.set a ((x :: xs).map fun y => y.shape.getD a 0).sum, fun idx =>
      ((x :: xs).getD (locate ((x :: xs).map fun y => y.shape.getD a 0) (idx.getD a 0)).1 x).get
        (idx.set a (locate ((x :: xs).map fun y => y.shape.getD a 0) (idx.getD a 0)).2)⟩ := by
  simp only [concatT, ha]
  show (if _ then _ else _) = _
  rw [if_pos h]

/-! ## Broadcasting with the limb dimension -/

theorem bcast_snoc {a b s : List ℕ} (h : bcast a b = some s) : bcast (a ++ [2]) (b ++ [2]) = some (s ++ [2]) := by
  unfold bcast at h ⊢
  rw [List.reverse_append, List.reverse_append]
  show (bcastRev (2 :: a.reverse) (2 :: b.reverse)).map _ = _
  cases hr : bcastRev a.reverse b.reverse with
  | none => rw [hr] at h; cases h
  | some q =>
    rw [hr] at h
    simp only [bcastRev, true_or, if_true, hr, Option.map_some, Option.some.injEq] at h ⊢
    rw [← h]
    simp

theorem bcastRev_len : ∀ {a b s : List ℕ}, bcastRev a b = some s → a.length ≤ s.length ∧ b.length ≤ s.length
  | [], b, s, h => by simp only [bcastRev, Option.some.injEq] at h; subst h; simp
  | x :: a, [], s, h => by simp only [bcastRev, Option.some.injEq] at h; subst h; simp
  | x :: a, y :: b, s, h => by
      unfold bcastRev at h
      split at h
      · cases hr : bcastRev a b with
        | none => rw [hr] at h; cases h
        | some q =>
          rw [hr] at h
          simp only [Option.map_some, Option.some.injEq] at h
          subst h
          have := bcastRev_len hr
          simpa using this
      · cases h

theorem bcast_len {a b s : List ℕ} (h : bcast a b = some s) : a.length ≤ s.length ∧ b.length ≤ s.length := by
  unfold bcast at h
  cases hr : bcastRev a.reverse b.reverse with
  | none => rw [hr] at h; cases h
  | some q =>
    rw [hr] at h
    simp only [Option.map_some, Option.some.injEq] at h
    subst h
    simpa using bcastRev_len hr

theorem bcastIdx_snoc {s i : List ℕ} {b : ℕ} (h : s.length ≤ i.length) :
    bcastIdx (s ++ [2]) (i ++ [b]) = bcastIdx s i ++ [b] := by
  unfold bcastIdx
  have e : (i ++ [b]).length - (s ++ [2]).length = i.length - s.length := by simp
  rw [e, List.drop_append_of_le_length (by omega), List.zip_append (by simp; omega)]
  simp

end Verif.I128
