import Mathlib.Order.Basic
import Mathlib.Order.Monotone.Basic
import Mathlib.Order.Lattice
import Mathlib.Order.MinMax
import Mathlib.Order.BooleanAlgebra.Defs
import Mathlib.Data.Bool.Basic
import Mathlib.Logic.Equiv.Basic
import Mathlib.Tactic.Ring
import Mathlib.Tactic.Linarith

/-!
# Bitonic sorting networks

A network of compare-exchange steps on an array `ℕ → α` over a linear order, in the variant whose
stages begin with a reversed step, and the proof that it sorts every block of `2^t` elements. The
proof goes through the 0-1 principle.
-/

namespace Verif.Bitonic

variable {α β : Type*} [LinearOrder α] [LinearOrder β]

/-- Every position is compared with its partner: the smaller value goes to the smaller position. -/
def ce (p : ℕ → ℕ) (a : ℕ → α) (j : ℕ) : α :=
  if j < p j then min (a j) (a (p j)) else max (a j) (a (p j))

/-- Partner of `j` in its block of `2b`: the same place in the other half. -/
def phalf (b j : ℕ) : ℕ := if j % (2 * b) < b then j + b else j - b

/-- Partner of `j` in its block of `2b`: counted from the other end. -/
def pflip (b j : ℕ) : ℕ := 2 * b * (j / (2 * b)) + (2 * b - 1 - j % (2 * b))

/-- Steps with halves of `2^(b-1), …, 2, 1`. -/
def clean : ℕ → (ℕ → α) → ℕ → α
  | 0, a => a
  | b + 1, a => clean b (ce (phalf (2 ^ b)) a)

/-- The network for blocks of `2^t`. -/
def net : ℕ → (ℕ → α) → ℕ → α
  | 0, a => a
  | t + 1, a => clean t (ce (pflip (2 ^ t)) (net t a))

/-! ## The 0-1 principle -/

theorem ce_map {f : α → β} (hf : Monotone f) (p : ℕ → ℕ) (a : ℕ → α) :
    ce p (f ∘ a) = f ∘ ce p a := by
  funext j
  simp only [ce, Function.comp]
  split
  · exact hf.map_min.symm
  · exact hf.map_max.symm

theorem clean_map {f : α → β} (hf : Monotone f) (b : ℕ) (a : ℕ → α) :
    clean b (f ∘ a) = f ∘ clean b a := by
  induction b generalizing a with
  | zero => rfl
  | succ b ih => simp only [clean, ce_map hf, ih]

theorem net_map {f : α → β} (hf : Monotone f) (t : ℕ) (a : ℕ → α) : net t (f ∘ a) = f ∘ net t a := by
  induction t with
  | zero => rfl
  | succ t ih => simp only [net, ih, ce_map hf, clean_map hf]

/-! ## Zeros and ones -/

/-- `false`s, then `true`s. -/
def Thr (a : ℕ → Bool) (base L : ℕ) : Prop := ∃ c, ∀ i < L, a (base + i) = true ↔ c ≤ i

/-- The `true`s, or the `false`s, are an interval. -/
def Bito (a : ℕ → Bool) (base L : ℕ) : Prop :=
  ∃ p q, (∀ i < L, a (base + i) = true ↔ p ≤ i ∧ i < q) ∨
    (∀ i < L, a (base + i) = true ↔ i < p ∨ q ≤ i)

theorem lower_mod {b q i : ℕ} (hi : i < b) : (2 * b * q + i) % (2 * b) = i := by
  rw [Nat.mul_add_mod]; exact Nat.mod_eq_of_lt (by omega)

theorem upper_mod {b q i : ℕ} (hi : i < b) : (2 * b * q + b + i) % (2 * b) = b + i := by
  rw [add_assoc, Nat.mul_add_mod]; exact Nat.mod_eq_of_lt (by omega)

theorem lower_div {b q i : ℕ} (hi : i < b) : (2 * b * q + i) / (2 * b) = q := by
  rw [Nat.mul_add_div (by omega), Nat.div_eq_of_lt (by omega), add_zero]

theorem upper_div {b q i : ℕ} (hi : i < b) : (2 * b * q + b + i) / (2 * b) = q := by
  rw [add_assoc, Nat.mul_add_div (by omega), Nat.div_eq_of_lt (by omega), add_zero]

theorem phalf_lower {b q i : ℕ} (hi : i < b) : phalf b (2 * b * q + i) = 2 * b * q + b + i := by
  unfold phalf
  rw [lower_mod hi, if_pos hi]; omega

theorem phalf_upper {b q i : ℕ} (hi : i < b) : phalf b (2 * b * q + b + i) = 2 * b * q + i := by
  unfold phalf
  rw [upper_mod hi, if_neg (by omega)]; omega

theorem pflip_lower {b q i : ℕ} (hi : i < b) :
    pflip b (2 * b * q + i) = 2 * b * q + b + (b - 1 - i) := by
  unfold pflip
  rw [lower_mod hi, lower_div hi]; omega

theorem pflip_upper {b q i : ℕ} (hi : i < b) :
    pflip b (2 * b * q + b + i) = 2 * b * q + (b - 1 - i) := by
  unfold pflip
  rw [upper_mod hi, upper_div hi]; omega

theorem ce_half_lower {b q i : ℕ} (hi : i < b) (a : ℕ → α) :
    ce (phalf b) a (2 * b * q + i) = min (a (2 * b * q + i)) (a (2 * b * q + b + i)) := by
  unfold ce
  rw [phalf_lower hi, if_pos (by omega)]

theorem ce_half_upper {b q i : ℕ} (hi : i < b) (a : ℕ → α) :
    ce (phalf b) a (2 * b * q + b + i) = max (a (2 * b * q + b + i)) (a (2 * b * q + i)) := by
  unfold ce
  rw [phalf_upper hi, if_neg (by omega)]

theorem ce_flip_lower {b q i : ℕ} (hi : i < b) (a : ℕ → α) :
    ce (pflip b) a (2 * b * q + i) = min (a (2 * b * q + i)) (a (2 * b * q + b + (b - 1 - i))) := by
  unfold ce
  rw [pflip_lower hi, if_pos (by omega)]

theorem ce_flip_upper {b q i : ℕ} (hi : i < b) (a : ℕ → α) :
    ce (pflip b) a (2 * b * q + b + i)
      = max (a (2 * b * q + b + i)) (a (2 * b * q + (b - 1 - i))) := by
  unfold ce
  rw [pflip_upper hi, if_neg (by omega)]

theorem min_true {x y : Bool} : min x y = true ↔ x = true ∧ y = true := by
  cases x <;> cases y <;> decide

theorem max_true {x y : Bool} : max x y = true ↔ x = true ∨ y = true := by
  cases x <;> cases y <;> decide

/-- All of the lower half is `false`, or all of the upper half is `true`. -/
def Apart (a : ℕ → Bool) (base b : ℕ) : Prop :=
  (∀ i < b, a (base + i) = false) ∨ (∀ i < b, a (base + b + i) = true)

theorem eq_false_of {x : Bool} {p : Prop} (h : x = true ↔ p) (hp : ¬ p) : x = false := by
  cases x <;> simp_all

theorem half_cleaner {b q : ℕ} {a : ℕ → Bool} (h : Bito a (2 * b * q) (2 * b)) :
    Bito (ce (phalf b) a) (2 * b * q) b ∧ Bito (ce (phalf b) a) (2 * b * q + b) b ∧
      Apart (ce (phalf b) a) (2 * b * q) b := by
  obtain ⟨p, r, h | h⟩ := h
  · have lo : ∀ i < b, ce (phalf b) a (2 * b * q + i) = true ↔ (p ≤ i ∧ i < r) ∧ p ≤ b + i ∧ b + i < r := by
      intro i hi
      rw [ce_half_lower hi, min_true, h i (by omega), add_assoc, h (b + i) (by omega)]
    have up : ∀ i < b, ce (phalf b) a (2 * b * q + b + i) = true ↔
        (p ≤ b + i ∧ b + i < r) ∨ p ≤ i ∧ i < r := by
      intro i hi
      rw [ce_half_upper hi, max_true, h i (by omega), add_assoc, h (b + i) (by omega)]
    refine ⟨⟨p, r - b, .inl fun i hi => ?_⟩, ?_, ?_⟩
    · rw [lo i hi]; omega
    · rcases le_or_gt r b with h1 | h1
      · exact ⟨p, r, .inl fun i hi => by rw [up i hi]; omega⟩
      · rcases le_or_gt b p with h2 | h2
        · exact ⟨p - b, r - b, .inl fun i hi => by rw [up i hi]; omega⟩
        · exact ⟨r - b, p, .inr fun i hi => by rw [up i hi]; omega⟩
    · by_cases h1 : p + b < r ∧ p < b
      · exact .inr fun i hi => by rw [up i hi]; omega
      · exact .inl fun i hi => eq_false_of (lo i hi) (by omega)
  · have lo : ∀ i < b, ce (phalf b) a (2 * b * q + i) = true ↔
        (i < p ∨ r ≤ i) ∧ (b + i < p ∨ r ≤ b + i) := by
      intro i hi
      rw [ce_half_lower hi, min_true, h i (by omega), add_assoc, h (b + i) (by omega)]
    have up : ∀ i < b, ce (phalf b) a (2 * b * q + b + i) = true ↔
        (b + i < p ∨ r ≤ b + i) ∨ i < p ∨ r ≤ i := by
      intro i hi
      rw [ce_half_upper hi, max_true, h i (by omega), add_assoc, h (b + i) (by omega)]
    refine ⟨?_, ?_, ?_⟩
    · rcases le_or_gt r b with h1 | h1
      · exact ⟨p, r, .inr fun i hi => by rw [lo i hi]; omega⟩
      · rcases le_or_gt b p with h2 | h2
        · exact ⟨p - b, r - b, .inr fun i hi => by rw [lo i hi]; omega⟩
        · exact ⟨r - b, p, .inl fun i hi => by rw [lo i hi]; omega⟩
    · exact ⟨p, r - b, .inr fun i hi => by rw [up i hi]; omega⟩
    · by_cases h1 : p + b < r ∧ p < b
      · exact .inl fun i hi => eq_false_of (lo i hi) (by omega)
      · exact .inr fun i hi => by rw [up i hi]; omega

theorem flip_step {b q : ℕ} {a : ℕ → Bool} (h1 : Thr a (2 * b * q) b)
    (h2 : Thr a (2 * b * q + b) b) :
    Bito (ce (pflip b) a) (2 * b * q) b ∧ Bito (ce (pflip b) a) (2 * b * q + b) b ∧
      Apart (ce (pflip b) a) (2 * b * q) b := by
  obtain ⟨c, h1⟩ := h1
  obtain ⟨d, h2⟩ := h2
  have lo : ∀ i < b, ce (pflip b) a (2 * b * q + i) = true ↔ c ≤ i ∧ d ≤ b - 1 - i := by
    intro i hi
    rw [ce_flip_lower hi, min_true, h1 i hi, h2 (b - 1 - i) (by omega)]
  have up : ∀ i < b, ce (pflip b) a (2 * b * q + b + i) = true ↔ d ≤ i ∨ c ≤ b - 1 - i := by
    intro i hi
    rw [ce_flip_upper hi, max_true, h2 i hi, h1 (b - 1 - i) (by omega)]
  refine ⟨⟨c, b - d, .inl fun i hi => ?_⟩, ⟨b - c, d, .inr fun i hi => ?_⟩, ?_⟩
  · rw [lo i hi]; omega
  · rw [up i hi]; omega
  · rcases lt_or_ge (c + d) b with h | h
    · exact .inr fun i hi => by rw [up i hi]; omega
    · exact .inl fun i hi => eq_false_of (lo i hi) (by omega)

theorem block_succ (b q : ℕ) : q * 2 ^ (b + 1) = 2 * 2 ^ b * q := by rw [pow_succ]; ring

theorem clean_const {b q : ℕ} {a : ℕ → Bool} {v : Bool} (h : ∀ i < 2 ^ b, a (q * 2 ^ b + i) = v) :
    ∀ i < 2 ^ b, clean b a (q * 2 ^ b + i) = v := by
  induction b generalizing q a with
  | zero => exact h
  | succ b ih =>
    rw [block_succ] at *
    intro i hi
    have e : (2 : ℕ) ^ (b + 1) = 2 * 2 ^ b := by rw [pow_succ]; ring
    rw [e] at h hi
    have lo : ∀ i < 2 ^ b, ce (phalf (2 ^ b)) a (2 * q * 2 ^ b + i) = v := by
      intro i hi
      rw [show 2 * q * 2 ^ b + i = 2 * 2 ^ b * q + i by ring, ce_half_lower hi, h i (by omega), add_assoc,
        h (2 ^ b + i) (by omega), min_self]
    have up : ∀ i < 2 ^ b, ce (phalf (2 ^ b)) a ((2 * q + 1) * 2 ^ b + i) = v := by
      intro i hi
      rw [show (2 * q + 1) * 2 ^ b + i = 2 * 2 ^ b * q + 2 ^ b + i by ring, ce_half_upper hi,
        h i (by omega), add_assoc, h (2 ^ b + i) (by omega), max_self]
    show clean b (ce (phalf (2 ^ b)) a) (2 * 2 ^ b * q + i) = v
    rcases lt_or_ge i (2 ^ b) with hl | hl
    · have := ih lo i hl
      rwa [show 2 * q * 2 ^ b + i = 2 * 2 ^ b * q + i by ring] at this
    · have := ih up (i - 2 ^ b) (by omega)
      rwa [show (2 * q + 1) * 2 ^ b + (i - 2 ^ b) = 2 * 2 ^ b * q + (2 ^ b + (i - 2 ^ b)) by ring,
        show 2 ^ b + (i - 2 ^ b) = i by omega] at this

theorem thr_join {b q : ℕ} {a : ℕ → Bool} (h1 : Thr a (2 * b * q) b) (h2 : Thr a (2 * b * q + b) b)
    (h : Apart a (2 * b * q) b) : Thr a (2 * b * q) (2 * b) := by
  obtain ⟨c, h1⟩ := h1
  obtain ⟨d, h2⟩ := h2
  rcases h with h | h
  · refine ⟨b + d, fun i hi => ?_⟩
    rcases lt_or_ge i b with hl | hl
    · rw [h i hl]
      constructor
      · intro h; cases h
      · omega
    · have := h2 (i - b) (by omega)
      rw [show 2 * b * q + b + (i - b) = 2 * b * q + i by omega] at this
      rw [this]; omega
  · refine ⟨min c b, fun i hi => ?_⟩
    rcases lt_or_ge i b with hl | hl
    · rw [h1 i hl]; omega
    · have := h (i - b) (by omega)
      rw [show 2 * b * q + b + (i - b) = 2 * b * q + i by omega] at this
      rw [this]
      simp only [true_iff]; omega

theorem apart_clean {b q : ℕ} {a : ℕ → Bool} (h : Apart a (2 * 2 ^ b * q) (2 ^ b)) :
    Apart (clean b a) (2 * 2 ^ b * q) (2 ^ b) := by
  have e1 : 2 * 2 ^ b * q = 2 * q * 2 ^ b := by ring
  have e2 : 2 * 2 ^ b * q + 2 ^ b = (2 * q + 1) * 2 ^ b := by ring
  unfold Apart at *
  rcases h with h | h
  · left; rw [e1] at *; exact clean_const h
  · right; rw [e2] at *; exact clean_const h

theorem clean_sorts {b q : ℕ} {a : ℕ → Bool} (h : Bito a (q * 2 ^ b) (2 ^ b)) :
    Thr (clean b a) (q * 2 ^ b) (2 ^ b) := by
  induction b generalizing q a with
  | zero =>
    simp only [pow_zero, mul_one] at *
    refine ⟨if a q then 0 else 1, fun i hi => ?_⟩
    obtain rfl : i = 0 := by omega
    show a (q + 0) = true ↔ _
    rw [add_zero]
    cases a q <;> simp
  | succ b ih =>
    rw [block_succ] at *
    have e : (2 : ℕ) ^ (b + 1) = 2 * 2 ^ b := by rw [pow_succ]; ring
    rw [e] at h ⊢
    obtain ⟨h1, h2, h3⟩ := half_cleaner h
    have e1 : 2 * 2 ^ b * q = 2 * q * 2 ^ b := by ring
    have e2 : 2 * 2 ^ b * q + 2 ^ b = (2 * q + 1) * 2 ^ b := by ring
    refine thr_join (a := clean b (ce (phalf (2 ^ b)) a)) ?_ ?_ (apart_clean h3)
    · rw [e1] at h1 ⊢; exact ih h1
    · rw [e2] at h2 ⊢; exact ih h2

theorem net_thr (t q : ℕ) (a : ℕ → Bool) : Thr (net t a) (q * 2 ^ t) (2 ^ t) := by
  induction t generalizing q with
  | zero =>
    simp only [pow_zero, mul_one] at *
    refine ⟨if a q then 0 else 1, fun i hi => ?_⟩
    obtain rfl : i = 0 := by omega
    show a (q + 0) = true ↔ _
    rw [add_zero]
    cases a q <;> simp
  | succ b ih =>
    rw [block_succ]
    have e : (2 : ℕ) ^ (b + 1) = 2 * 2 ^ b := by rw [pow_succ]; ring
    rw [e]
    have e1 : 2 * 2 ^ b * q = 2 * q * 2 ^ b := by ring
    have e2 : 2 * 2 ^ b * q + 2 ^ b = (2 * q + 1) * 2 ^ b := by ring
    have t1 := ih (2 * q)
    have t2 := ih (2 * q + 1)
    rw [← e1] at t1
    rw [← e2] at t2
    obtain ⟨h1, h2, h3⟩ := flip_step t1 t2
    refine thr_join (a := clean b (ce (pflip (2 ^ b)) (net b a))) ?_ ?_ (apart_clean h3)
    · rw [e1] at h1 ⊢; exact clean_sorts h1
    · rw [e2] at h2 ⊢; exact clean_sorts h2

/-- The network sorts every block of `2^t`. -/
theorem net_sorts (t q : ℕ) (a : ℕ → α) {i j : ℕ} (hij : i ≤ j) (hj : j < 2 ^ t) :
    net t a (q * 2 ^ t + i) ≤ net t a (q * 2 ^ t + j) := by
  by_contra hlt
  rw [not_le] at hlt
  let f : α → Bool := fun y => decide (net t a (q * 2 ^ t + i) ≤ y)
  have hf : Monotone f := by
    intro x y hxy
    by_cases h : net t a (q * 2 ^ t + i) ≤ x
    · have : net t a (q * 2 ^ t + i) ≤ y := h.trans hxy
      simp [f, h, this]
    · simp [f, h]
  obtain ⟨c, hc⟩ := net_thr t q (f ∘ a)
  rw [net_map hf] at hc
  have h1 : f (net t a (q * 2 ^ t + i)) = true := by simp [f]
  have h2 : ¬ f (net t a (q * 2 ^ t + j)) = true := by simp [f, hlt]
  have := (hc i (by omega)).1 h1
  exact h2 ((hc j hj).2 (by omega))

/-! ## Nothing is lost -/

/-- A pairing of the first `N` positions. -/
structure Pairing (N : ℕ) (p : ℕ → ℕ) : Prop where
  lt : ∀ j < N, p j < N
  inv : ∀ j, p (p j) = j

theorem exists_block {b : ℕ} (hb : 0 < b) (j : ℕ) :
    ∃ q i, i < b ∧ (j = 2 * b * q + i ∨ j = 2 * b * q + b + i) := by
  have h1 := Nat.div_add_mod j (2 * b)
  have h2 := Nat.mod_lt j (show 0 < 2 * b by omega)
  rcases lt_or_ge (j % (2 * b)) b with h | h
  · exact ⟨j / (2 * b), j % (2 * b), h, .inl h1.symm⟩
  · exact ⟨j / (2 * b), j % (2 * b) - b, by omega, .inr (by omega)⟩

theorem block_lt {b q i k : ℕ} (hk : 2 * b * q + i < 2 * b * k) : 2 * b * q + 2 * b ≤ 2 * b * k := by
  have : q < k := by
    by_contra h
    have := Nat.mul_le_mul_left (2 * b) (not_lt.1 h)
    omega
  calc 2 * b * q + 2 * b = 2 * b * (q + 1) := by ring
    _ ≤ 2 * b * k := Nat.mul_le_mul_left _ this

theorem pairing_half {b N : ℕ} (hb : 0 < b) (hN : 2 * b ∣ N) : Pairing N (phalf b) := by
  obtain ⟨k, rfl⟩ := hN
  constructor
  · intro j hj
    obtain ⟨q, i, hi, rfl | rfl⟩ := exists_block hb j
    · have := block_lt hj; rw [phalf_lower hi]; omega
    · have := block_lt (b := b) (q := q) (i := b + i) (k := k) (by omega); rw [phalf_upper hi]; omega
  · intro j
    obtain ⟨q, i, hi, rfl | rfl⟩ := exists_block hb j
    · rw [phalf_lower hi, phalf_upper hi]
    · rw [phalf_upper hi, phalf_lower hi]

theorem pairing_flip {b N : ℕ} (hb : 0 < b) (hN : 2 * b ∣ N) : Pairing N (pflip b) := by
  obtain ⟨k, rfl⟩ := hN
  constructor
  · intro j hj
    obtain ⟨q, i, hi, rfl | rfl⟩ := exists_block hb j
    · have := block_lt hj; rw [pflip_lower hi]; omega
    · have := block_lt (b := b) (q := q) (i := b + i) (k := k) (by omega); rw [pflip_upper hi]; omega
  · intro j
    obtain ⟨q, i, hi, rfl | rfl⟩ := exists_block hb j
    · rw [pflip_lower hi, pflip_upper (by omega)]; omega
    · rw [pflip_upper hi, pflip_lower (by omega)]; omega

/-- Two arrays with the same first `N` elements up to order. -/
def Rearr (N : ℕ) (a b : ℕ → α) : Prop := ∃ π : Equiv.Perm (Fin N), ∀ j : Fin N, b j = a (π j)

omit [LinearOrder α] in
theorem Rearr.refl (N : ℕ) (a : ℕ → α) : Rearr N a a := ⟨Equiv.refl _, fun _ => rfl⟩

omit [LinearOrder α] in
theorem Rearr.trans {N : ℕ} {a b c : ℕ → α} (h1 : Rearr N a b) (h2 : Rearr N b c) : Rearr N a c := by
  obtain ⟨π, h1⟩ := h1
  obtain ⟨ρ, h2⟩ := h2
  exact ⟨ρ.trans π, fun j => by rw [h2, h1]; rfl⟩

theorem ce_rearr {N : ℕ} {p : ℕ → ℕ} (hp : Pairing N p) (a : ℕ → α) : Rearr N a (ce p a) := by
  let sw : ℕ → Prop := fun j => a (max j (p j)) < a (min j (p j))
  have hsw : ∀ j, sw (p j) ↔ sw j := by
    intro j
    simp only [sw, hp.inv, max_comm, min_comm]
  classical
  let f : Fin N → Fin N := fun j => if sw j then ⟨p j, hp.lt j j.2⟩ else j
  have hf : ∀ j, f (f j) = j := by
    intro j
    by_cases h : sw j
    · have h' : sw (p j) := (hsw j).2 h
      apply Fin.ext
      simp only [f, h, h', if_true, hp.inv]
    · simp only [f, h, if_false]
  refine ⟨⟨f, f, hf, hf⟩, fun j => ?_⟩
  show ce p a j = a (f j)
  unfold ce
  by_cases h : sw j
  · have : (f j : ℕ) = p j := by simp only [f, h, if_true]
    rw [this]
    simp only [sw] at h
    split
    · rename_i hl
      rw [max_eq_right hl.le, min_eq_left hl.le] at h
      exact min_eq_right h.le
    · rename_i hl
      rw [not_lt] at hl
      rw [max_eq_left hl, min_eq_right hl] at h
      exact max_eq_right h.le
  · have : (f j : ℕ) = j := by simp only [f, h, if_false]
    rw [this]
    simp only [sw, not_lt] at h
    split
    · rename_i hl
      rw [max_eq_right hl.le, min_eq_left hl.le] at h
      exact min_eq_left h
    · rename_i hl
      rw [not_lt] at hl
      rw [max_eq_left hl, min_eq_right hl] at h
      exact max_eq_left h

theorem two_pow_dvd {b N : ℕ} (h : 2 ^ (b + 1) ∣ N) : 2 * 2 ^ b ∣ N := by rwa [pow_succ'] at h

theorem clean_rearr {b N : ℕ} (hN : 2 ^ b ∣ N) (a : ℕ → α) : Rearr N a (clean b a) := by
  induction b generalizing a with
  | zero => exact .refl N a
  | succ b ih =>
    exact (ce_rearr (pairing_half (by positivity) (two_pow_dvd hN)) a).trans
      (ih ((pow_dvd_pow 2 (by omega)).trans hN) _)

/-- The network only rearranges. -/
theorem net_rearr {t N : ℕ} (hN : 2 ^ t ∣ N) (a : ℕ → α) : Rearr N a (net t a) := by
  induction t with
  | zero => exact .refl N a
  | succ t ih =>
    have h := (pow_dvd_pow 2 (Nat.le_succ t)).trans hN
    exact ((ih h).trans (ce_rearr (pairing_flip (by positivity) (two_pow_dvd hN)) _)).trans
      (clean_rearr h _)

end Verif.Bitonic
