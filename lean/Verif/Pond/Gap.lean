import Verif.Core.Expect
import Verif.Pond.FixedMul
import Verif.Pond.Secrecy

/-!
# What the servers see during interactive truncation

The distribution of the view, with the masks drawn as the code draws them, for tensors of every size.
-/

namespace Verif.Pond

open Verif Verif.Fixed Verif.RandM
open scoped ENNReal

section
variable {S : Type} {T : S → Type} [∀ s, Fintype (T s)] [∀ s, Nonempty (T s)]

/-- A bounded mask is uniform. -/
theorem ex_drawBits (k : ℕ) (g : ℕ → ℝ≥0∞) :
    ex (drawBits (T := T) k) g = (∑ r ∈ Finset.range (2 ^ k), g r) / 2 ^ k := by
  induction k generalizing g with
  | zero => simp [drawBits]
  | succ k ih =>
    unfold drawBits
    rw [ex_coin, ex_bind, ex_bind]
    simp only [ex_pure, ih]
    have hs : ∑ r ∈ Finset.range (2 ^ (k + 1)), g r =
        ∑ r ∈ Finset.range (2 ^ k), g (2 * r + false.toNat) +
          ∑ r ∈ Finset.range (2 ^ k), g (2 * r + true.toNat) := by
      rw [pow_succ]
      generalize 2 ^ k = N
      induction N with
      | zero => simp
      | succ N ihN =>
        rw [show (N + 1) * 2 = N * 2 + 1 + 1 by ring, Finset.sum_range_succ, Finset.sum_range_succ, ihN,
          Finset.sum_range_succ, Finset.sum_range_succ]
        simp only [Bool.toNat_false, Bool.toNat_true, add_zero, mul_comm N 2]
        abel
    rw [hs, ENNReal.div_add_div_same, pow_succ, ENNReal.div_eq_inv_mul, ENNReal.div_eq_inv_mul,
      ENNReal.div_eq_inv_mul, ENNReal.mul_inv (by simp) (by simp), mul_comm (2 ^ k)⁻¹, mul_assoc]
    ring
end

variable {F : Factory}

/-- One masked number: moving the value by `d` moves every expected value by at most `|d|/2^k`. -/
theorem mask_shift {S : Type} {T : S → Type} [∀ s, Fintype (T s)] [∀ s, Nonempty (T s)] (k : ℕ)
    (x x' : ℤ) (t : ZMod F.modulus) {g : ZMod F.modulus → ℝ≥0∞} (hg : ∀ v, g v ≤ 1) :
    ex (drawBits (T := T) k) (fun r => g ((x : ZMod F.modulus) + t + (r : ZMod _))) ≤
      ex (drawBits (T := T) k) (fun r => g ((x' : ZMod F.modulus) + t + (r : ZMod _))) +
        ((x - x').natAbs : ℝ≥0∞) / 2 ^ k := by
  rw [ex_drawBits, ex_drawBits, ENNReal.div_add_div_same]
  refine ENNReal.div_le_div_right ?_ _
  set N := 2 ^ k
  set G : ℤ → ℝ≥0∞ := fun v => g ((v : ZMod F.modulus) + t) with hG
  have key : ∀ y : ℤ, ∑ r ∈ Finset.range N, g ((y : ZMod F.modulus) + t + (r : ZMod _)) =
      ∑ v ∈ Finset.Ico y (y + N), G v := by
    intro y
    refine Finset.sum_bij (fun (r : ℕ) _ => y + (r : ℤ)) ?_ ?_ ?_ ?_
    · intro r hr
      simp only [Finset.mem_range, Finset.mem_Ico] at hr ⊢
      omega
    · intro r _ r' _ h; omega
    · intro v hv
      simp only [Finset.mem_Ico] at hv
      exact ⟨(v - y).toNat, by simp only [Finset.mem_range]; omega, by omega⟩
    · intro r _
      simp only [hG]
      congr 1
      push_cast
      ring
  rw [key, key]
  have hsub : Finset.Ico x (x + N) ⊆ Finset.Ico x' (x' + N) ∪
      (Finset.Ico x (x + N) \ Finset.Ico x' (x' + N)) := by
    intro v hv
    simp only [Finset.mem_union, Finset.mem_sdiff]
    tauto
  have hcard : (Finset.Ico x (x + N) \ Finset.Ico x' (x' + N)).card ≤ (x - x').natAbs := by
    rcases le_total x x' with h | h
    · have : Finset.Ico x (x + N) \ Finset.Ico x' (x' + N) ⊆ Finset.Ico x x' := by
        intro v; simp only [Finset.mem_sdiff, Finset.mem_Ico]; omega
      refine (Finset.card_le_card this).trans ?_
      rw [Int.card_Ico]; omega
    · have : Finset.Ico x (x + N) \ Finset.Ico x' (x' + N) ⊆ Finset.Ico (x' + N) (x + N) := by
        intro v; simp only [Finset.mem_sdiff, Finset.mem_Ico]; omega
      refine (Finset.card_le_card this).trans ?_
      rw [Int.card_Ico]; omega
  calc _ ≤ ∑ v ∈ Finset.Ico x' (x' + N) ∪ (Finset.Ico x (x + N) \ Finset.Ico x' (x' + N)), G v :=
        Finset.sum_le_sum_of_subset hsub
    _ = ∑ v ∈ Finset.Ico x' (x' + N), G v + ∑ v ∈ Finset.Ico x (x + N) \ Finset.Ico x' (x' + N), G v :=
        Finset.sum_union Finset.disjoint_sdiff
    _ ≤ _ := by
        refine add_le_add_right ?_ _
        calc _ ≤ ∑ _v ∈ Finset.Ico x (x + N) \ Finset.Ico x' (x' + N), (1 : ℝ≥0∞) :=
              Finset.sum_le_sum fun v _ => hg _
          _ = ((Finset.Ico x (x + N) \ Finset.Ico x' (x' + N)).card : ℝ≥0∞) := by simp
          _ ≤ _ := by exact_mod_cast hcard

/-- ... and so for a tensor, element by element. -/
theorem masks_shift {S : Type} {T : S → Type} [∀ s, Fintype (T s)] [∀ s, Nonempty (T s)] (k n : ℕ)
    (x x' : Fin n → ℤ) (t : Vec F n) {g : Vec F n → ℝ≥0∞} (hg : ∀ v, g v ≤ 1) :
    ex (drawMasks (T := T) k n) (fun r => g fun i => (x i : ZMod F.modulus) + t i + (r i : ZMod _)) ≤
      ex (drawMasks (T := T) k n) (fun r => g fun i => (x' i : ZMod F.modulus) + t i + (r i : ZMod _)) +
        ((∑ i, (x i - x' i).natAbs : ℕ) : ℝ≥0∞) / 2 ^ k := by
  induction n with
  | zero =>
    refine le_of_eq ?_
    simp only [Finset.univ_eq_empty, Finset.sum_empty, Nat.cast_zero, ENNReal.zero_div, add_zero]
    congr 1
    funext r
    congr 1
    funext i
    exact i.elim0
  | succ n ih =>
    unfold drawMasks
    simp only [ex_bind, ex_pure]
    have hcons : ∀ (y : Fin (n + 1) → ℤ) (r : ℕ) (rs : Fin n → ℕ),
        (fun i => (y i : ZMod F.modulus) + t i + ((Fin.cons r rs : Fin (n + 1) → ℕ) i : ZMod F.modulus)) =
          Fin.cons (n := n) (α := fun _ => ZMod F.modulus) ((y 0 : ZMod F.modulus) + t 0 + (r : ZMod _))
            (fun i => (y i.succ : ZMod F.modulus) + t i.succ + (rs i : ZMod _)) := by
      intro y r rs
      funext i
      refine Fin.cases ?_ (fun i => ?_) i
      · simp
      · simp
    simp only [hcons]
    -- the tail first, then the head
    have h1 : ∀ r : ℕ, ex (drawMasks (T := T) k n) (fun rs => g (Fin.cons (n := n)
          (α := fun _ => ZMod F.modulus) ((x 0 : ZMod F.modulus) + t 0 + (r : ZMod _))
            (fun i => (x i.succ : ZMod F.modulus) + t i.succ + (rs i : ZMod _)))) ≤
        ex (drawMasks (T := T) k n) (fun rs => g (Fin.cons (n := n)
          (α := fun _ => ZMod F.modulus) ((x 0 : ZMod F.modulus) + t 0 + (r : ZMod _))
            (fun i => (x' i.succ : ZMod F.modulus) + t i.succ + (rs i : ZMod _)))) +
          ((∑ i : Fin n, (x i.succ - x' i.succ).natAbs : ℕ) : ℝ≥0∞) / 2 ^ k := fun r =>
      ih (fun i => x i.succ) (fun i => x' i.succ) (fun i => t i.succ)
        (g := fun v => g (Fin.cons (n := n) (α := fun _ => ZMod F.modulus)
          ((x 0 : ZMod F.modulus) + t 0 + (r : ZMod _)) v)) fun v => hg _
    have h2 := mask_shift (T := T) k (x 0) (x' 0) (t 0)
      (g := fun v => ex (drawMasks (T := T) k n) fun rs => g (Fin.cons (n := n)
        (α := fun _ => ZMod F.modulus) v
          (fun i => (x' i.succ : ZMod F.modulus) + t i.succ + (rs i : ZMod _)))) fun v => ex_le_one _ fun _ => hg _
    refine (ex_mono _ h1).trans ?_
    rw [ex_add_const, Fin.sum_univ_succ]
    push_cast
    rw [ENNReal.add_div, ← add_assoc]
    refine add_le_add_left h2 _

/-- **C55.** What server 1 sees in an interactive truncation, that is its new share and the messages it
receives, with the masks drawn at random: for every set `A` of observations, the probabilities for two
tensors `x`, `x'` differ by at most the sum of the distances of their elements divided by
`2^maskBits`. -/
theorem interactive_view {b : Backend} {c : Config} {C : Cfg (Vec F)} [NeZero F.modulus]
    (hni : c.noninteractive = false) (hC : pondCfg F b c = some C) (sc : Bool) (n : ℕ)
    (x x' : Fin n → ℤ) (a1 : Vec F n) (A : Set (Vec F n × List (Msg (Vec F)))) :
    ((C.truncPriv sc n ⟨fun i => x i - a1 i, a1⟩).dist.map
        fun o => (o.1.x1, seen .s1 o.2)).toOuterMeasure A ≤
      ((C.truncPriv sc n ⟨fun i => x' i - a1 i, a1⟩).dist.map
        fun o => (o.1.x1, seen .s1 o.2)).toOuterMeasure A +
          ((∑ i, (x i - x' i).natAbs : ℕ) : ℝ≥0∞) / 2 ^ c.maskBits := by
  unfold pondCfg at hC
  cases ht : tensorTruncate F b c.base c.pFrac with
  | none => rw [ht] at hC; cases hC
  | some tr =>
    rw [ht] at hC
    simp only [hni, Bool.false_eq_true, if_false] at hC
    cases hi : Helpers.inverse c.scale F.modulus with
    | none => rw [hi] at hC; cases hC
    | some inv =>
      rw [hi] at hC
      simp only at hC
      split at hC
      · cases hC
        rw [prob_eq_ex, prob_eq_ex]
        simp only
        rw [ex_bind, ex_bind]
        simp only [ex_pure]
        have hm : ∀ (y : Fin n → ℤ) (r : Fin n → ℕ),
            ((fun i => (truncInteractive F c sc inv ⟨(y i : ZMod F.modulus) - a1 i, a1 i⟩ (r i)).x1 : Vec F n),
              seen .s1 [(⟨.s1, n, fun i => maskedShare F c sc ((y i : ZMod F.modulus) - a1 i) (r i)⟩ :
                Msg (Vec F))]) =
            (fun v : Vec F n => ((fun i => (a1 i - ((F.rep (v i + a1 i) % c.scale : ℤ) : ZMod F.modulus)) *
              (inv : ZMod _) : Vec F n), [(⟨.s1, n, v⟩ : Msg (Vec F))]))
              (fun i => (y i : ZMod F.modulus) + (-a1 i + (rotation c sc : ZMod _)) + (r i : ZMod _)) := by
          intro y r
          have hv : ∀ i, (y i : ZMod F.modulus) + (-a1 i + (rotation c sc : ZMod _)) + (r i : ZMod _) =
              maskedShare F c sc ((y i : ZMod F.modulus) - a1 i) (r i) := by
            intro i
            unfold maskedShare
            ring
          simp only [hv]
          rfl
        simp only [hm]
        exact masks_shift c.maskBits n x x' (fun i => -a1 i + (rotation c sc : ZMod F.modulus))
          (g := fun v => A.indicator 1 ((fun v : Vec F n => ((fun i => (a1 i - ((F.rep (v i + a1 i) % c.scale : ℤ) :
            ZMod F.modulus)) * (inv : ZMod _) : Vec F n), [(⟨.s1, n, v⟩ : Msg (Vec F))])) v))
          fun v => by
            by_cases h : (fun v : Vec F n => ((fun i => (a1 i - ((F.rep (v i + a1 i) % c.scale : ℤ) :
              ZMod F.modulus)) * (inv : ZMod _) : Vec F n), [(⟨.s1, n, v⟩ : Msg (Vec F))])) v ∈ A
            · rw [Set.indicator_of_mem h]; rfl
            · rw [Set.indicator_of_notMem h]; exact bot_le
      · cases hC

/-- **C55**, for values in the double-precision range: the probabilities differ by at most `2^-gap` per
element. -/
theorem interactive_view_gap {b : Backend} {c : Config} {C : Cfg (Vec F)} [NeZero F.modulus]
    (hni : c.noninteractive = false) (hC : pondCfg F b c = some C) (sc : Bool) (n : ℕ)
    (x x' : Fin n → ℤ) (hx : ∀ i, |x i| ≤ c.boundDouble) (hx' : ∀ i, |x' i| ≤ c.boundDouble)
    (a1 : Vec F n) (A : Set (Vec F n × List (Msg (Vec F)))) :
    ((C.truncPriv sc n ⟨fun i => x i - a1 i, a1⟩).dist.map
        fun o => (o.1.x1, seen .s1 o.2)).toOuterMeasure A ≤
      ((C.truncPriv sc n ⟨fun i => x' i - a1 i, a1⟩).dist.map
        fun o => (o.1.x1, seen .s1 o.2)).toOuterMeasure A + (n : ℝ≥0∞) / 2 ^ c.gap := by
  refine (interactive_view hni hC sc n x x' a1 A).trans ?_
  refine add_le_add_right ?_ _
  have hsum : (∑ i, (x i - x' i).natAbs) * 2 ^ c.gap ≤ n * 2 ^ c.maskBits := by
    rw [Finset.sum_mul]
    calc _ ≤ ∑ _i : Fin n, 2 ^ c.maskBits :=
          Finset.sum_le_sum fun i _ => interactive_gap c (x i) (x' i) (hx i) (hx' i)
      _ = _ := by simp
  rw [ENNReal.div_le_iff (by positivity) (by simp), ENNReal.div_eq_inv_mul, mul_assoc,
    ← ENNReal.div_eq_inv_mul, ENNReal.le_div_iff_mul_le (by simp) (by simp)]
  exact_mod_cast hsum

/-- **C55.** Server 0 receives nothing, and its new share depends on its old share and its own mask
only. -/
theorem interactive_view_s0 {b : Backend} {c : Config} {C : Cfg (Vec F)} [NeZero F.modulus]
    (hni : c.noninteractive = false) (hC : pondCfg F b c = some C) (sc : Bool) (n : ℕ)
    (p q : Priv (Vec F n)) (h0 : p.x0 = q.x0) :
    (C.truncPriv sc n p).dist.map (fun o => (o.1.x0, seen .s0 o.2)) =
      (C.truncPriv sc n q).dist.map (fun o => (o.1.x0, seen .s0 o.2)) ∧
    (C.truncPriv sc n p).All fun o => seen .s0 o.2 = [] := by
  unfold pondCfg at hC
  cases ht : tensorTruncate F b c.base c.pFrac with
  | none => rw [ht] at hC; cases hC
  | some tr =>
    rw [ht] at hC
    simp only [hni, Bool.false_eq_true, if_false] at hC
    cases hi : Helpers.inverse c.scale F.modulus with
    | none => rw [hi] at hC; cases hC
    | some inv =>
      rw [hi] at hC
      simp only at hC
      split at hC
      · cases hC
        constructor
        · refine Coupled.dist_map_eq (R := fun o o' => o.1.x0 = o'.1.x0 ∧ seen .s0 o.2 = seen .s0 o'.2)
            ?_ _ _ (fun a b h => Prod.ext h.1 h.2)
          refine Coupled.bind (Coupled.refl _) ?_
          rintro r _ rfl
          refine .pure ⟨?_, rfl⟩
          funext i
          simp only [truncInteractive, h0]
        · rw [all_bind]
          exact All.trivial (fun r => rfl) _
      · cases hC

/-- The theorems above are about a configuration of the library: `fixed64` over 64-bit integers. -/
example : fixed64.noninteractive = false ∧ (∃ C, pondCfg (native 64) .native fixed64 = some C) ∧
    fixed64.gap = 20 := by
  refine ⟨rfl, ?_, rfl⟩
  exact library_fixed.1

end Verif.Pond
