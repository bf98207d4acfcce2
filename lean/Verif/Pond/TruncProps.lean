import Verif.Pond.TruncLemmas
import Verif.Pond.Props
import Verif.Fixed.Props
import Verif.Core.Arith
import Mathlib.Data.Int.Interval

/-!
# C10, C11 and C14 (Pond part): truncation
-/

namespace Verif.Pond

open Verif.Fixed RandM

/-! ## C10 -/

/-- **C10.** Interactive truncation of a sharing of the integer `x` gives a sharing of
`⌊x / scale⌋` or `⌊x / scale⌋ + 1`, for every split into shares and every mask; it is the larger
one exactly when the low parts of value and mask carry. `TruncReady` is what C09 is about. -/
theorem interactive_truncation {F : Factory} {c : Config} (hb : 0 < c.base) (hF : 0 < F.modulus)
    (hready : TruncReady F c) {inv : ℤ} (hinv : Helpers.inverse c.scale F.modulus = some inv)
    (sc : Bool) (a : Priv (ZMod F.modulus)) (x : ℤ) (hx : a.x0 + a.x1 = (x : ZMod F.modulus))
    (h0 : -(rotation c sc : ℤ) ≤ x) (h1 : x < rotation c sc) (r : ℕ) (hr : r < 2 ^ c.maskBits) :
    let d := truncInteractive F c sc inv a r
    ∃ e : ℤ, (e = 0 ∨ e = 1) ∧ (e = 1 ↔ (c.scale : ℤ) ≤ x % c.scale + (r : ℤ) % c.scale) ∧
      d.x0 + d.x1 = ((x / c.scale + e : ℤ) : ZMod F.modulus) := by
  have hs : 0 < c.scale := Nat.pow_pos hb
  have hle : rotation c sc ≤ c.boundDouble := by
    unfold rotation; split
    · exact le_refl _
    · exact Nat.div_le_self _ _
  have hle' : (rotation c sc : ℤ) ≤ c.boundDouble := by exact_mod_cast hle
  have hr' : (r : ℤ) < 2 ^ c.maskBits := by exact_mod_cast hr
  have hr0 : (0 : ℤ) ≤ r := by positivity
  have hBpos : (0 : ℤ) < c.boundDouble := by
    have : 0 < c.boundDouble := Nat.pow_pos hb
    exact_mod_cast this
  have room := hready.room x r (by linarith) (by linarith) hr0 hr'
  have room0 := hready.room (-c.boundDouble) r (by linarith) (by linarith) hr0 hr'
  have room00 := hready.room (-c.boundDouble) 0 (by linarith) (by linarith) (le_refl _) (by positivity)
  have e1 : F.rep (r : ZMod F.modulus) = r := by
    have := F.rep_cast (r : ℤ) (by linarith [room0.1]) (by linarith [room0.2])
    simpa using this
  have e2 : F.rep (maskedShare F c sc a.x0 r + a.x1) = x + rotation c sc + r := by
    have : maskedShare F c sc a.x0 r + a.x1 = ((x + rotation c sc + r : ℤ) : ZMod F.modulus) := by
      unfold maskedShare
      push_cast
      rw [← hx]; ring
    rw [this]
    exact F.rep_cast _ (by linarith [room00.1]) (by linarith [room.2])
  obtain ⟨e, he, hiff, hlow⟩ := lower_part x (rotation c sc) c.scale r (by exact_mod_cast hs)
    (by exact_mod_cast scale_dvd_rotation c hb sc)
  refine ⟨e, he, hiff, ?_⟩
  have hi := inverse_spec hF hinv
  simp only [truncInteractive, e1, e2]
  have hz : (a.x0 + a.x1) - ((((x + rotation c sc + r) % c.scale : ℤ) : ZMod F.modulus)
      - (((r : ℤ) % c.scale : ℤ) : ZMod F.modulus))
      = (c.scale : ZMod F.modulus) * ((x / c.scale + e : ℤ) : ZMod F.modulus) := by
    rw [hx, ← Int.cast_sub, ← Int.cast_sub, hlow]
    push_cast; ring
  calc _ = ((a.x0 + a.x1) - ((((x + rotation c sc + r) % c.scale : ℤ) : ZMod F.modulus)
      - (((r : ℤ) % c.scale : ℤ) : ZMod F.modulus))) * (inv : ZMod F.modulus) := by ring
    _ = _ := by rw [hz, mul_comm (c.scale : ZMod F.modulus), mul_assoc, hi, mul_one]

/-- The error of one unit does occur: with `fixed64` on int64, truncating `6560` (shares `6560` and
`0`) with mask `6560` gives a sharing of `1`, although `⌊6560 / 6561⌋ = 0`. -/
theorem interactive_truncation_not_floor (inv : ℤ)
    (hinv : Helpers.inverse fixed64.scale (native 64).modulus = some inv) :
    let d := truncInteractive (native 64) fixed64 true inv ⟨6560, 0⟩ 6560
    (6560 : ℕ) < 2 ^ fixed64.maskBits ∧ (6560 : ℤ) / fixed64.scale = 0 ∧
      d.x0 + d.x1 = (1 : ZMod (native 64).modulus) := by
  have c2 : Nat.clog 2 (3 ^ 23) = 37 := by
    apply le_antisymm
    · exact (Nat.clog_le_iff_le_pow (by norm_num)).mpr (by norm_num)
    · exact Nat.succ_le_of_lt ((Nat.lt_clog_iff_pow_lt (by norm_num)).mpr (by norm_num))
  have hs : fixed64.scale = 6561 := by norm_num [Config.scale, fixed64]
  have hr : rotation fixed64 true = 94143178827 := by
    norm_num [rotation, Config.boundDouble, fixed64]
  have hk : fixed64.maskBits = 58 := by
    simp only [Config.maskBits, Config.boundDouble, fixed64, Nat.reduceAdd, Nat.reduceMul, c2]
  have hlt : (6560 : ℕ) < 2 ^ fixed64.maskBits := by rw [hk]; norm_num
  refine ⟨hlt, by rw [hs]; norm_num, ?_⟩
  obtain ⟨e, he, hiff, hd⟩ := interactive_truncation (F := native 64) (c := fixed64)
    (by norm_num [fixed64]) (by norm_num [native]) library_configs.2.2.2.2.2.2.2 hinv true
    ⟨6560, 0⟩ 6560 (by simp) (by rw [hr]; norm_num) (by rw [hr]; norm_num) 6560 hlt
  have : e = 1 := hiff.mpr (by rw [hs]; norm_num)
  rw [hd, this, hs]
  norm_num

theorem inverse_isSome_of_coprime {s m : ℕ} (hm : 0 < m) (h : Nat.Coprime s m) :
    ∃ inv, Helpers.inverse s m = some inv := by
  have := (Helpers.inverse_correct_partial s m (by positivity) (by exact_mod_cast hm)).2
  cases hi : Helpers.inverse s m with
  | some inv => exact ⟨inv, rfl⟩
  | none =>
    exfalso
    have := this.mp hi
    apply this
    simpa [Int.gcd] using h

/-- Non-vacuity: `fixed64` on int64 and `fixed100` on int100 satisfy the hypotheses. -/
example : TruncReady (native 64) fixed64 ∧ (∃ inv, Helpers.inverse fixed64.scale (2 ^ 64 : ℕ) = some inv) ∧
    TruncReady (crt int100Modulus) fixed100 ∧
    (∃ inv, Helpers.inverse fixed100.scale int100Modulus = some inv) := by
  have h := library_configs
  refine ⟨h.2.2.2.2.2.2.2, inverse_isSome_of_coprime (by norm_num) ?_, h.2.2.2.2.2.2.1,
    inverse_isSome_of_coprime (by norm_num [int100Modulus]) ?_⟩
  · simp only [Config.scale, fixed64]; decide +kernel
  · simp only [Config.scale, fixed100, int100Modulus]; decide +kernel

/-- With an even base over a power-of-two ring (`fixed64_heuristic` under Pond) interactive
truncation cannot be built at all: `inverse` asserts. -/
theorem interactive_heuristic_raises : pondCfg (native 64) .native fixed64_heuristic = none := by
  have : Helpers.inverse fixed64_heuristic.scale (native 64).modulus = none := by
    rw [(Helpers.inverse_correct_partial _ _ (by positivity) (by norm_num [native])).2]
    simp only [Config.scale, fixed64_heuristic, native]
    decide +kernel
  unfold pondCfg
  cases h : tensorTruncate (native 64) .native fixed64_heuristic.base fixed64_heuristic.pFrac with
  | none => rfl
  | some tr =>
    simp only
    rw [this]
    simp [fixed64_heuristic]

/-! ## C11 -/

section C11
variable {F : Factory}

/-- The shares of `x` with first share `x0` do not wrap around: as native code negates the second
share, the integers that count are `rep x0` and `rep x0 - x`; for the CRT code they are `rep x0`
and `x - rep x0`. -/
def NoWrap (F : Factory) (b : Backend) (x : ℤ) (x0 : ZMod F.modulus) : Prop :=
  match b with
  | .native => F.lo ≤ F.rep x0 - x ∧ F.rep x0 - x < F.lo + F.modulus
  | .crt => F.lo ≤ x - F.rep x0 ∧ x - F.rep x0 < F.lo + F.modulus

/-- The result of truncating is within one unit of the floor. -/
def Close (F : Factory) (c : Config) (x : ℤ) (y : ZMod F.modulus) : Prop :=
  ∃ e : ℤ, (e = -1 ∨ e = 0 ∨ e = 1) ∧ y = ((x / c.scale + e : ℤ) : ZMod F.modulus)

/-- **C11**, shares that do not wrap: the result is `⌊x/scale⌋ + {0, 1}` for native tensors and
`⌊x/scale⌋ + {-1, 0}` for CRT tensors (whose `0 - x` is `x`). -/
theorem noninteractive_no_wrap {b : Backend} {c : Config} (hb : 0 < c.base) (hF : 0 < F.modulus)
    {f : Priv (ZMod F.modulus) → Priv (ZMod F.modulus)} (hf : truncNoninteractive F b c = some f)
    (x : ℤ) (x0 : ZMod F.modulus) (hw : NoWrap F b x x0) :
    let y := f ⟨x0, (x : ZMod F.modulus) - x0⟩
    ∃ e : ℤ, (e = 0 ∨ e = if b = .native then 1 else -1) ∧
      y.x0 + y.x1 = ((x / c.scale + e : ℤ) : ZMod F.modulus) := by
  have hs : (0 : ℤ) < c.scale := by
    have : 0 < c.scale := Nat.pow_pos hb
    exact_mod_cast this
  unfold truncNoninteractive at hf
  cases ht : tensorTruncate F b c.base c.pFrac with
  | none => rw [ht] at hf; simp at hf
  | some tr =>
    rw [ht] at hf
    simp only [Option.map_some, Option.some.injEq] at hf
    subst hf
    have htr := tensorTruncate_eq hF ht
    simp only [htr]
    rw [show ((c.base ^ c.pFrac : ℕ) : ℤ) = (c.scale : ℤ) from rfl]
    cases b with
    | native =>
      have : F.rep (rsubZero F .native ((x : ZMod F.modulus) - x0)) = F.rep x0 - x := by
        have e : rsubZero F .native ((x : ZMod F.modulus) - x0)
            = ((F.rep x0 - x : ℤ) : ZMod F.modulus) := by
          simp [rsubZero, F.cast_rep]
        rw [e]; exact F.rep_cast _ hw.1 hw.2
      rw [this]
      obtain ⟨e, he, h⟩ := floor_sub_floor (F.rep x0) (F.rep x0 - x) c.scale hs
      refine ⟨e, by simpa using he, ?_⟩
      rw [show F.rep x0 - (F.rep x0 - x) = x by ring] at h
      rw [← h]; simp only [rsubZero]; push_cast; ring
    | crt =>
      have : F.rep (rsubZero F .crt ((x : ZMod F.modulus) - x0)) = x - F.rep x0 := by
        have e : rsubZero F .crt ((x : ZMod F.modulus) - x0)
            = ((x - F.rep x0 : ℤ) : ZMod F.modulus) := by
          simp [rsubZero, F.cast_rep]
        rw [e]; exact F.rep_cast _ hw.1 hw.2
      rw [this]
      obtain ⟨e, he, h⟩ := floor_add_floor (F.rep x0) (x - F.rep x0) c.scale hs
      refine ⟨e, by simp; tauto, ?_⟩
      rw [show F.rep x0 + (x - F.rep x0) = x by ring] at h
      rw [← h]; simp only [rsubZero]; push_cast; ring

/-- Counting residues by their representatives. -/
theorem card_rep [NeZero F.modulus] (P : ℤ → Prop) [DecidablePred P] :
    Nat.card {x : ZMod F.modulus // P (F.rep x)}
      = ((Finset.Ico F.lo (F.lo + F.modulus)).filter P).card := by
  have hF : 0 < F.modulus := Nat.pos_of_ne_zero (NeZero.ne _)
  rw [Nat.card_eq_fintype_card, Fintype.card_subtype]
  apply Finset.card_bij (fun x _ => F.rep x)
  · intro x hx
    simp only [Finset.mem_filter, Finset.mem_univ, true_and, Finset.mem_Ico] at hx ⊢
    exact ⟨F.rep_mem hF x, hx⟩
  · intro x _ y _ h
    rw [← F.cast_rep x, ← F.cast_rep y, h]
  · intro v hv
    simp only [Finset.mem_filter, Finset.mem_Ico] at hv
    refine ⟨(v : ZMod F.modulus), ?_, F.rep_cast v hv.1.1 hv.1.2⟩
    simp only [Finset.mem_filter, Finset.mem_univ, true_and, F.rep_cast v hv.1.1 hv.1.2]
    exact hv.2

/-- **C11**, how rare wrapping is: exactly `|x|` of the `modulus` possible first shares wrap
(native tensors). -/
theorem wrap_count_native [NeZero F.modulus] (x : ℤ) (hx : |x| ≤ F.modulus) :
    Nat.card {x0 // ¬ NoWrap F .native x x0} = x.natAbs := by
  have h := card_rep (F := F) (fun v => ¬ (F.lo ≤ v - x ∧ v - x < F.lo + F.modulus))
  refine Eq.trans h ?_
  have hx' := abs_le.mp hx
  rcases le_total 0 x with h0 | h0
  · have : ((Finset.Ico F.lo (F.lo + F.modulus)).filter
        fun v => ¬ (F.lo ≤ v - x ∧ v - x < F.lo + F.modulus)) = Finset.Ico F.lo (F.lo + x) := by
      ext v; simp only [Finset.mem_filter, Finset.mem_Ico]; constructor <;> intro h <;> omega
    rw [this]; simp; omega
  · have : ((Finset.Ico F.lo (F.lo + F.modulus)).filter
        fun v => ¬ (F.lo ≤ v - x ∧ v - x < F.lo + F.modulus))
        = Finset.Ico (F.lo + F.modulus + x) (F.lo + F.modulus) := by
      ext v; simp only [Finset.mem_filter, Finset.mem_Ico]; constructor <;> intro h <;> omega
    rw [this]; simp; omega

/-- The same for the CRT code, whose window `[-(m/2), m/2]` is symmetric for odd `m`. -/
theorem wrap_count_crt (m : ℕ) [NeZero (crt m).modulus] (hodd : m % 2 = 1) (x : ℤ) (hx : |x| ≤ m) :
    Nat.card {x0 // ¬ NoWrap (crt m) .crt x x0} = x.natAbs := by
  have h := card_rep (F := crt m)
    (fun v => ¬ ((crt m).lo ≤ x - v ∧ x - v < (crt m).lo + (crt m).modulus))
  refine Eq.trans h ?_
  have e1 : (crt m).lo = -((m : ℤ) / 2) := rfl
  have e2 : (crt m).modulus = m := rfl
  have hx' := abs_le.mp hx
  rcases le_total 0 x with h0 | h0
  · have : ((Finset.Ico (crt m).lo ((crt m).lo + (crt m).modulus)).filter
        fun v => ¬ ((crt m).lo ≤ x - v ∧ x - v < (crt m).lo + (crt m).modulus))
        = Finset.Ico (-((m : ℤ) / 2)) (-((m : ℤ) / 2) + x) := by
      ext v; simp only [Finset.mem_filter, Finset.mem_Ico, e1, e2]; constructor <;> intro h <;> omega
    rw [this]; simp; omega
  · have : ((Finset.Ico (crt m).lo ((crt m).lo + (crt m).modulus)).filter
        fun v => ¬ ((crt m).lo ≤ x - v ∧ x - v < (crt m).lo + (crt m).modulus))
        = Finset.Ico (-((m : ℤ) / 2) + m + x) (-((m : ℤ) / 2) + m) := by
      ext v; simp only [Finset.mem_filter, Finset.mem_Ico, e1, e2]; constructor <;> intro h <;> omega
    rw [this]; simp; omega

/-- **C11.** Number of masks for which local truncation of `x` is *not* within one unit: at most
`|x|`, out of `modulus`. -/
theorem noninteractive_bad_masks [NeZero F.modulus] {b : Backend} {c : Config} (hb : 0 < c.base)
    {f : Priv (ZMod F.modulus) → Priv (ZMod F.modulus)} (hf : truncNoninteractive F b c = some f)
    (hbk : b = .native ∨ ∃ m, F = crt m ∧ m % 2 = 1) (x : ℤ) (hx : |x| ≤ F.modulus) :
    Nat.card {x0 : ZMod F.modulus // ¬ Close F c x
      ((f ⟨x0, (x : ZMod F.modulus) - x0⟩).x0 + (f ⟨x0, (x : ZMod F.modulus) - x0⟩).x1)}
      ≤ x.natAbs := by
  have hF : 0 < F.modulus := Nat.pos_of_ne_zero (NeZero.ne _)
  have hsub : ∀ x0 : ZMod F.modulus, ¬ Close F c x
      ((f ⟨x0, (x : ZMod F.modulus) - x0⟩).x0 + (f ⟨x0, (x : ZMod F.modulus) - x0⟩).x1) →
      ¬ NoWrap F b x x0 := by
    intro x0 h hw
    apply h
    obtain ⟨e, he, h'⟩ := noninteractive_no_wrap hb hF hf x x0 hw
    refine ⟨e, ?_, h'⟩
    split at he <;> tauto
  have hcard : Nat.card {x0 // ¬ NoWrap F b x x0} = x.natAbs := by
    cases b with
    | native => exact wrap_count_native x hx
    | crt =>
      rcases hbk with h | ⟨m, rfl, hm⟩
      · cases h
      · exact wrap_count_crt m hm x hx
  rw [← hcard]
  exact Nat.card_le_card_of_injective (fun z => (⟨z.1, hsub z.1 z.2⟩ : {x0 // ¬ NoWrap F b x x0}))
    (fun z w h => Subtype.ext (by simpa using h))

/-- **C11**, the bound is attained: on native tensors with base 2 *every* wrapping mask gives a
result that is off by more than one unit (it is off by `2^(w-f)`), so exactly `|x|` masks are
bad. -/
theorem noninteractive_wrap_is_bad (w : ℕ) (hmw : F.modulus = 2 ^ w) (c : Config)
    (hbase : c.base = 2) (hf0 : 1 ≤ c.pFrac)
    (hf1 : c.pFrac + 2 < w) {f : Priv (ZMod F.modulus) → Priv (ZMod F.modulus)}
    (hf : truncNoninteractive F .native c = some f) (x : ℤ) (hx : |x| ≤ F.modulus)
    (x0 : ZMod F.modulus) (hw : ¬ NoWrap F .native x x0) :
    ¬ Close F c x ((f ⟨x0, (x : ZMod F.modulus) - x0⟩).x0 +
      (f ⟨x0, (x : ZMod F.modulus) - x0⟩).x1) := by
  have hF : 0 < F.modulus := by rw [hmw]; positivity
  have hmod : (F.modulus : ℤ) = 2 ^ w := by rw [hmw]; simp
  have hsc : (c.scale : ℤ) = 2 ^ c.pFrac := by simp [Config.scale, hbase]
  obtain ⟨g, hg, rfl⟩ : ∃ g, 3 ≤ g ∧ w = c.pFrac + g := ⟨w - c.pFrac, by omega, by omega⟩
  have hx' := hx
  generalize hs_def : (2 : ℤ) ^ c.pFrac = s at *
  generalize ht_def : (2 : ℤ) ^ g = t at *
  have hs2 : 2 ≤ s := by
    calc (2 : ℤ) = 2 ^ 1 := by norm_num
      _ ≤ 2 ^ c.pFrac := pow_le_pow_right₀ (by norm_num) hf0
      _ = s := hs_def
  have ht8 : 8 ≤ t := by
    calc (8 : ℤ) = 2 ^ 3 := by norm_num
      _ ≤ 2 ^ g := pow_le_pow_right₀ (by norm_num) hg
      _ = t := ht_def
  have hm : (F.modulus : ℤ) = s * t := by rw [hmod, pow_add, hs_def, ht_def]
  unfold truncNoninteractive at hf
  cases ht : tensorTruncate F .native c.base c.pFrac with
  | none => rw [ht] at hf; simp at hf
  | some tr =>
    rw [ht] at hf
    simp only [Option.map_some, Option.some.injEq] at hf
    subst hf
    have htr := tensorTruncate_eq hF ht
    simp only [htr]
    rw [show ((c.base ^ c.pFrac : ℕ) : ℤ) = s by rw [hbase]; simp [← hs_def]]
    have e : rsubZero F .native ((x : ZMod F.modulus) - x0)
        = ((F.rep x0 - x : ℤ) : ZMod F.modulus) := by
      simp [rsubZero, F.cast_rep]
    obtain ⟨k, hk⟩ := F.rep_cast_eq (F.rep x0 - x)
    have hn := F.rep_mem hF ((F.rep x0 - x : ℤ) : ZMod F.modulus)
    have h0 := F.rep_mem hF x0
    rw [hk] at hn
    rw [e, hk]
    have hx2 := abs_le.mp hx'
    have hk1 : k = 1 ∨ k = -1 := by
      have hpos : (0 : ℤ) < F.modulus := by exact_mod_cast hF
      have h1 : k * F.modulus < 2 * F.modulus := by linarith [hn.2, h0.1, hx2.2]
      have h2 : (-2) * F.modulus < k * (F.modulus : ℤ) := by linarith [hn.1, h0.2, hx2.1]
      have h1' := lt_of_mul_lt_mul_right h1 hpos.le
      have h2' := lt_of_mul_lt_mul_right h2 hpos.le
      have h3 : k ≠ 0 := by
        rintro rfl
        apply hw
        simp only [NoWrap]
        simpa using hn
      omega
    have hdiv : (F.rep x0 - x + k * F.modulus) / s = (F.rep x0 - x) / s + k * t := by
      rw [hm, show F.rep x0 - x + k * (s * t) = F.rep x0 - x + s * (k * t) by ring,
        Int.add_mul_ediv_left _ _ (by linarith)]
    rw [hdiv]
    obtain ⟨ε, hε, hfl⟩ := floor_sub_floor (F.rep x0) (F.rep x0 - x) s (by linarith)
    rw [show F.rep x0 - (F.rep x0 - x) = x by ring] at hfl
    rintro ⟨e', he', heq⟩
    rw [hsc] at heq
    have : (((F.rep x0 / s : ℤ) : ZMod F.modulus) +
        rsubZero F .native ((((F.rep x0 - x) / s + k * t : ℤ)) : ZMod F.modulus))
        = ((x / s + ε - k * t : ℤ) : ZMod F.modulus) := by
      have : x / s + ε - k * t = F.rep x0 / s - ((F.rep x0 - x) / s + k * t) := by rw [← hfl]; ring
      rw [this]; simp only [rsubZero]; push_cast; ring
    rw [this, ZMod.intCast_eq_intCast_iff] at heq
    have hd := heq.symm.dvd
    have hst : 2 * t ≤ s * t := by nlinarith
    have := Int.eq_zero_of_abs_lt_dvd hd (by
      rw [hm, abs_lt]
      rcases hk1 with rfl | rfl <;> rcases hε with rfl | rfl <;> rcases he' with rfl | rfl | rfl <;>
        constructor <;> linarith)
    rcases hk1 with rfl | rfl <;> rcases hε with rfl | rfl <;> rcases he' with rfl | rfl | rfl <;>
      linarith

/-- Non-vacuity: the library's non-interactive configurations build, on their factories. -/
example : (∃ f, truncNoninteractive (native 64) .native fixed64_ni = some f) ∧
    (∃ f, truncNoninteractive (crt int100Modulus) .crt fixed100_ni = some f) := by
  constructor
  · exact ⟨_, rfl⟩
  · obtain ⟨inv, h⟩ := inverse_isSome_of_coprime (s := 2 ^ 16) (m := int100Modulus)
      (by norm_num [int100Modulus]) (by simp only [int100Modulus]; decide +kernel)
    have : tensorTruncate (crt int100Modulus) .crt fixed100_ni.base fixed100_ni.pFrac
        = some (divTrunc (crt int100Modulus) (2 ^ 16) inv) := by
      unfold tensorTruncate
      rw [if_neg (by simp)]
      have : Helpers.inverse ((fixed100_ni.base ^ fixed100_ni.pFrac : ℕ) : ℤ)
        ((crt int100Modulus).modulus : ℤ) = some inv := h
      rw [this]; rfl
    exact ⟨_, by unfold truncNoninteractive; rw [this]; rfl⟩

/-- The CRT truncation can be one below the floor, which a correct `0 - x` would exclude: shares
`1` and `-1` of zero, scale 2, modulus 15, truncate to `0` and `-1`. -/
theorem noninteractive_crt_below_floor :
    let F := crt 15
    let c : Config := ⟨2, 0, 1, 1, 1, 1, true⟩
    ∃ f, truncNoninteractive F .crt c = some f ∧
      (f ⟨(1 : ZMod 15), (-1 : ZMod 15)⟩).x0 + (f ⟨(1 : ZMod 15), (-1 : ZMod 15)⟩).x1
        = (-1 : ZMod 15) := by
  intro F c
  have h : Helpers.inverse 2 15 = some 8 := by
    rw [(Helpers.inverse_correct_partial 2 15 (by norm_num) (by norm_num)).1]
    refine ⟨by decide, by norm_num, by norm_num, by decide⟩
  have : tensorTruncate F .crt c.base c.pFrac = some (divTrunc F 2 8) := by
    unfold tensorTruncate
    rw [if_neg (by simp)]
    have : Helpers.inverse ((c.base ^ c.pFrac : ℕ) : ℤ) (F.modulus : ℤ) = some 8 := h
    rw [this]; rfl
  refine ⟨_, by unfold truncNoninteractive; rw [this]; rfl, ?_⟩
  have r1 : F.rep (1 : ZMod 15) = 1 := by decide +kernel
  have r2 : F.rep (-1 - 0 : ZMod 15) = -1 := by decide +kernel
  show ((1 : ZMod 15) - ((F.rep (1 : ZMod 15) % 2 : ℤ) : ZMod 15)) * ((8 : ℤ) : ZMod 15) +
    (((-1 - 0 : ZMod 15) - ((F.rep (-1 - 0 : ZMod 15) % 2 : ℤ) : ZMod 15)) * ((8 : ℤ) : ZMod 15) - 0)
    = (-1 : ZMod 15)
  rw [r1, r2]
  decide +kernel

end C11

end Verif.Pond
