import Verif.Pond.Approx

/-!
# Rounding errors of straight-line fixed-point code

Every register gets an interval for its exact value and a bound on the distance of the stored value from it. `Code.check`
verifies such an annotation line by line; `check_sound` says that it is then right for every sharing, triple and mask.
-/

namespace Verif.Pond

open Verif.Fixed RandM

/-! ## Truncation of large positive values -/

/-- As `TruncRel`, for values up to `H`. -/
def TruncTo (F : Factory) (c : Config) (H : ℤ) (sc : Bool) (n : ℕ) (x z : Vec F n) : Prop :=
  ∀ i (v : ℤ), x i = (v : ZMod F.modulus) → -(rotation c sc : ℤ) ≤ v → v < H →
    ∃ e : ℤ, (e = 0 ∨ e = 1) ∧ z i = ((v / c.scale + e : ℤ) : ZMod F.modulus)

/-- A mask can be added to values up to `H` without leaving the ring. -/
def Room (F : Factory) (c : Config) (H : ℤ) : Prop :=
  F.lo ≤ -(c.boundDouble : ℤ) ∧ 0 ≤ H ∧ H + c.boundDouble + 2 ^ c.maskBits ≤ F.lo + F.modulus

/-- `interactive_truncation` for values whose masked form stays in the ring. -/
theorem interactive_truncation_to {F : Factory} {c : Config} (hb : 0 < c.base) (hF : 0 < F.modulus) {H : ℤ}
    (hroom : Room F c H) {inv : ℤ} (hinv : Helpers.inverse c.scale F.modulus = some inv)
    (sc : Bool) (a : Priv (ZMod F.modulus)) (x : ℤ) (hx : a.x0 + a.x1 = (x : ZMod F.modulus))
    (h0 : -(rotation c sc : ℤ) ≤ x) (h1 : x < H) (r : ℕ) (hr : r < 2 ^ c.maskBits) :
    let d := truncInteractive F c sc inv a r
    ∃ e : ℤ, (e = 0 ∨ e = 1) ∧ d.x0 + d.x1 = ((x / c.scale + e : ℤ) : ZMod F.modulus) := by
  obtain ⟨r1, r2, r3⟩ := hroom
  have hs : 0 < c.scale := Nat.pow_pos hb
  have hle' : (rotation c sc : ℤ) ≤ c.boundDouble := by exact_mod_cast rotation_le c sc
  have hr' : (r : ℤ) < 2 ^ c.maskBits := by exact_mod_cast hr
  have hr0 : (0 : ℤ) ≤ r := by positivity
  have hB : (0 : ℤ) ≤ c.boundDouble := by positivity
  have e1 : F.rep (r : ZMod F.modulus) = r := by
    have := F.rep_cast (r : ℤ) (by linarith) (by linarith)
    simpa using this
  have e2 : F.rep (maskedShare F c sc a.x0 r + a.x1) = x + rotation c sc + r := by
    have : maskedShare F c sc a.x0 r + a.x1 = ((x + rotation c sc + r : ℤ) : ZMod F.modulus) := by
      unfold maskedShare
      push_cast
      rw [← hx]; ring
    rw [this]
    exact F.rep_cast _ (by linarith) (by linarith)
  obtain ⟨e, he, -, hlow⟩ := lower_part x (rotation c sc) c.scale r (by exact_mod_cast hs)
    (by exact_mod_cast scale_dvd_rotation c hb sc)
  refine ⟨e, he, ?_⟩
  have hi := inverse_spec hF hinv
  simp only [truncInteractive, e1, e2]
  have hz : (a.x0 + a.x1) - ((((x + rotation c sc + r) % c.scale : ℤ) : ZMod F.modulus)
      - (((r : ℤ) % c.scale : ℤ) : ZMod F.modulus))
      = (c.scale : ZMod F.modulus) * ((x / c.scale + e : ℤ) : ZMod F.modulus) := by
    rw [hx, ← Int.cast_sub, ← Int.cast_sub, hlow]
    push_cast; ring
  calc _ = ((a.x0 + a.x1) - ((((x + rotation c sc + r) % c.scale : ℤ) : ZMod F.modulus)
      - (((r : ℤ) % c.scale : ℤ) : ZMod F.modulus))) * (inv : ZMod F.modulus) := by ring
    _ = _ := by rw [hz, mul_comm (c.scale : ZMod F.modulus), mul_assoc, hi, mul_one]

theorem pondCfg_sound_to {F : Factory} {b : Backend} {c : Config} {C : Cfg (Vec F)}
    (hb : 0 < c.base) (hF : 0 < F.modulus) (hni : c.noninteractive = false) {H : ℤ} (hroom : Room F c H)
    (hC : pondCfg F b c = some C) : C.Sound (TruncTo F c H) := by
  unfold pondCfg at hC
  cases ht : tensorTruncate F b c.base c.pFrac with
  | none => rw [ht] at hC; cases hC
  | some tr =>
    rw [ht] at hC
    simp only [hni] at hC
    cases hi : Helpers.inverse c.scale F.modulus with
    | none => rw [hi] at hC; simp at hC
    | some inv =>
      rw [hi] at hC
      by_cases hm : F.boundedOk c.maskBits = true
      · simp only [hm, if_true, Option.some.injEq] at hC
        cases hC
        constructor
        · intro sc n x i v hv h0 h1
          have hle : (rotation c sc : ℤ) ≤ c.boundDouble := by exact_mod_cast rotation_le c sc
          obtain ⟨r1, r2, r3⟩ := hroom
          have hB : (0 : ℤ) ≤ c.boundDouble := by positivity
          have hm : (0 : ℤ) ≤ 2 ^ c.maskBits := by positivity
          refine ⟨0, Or.inl rfl, ?_⟩
          show tr (x i) = _
          rw [tensorTruncate_eq hF ht, hv, F.rep_cast v (by linarith) (by linarith)]
          simp [Config.scale]
        · intro sc n p
          show ((drawMasks c.maskBits n).bind _).All _
          rw [all_bind]
          refine All.mono ?_ (drawMasks_lt c.maskBits n)
          intro r hr i v hv h0 h1
          exact interactive_truncation_to hb hF hroom hi sc ⟨p.x0 i, p.x1 i⟩ v hv h0 h1 (r i) (hr i)
      · simp [hm] at hC

/-! ## Exact values and annotations -/

/-- A new last entry. -/
def ext {α : Type} {m : ℕ} (f : Fin m → α) (a : α) : Fin (m + 1) → α :=
  fun i => if h : i.1 < m then f ⟨i.1, h⟩ else a

/-- The exact value of a line, with constants as they are encoded. -/
def Ins.exact (c : Config) {m : ℕ} (f : Fin m → ℚ) : Ins m → ℚ
  | .num q => (encode c true q : ℚ) / c.scale
  | .square i => f i * f i
  | .mul i j => f i * f j
  | .add i j => f i + f j

/-- The exact value of the code. -/
def Code.exact (c : Config) : {m : ℕ} → Code m → (Fin m → ℚ) → ℚ
  | m + 1, .ret, f => f (Fin.last m)
  | _, .line o k, f => k.exact c (ext f (o.exact c f))

/-- An interval and an error bound; a negative bound says nothing. -/
structure Ann where
  lo : ℚ
  hi : ℚ
  err : ℚ

/-- The annotation is right for exact value `q` and stored value `v`. -/
def Ann.Holds (F : Factory) (c : Config) (a : Ann) (q : ℚ) (v : ZMod F.modulus) : Prop :=
  0 ≤ a.err → a.lo ≤ q ∧ q ≤ a.hi ∧ ∃ e : ℤ, v = (e : ZMod F.modulus) ∧ |(e : ℚ) / c.scale - q| ≤ a.err

/-- A bound of the absolute value. -/
def Ann.size (a : Ann) : ℚ := max |a.lo| |a.hi|

/-- `[a, b] · [x, y] ⊆ [l, h]`. -/
def within (a b x y l h : ℚ) : Bool :=
  decide (l ≤ a * x ∧ l ≤ a * y ∧ l ≤ b * x ∧ l ≤ b * y ∧ a * x ≤ h ∧ a * y ≤ h ∧ b * x ≤ h ∧ b * y ≤ h)

/-- Verify the annotation `r` of a product of `a` and `b`; the unscaled stored product must lie between `-low` and
`top`. Nothing need be known about a factor of zero. -/
def checkMul (u low top : ℚ) (a b r : Ann) : Bool :=
  decide (r.err < 0) ||
  decide (b.lo = 0 ∧ b.hi = 0 ∧ b.err = 0 ∧ r.lo ≤ 0 ∧ 0 ≤ r.hi ∧ u ≤ r.err ∧ 0 ≤ low ∧ 0 < top) ||
  within a.lo a.hi b.lo b.hi r.lo r.hi &&
  within (a.lo - a.err) (a.hi + a.err) (b.lo - b.err) (b.hi + b.err) (-low) top &&
  decide (0 ≤ a.err ∧ 0 ≤ b.err ∧ a.err * b.size + (a.size + a.err) * b.err + u ≤ r.err)

/-- The annotation of register `i`. -/
def ann (L : List Ann) (i : ℕ) : Ann := L.getD i ⟨0, 0, 0⟩

/-- Verify the annotation of a line. -/
def Ins.check (c : Config) (top : ℚ) (L : List Ann) {m : ℕ} (r : Ann) : Ins m → Bool
  | .num q => decide (r.lo ≤ (encode c true q : ℚ) / c.scale ∧ (encode c true q : ℚ) / c.scale ≤ r.hi ∧ 0 ≤ r.err)
  | .square i => checkMul (1 / c.scale) (c.base ^ c.pInt) top (ann L i) (ann L i) r
  | .mul i j => checkMul (1 / c.scale) (c.base ^ c.pInt) top (ann L i) (ann L j) r
  | .add i j => decide (0 ≤ (ann L i).err ∧ 0 ≤ (ann L j).err ∧ r.lo ≤ (ann L i).lo + (ann L j).lo ∧
      (ann L i).hi + (ann L j).hi ≤ r.hi ∧ (ann L i).err + (ann L j).err ≤ r.err)

/-- Verify the annotations of all lines. -/
def Code.check (c : Config) (top : ℚ) (L : List Ann) : {m : ℕ} → Code m → Bool
  | _, .ret => true
  | m, .line o k => o.check c top L (ann L m) && k.check c top L

/-- The number of the last register. -/
def Code.last : {m : ℕ} → Code m → ℕ
  | m + 1, .ret => m
  | _, .line _ k => k.last

/-! ## Soundness -/

theorem within_sound {a b x y l h : ℚ} (hw : within a b x y l h = true) {p q : ℚ} (h1 : a ≤ p) (h2 : p ≤ b)
    (h3 : x ≤ q) (h4 : q ≤ y) : l ≤ p * q ∧ p * q ≤ h := by
  simp only [within, decide_eq_true_eq] at hw
  obtain ⟨w1, w2, w3, w4, w5, w6, w7, w8⟩ := hw
  rcases le_total 0 q with hq | hq
  · have e1 : a * q ≤ p * q := mul_le_mul_of_nonneg_right h1 hq
    have e2 : p * q ≤ b * q := mul_le_mul_of_nonneg_right h2 hq
    constructor
    · rcases le_total 0 a with ha | ha
      · exact w1.trans ((mul_le_mul_of_nonneg_left h3 ha).trans e1)
      · exact w2.trans ((mul_le_mul_of_nonpos_left h4 ha).trans e1)
    · rcases le_total 0 b with hb | hb
      · exact e2.trans ((mul_le_mul_of_nonneg_left h4 hb).trans w8)
      · exact e2.trans ((mul_le_mul_of_nonpos_left h3 hb).trans w7)
  · have e1 : b * q ≤ p * q := mul_le_mul_of_nonpos_right h2 hq
    have e2 : p * q ≤ a * q := mul_le_mul_of_nonpos_right h1 hq
    constructor
    · rcases le_total 0 b with hb | hb
      · exact w3.trans ((mul_le_mul_of_nonneg_left h3 hb).trans e1)
      · exact w4.trans ((mul_le_mul_of_nonpos_left h4 hb).trans e1)
    · rcases le_total 0 a with ha | ha
      · exact e2.trans ((mul_le_mul_of_nonneg_left h4 ha).trans w6)
      · exact e2.trans ((mul_le_mul_of_nonpos_left h3 ha).trans w5)

theorem abs_le_size {a : Ann} {q : ℚ} (h1 : a.lo ≤ q) (h2 : q ≤ a.hi) : |q| ≤ a.size := by
  unfold Ann.size
  rw [abs_le]
  constructor
  · have := neg_abs_le a.lo
    have h3 := le_max_left |a.lo| |a.hi|
    linarith
  · have := le_abs_self a.hi
    have h3 := le_max_right |a.lo| |a.hi|
    linarith

/-- A product after truncation. -/
theorem mul_holds {F : Factory} {c : Config} (hb : 0 < c.base) {top : ℕ} {a b r : Ann}
    (hck : checkMul (1 / c.scale) (c.base ^ c.pInt) ((top : ℕ) - 1 / 2) a b r = true) {p q : ℚ} {n : ℕ} {i : Fin n}
    {x y z : Vec F n} (ha : a.Holds F c p (x i)) (hb' : b.Holds F c q (y i))
    (hz : TruncTo F c (top * c.scale * c.scale) true n (x * y) z) : r.Holds F c (p * q) (z i) := by
  intro hr0
  simp only [checkMul, Bool.and_eq_true, Bool.or_eq_true, decide_eq_true_eq] at hck
  have hs : (0 : ℚ) < c.scale := by unfold Config.scale; positivity
  have hsz : (0 : ℤ) < c.scale := by exact_mod_cast hs
  rcases hck with (hck | ⟨z1, z2, z3, z4, z5, z6, z7, z8⟩) | ⟨⟨c1, c2⟩, c3, c4, c5⟩
  · exact absurd hck (not_lt.2 hr0)
  · obtain ⟨b1, b2, d, hy, be⟩ := hb' (le_of_eq z3.symm)
    have hq : q = 0 := by linarith
    have hd : d = 0 := by
      have h1 : (d : ℚ) / c.scale = 0 := by
        rw [hq, z3, sub_zero] at be
        exact abs_eq_zero.1 (le_antisymm be (abs_nonneg _))
      have h2 : (d : ℚ) = 0 := by
        rcases div_eq_zero_iff.1 h1 with h | h
        · exact h
        · exact absurd h hs.ne'
      exact_mod_cast h2
    have ht : 0 < top := by
      rcases Nat.eq_zero_or_pos top with h | h
      · rw [h] at z8; norm_num at z8
      · exact h
    obtain ⟨t, ht', hzi⟩ := hz i 0 (by rw [Pi.mul_apply, hy, hd]; simp) (by simp)
      (by have : (0 : ℤ) < top := by exact_mod_cast ht
          positivity)
    rw [hq, mul_zero]
    refine ⟨z4, z5, _, hzi, ?_⟩
    refine le_trans ?_ z6
    rw [Int.zero_ediv, zero_add, sub_zero, abs_div, abs_of_pos hs]
    refine div_le_div_of_nonneg_right ?_ hs.le
    rcases ht' with rfl | rfl <;> simp
  obtain ⟨a1, a2, e, hx, ae⟩ := ha c3
  obtain ⟨b1, b2, d, hy, be⟩ := hb' c4
  obtain ⟨m1, m2⟩ := within_sound c1 a1 a2 b1 b2
  have hA := abs_le.1 ae
  have hB := abs_le.1 be
  obtain ⟨n1, n2⟩ := within_sound c2 (p := (e : ℚ) / c.scale) (q := (d : ℚ) / c.scale)
    (by linarith) (by linarith) (by linarith) (by linarith)
  have hprod : (e : ℚ) / c.scale * (d / c.scale) = e * d / (c.scale * c.scale) := by field_simp
  rw [hprod] at n1 n2
  have hss : (0 : ℚ) < (c.scale : ℚ) * c.scale := by positivity
  rw [le_div_iff₀ hss] at n1
  rw [div_le_iff₀ hss] at n2
  have hdd : (c.boundDouble : ℚ) = (c.base : ℚ) ^ c.pInt * (c.scale * c.scale) := by
    unfold Config.scale Config.boundDouble; push_cast; ring
  have l1 : -(rotation c true : ℤ) ≤ e * d := by
    have : -(c.boundDouble : ℚ) ≤ e * d := by rw [hdd]; linarith
    simp only [rotation, if_true]
    exact_mod_cast this
  have l2 : e * d < top * c.scale * c.scale := by
    have : (e : ℚ) * d < top * c.scale * c.scale := by
      refine lt_of_le_of_lt n2 ?_
      nlinarith
    exact_mod_cast this
  obtain ⟨t, ht, hzi⟩ := hz i (e * d) (by rw [Pi.mul_apply, hx, hy]; push_cast; rfl) l1 l2
  refine ⟨m1, m2, _, hzi, ?_⟩
  have hdiv := Int.mul_ediv_add_emod (e * d) c.scale
  have hm0 := Int.emod_nonneg (e * d) hsz.ne'
  have hm1 := Int.emod_lt_of_pos (e * d) hsz
  have hfl : |((e * d / c.scale + t : ℤ) : ℚ) * c.scale - e * d| ≤ c.scale := by
    have : |(e * d / c.scale + t) * c.scale - e * d| ≤ (c.scale : ℤ) := by
      rw [abs_le]; rcases ht with rfl | rfl <;> constructor <;> nlinarith
    exact_mod_cast this
  have hr : |((e * d / c.scale + t : ℤ) : ℚ) / c.scale - (e : ℚ) / c.scale * (d / c.scale)| ≤ 1 / c.scale := by
    have e1 : ((e * d / c.scale + t : ℤ) : ℚ) / c.scale - (e : ℚ) / c.scale * (d / c.scale) =
        (((e * d / c.scale + t : ℤ) : ℚ) * c.scale - e * d) / (c.scale * c.scale) := by field_simp
    rw [e1, abs_div, abs_of_pos hss, div_le_div_iff₀ hss hs]
    nlinarith
  have hq := abs_le_size b1 b2
  have hp := abs_le_size a1 a2
  have hpe : |(e : ℚ) / c.scale| ≤ a.size + a.err := by
    calc |(e : ℚ) / c.scale| = |p + ((e : ℚ) / c.scale - p)| := by rw [add_sub_cancel]
      _ ≤ _ := (abs_add_le _ _).trans (add_le_add hp ae)
  have hab : |(e : ℚ) / c.scale * (d / c.scale) - p * q| ≤ a.err * b.size + (a.size + a.err) * b.err := by
    have : (e : ℚ) / c.scale * (d / c.scale) - p * q =
        ((e : ℚ) / c.scale - p) * q + (e : ℚ) / c.scale * ((d : ℚ) / c.scale - q) := by ring
    rw [this]
    refine (abs_add_le _ _).trans ?_
    rw [abs_mul, abs_mul]
    refine add_le_add (mul_le_mul ae hq (abs_nonneg _) c3) (mul_le_mul hpe be (abs_nonneg _) ?_)
    exact (abs_nonneg _).trans hpe
  calc |((e * d / c.scale + t : ℤ) : ℚ) / c.scale - p * q|
      = |(((e * d / c.scale + t : ℤ) : ℚ) / c.scale - (e : ℚ) / c.scale * (d / c.scale)) +
          ((e : ℚ) / c.scale * (d / c.scale) - p * q)| := by rw [sub_add_sub_cancel]
    _ ≤ _ := abs_add_le _ _
    _ ≤ _ := by linarith

theorem reg_old (n m : ℕ) (i : Fin (m + 1)) (h : i.1 < m) : reg n (m + 1) i = .there (reg n m ⟨i.1, h⟩) := by
  rw [reg, dif_pos h]

theorem reg_new (n m : ℕ) (i : Fin (m + 1)) (h : ¬ i.1 < m) : reg n (m + 1) i = .here := by
  rw [reg, dif_neg h]

/-- All registers are scaled and their annotations hold, element by element. -/
def Inv (F : Factory) (c : Config) (L : List Ann) {n m : ℕ} (E : Env (fun s => Vec F s × Bool) (List.replicate m n))
    (f : Fin n → Fin m → ℚ) : Prop :=
  ∀ i : Fin m, (E.get (reg n m i)).2 = true ∧ ∀ j, (ann L i).Holds F c (f j i) ((E.get (reg n m i)).1 j)

theorem line_sound {F : Factory} {c : Config} (hb : 0 < c.base) {top : ℕ} {L : List Ann} {n m : ℕ} (o : Ins m) {r : Ann}
    (hck : o.check c ((top : ℕ) - 1 / 2) L r = true) {E : Env (fun s => Vec F s × Bool) (List.replicate m n)}
    {f : Fin n → Fin m → ℚ} (hI : Inv F c L E f) {v : Vec F n × Bool} {inp : Unit → Vec F n}
    (hv : (o.op F c n).Clear (TruncTo F c (top * c.scale * c.scale)) inp E v) :
    v.2 = true ∧ ∀ j, r.Holds F c (o.exact c (f j)) (v.1 j) := by
  cases o with
  | num q =>
    simp only [Ins.op, Op.Clear] at hv
    simp only [Ins.check, decide_eq_true_eq] at hck
    subst hv
    refine ⟨rfl, fun j _ => ⟨hck.1, hck.2.1, _, rfl, ?_⟩⟩
    show |(encode c true q : ℚ) / c.scale - (encode c true q : ℚ) / c.scale| ≤ _
    rw [sub_self, abs_zero]
    exact hck.2.2
  | square i =>
    simp only [Ins.op, Op.Clear, (hI i).1, if_true] at hv
    exact ⟨hv.1, fun j => mul_holds hb hck ((hI i).2 j) ((hI i).2 j) hv.2⟩
  | mul i k =>
    simp only [Ins.op, Op.Clear, (hI i).1, (hI k).1, and_self, if_true, Bool.or_self] at hv
    exact ⟨hv.1, fun j => mul_holds hb hck ((hI i).2 j) ((hI k).2 j) hv.2⟩
  | add i k =>
    simp only [Ins.op, Op.Clear, (hI i).1] at hv
    simp only [Ins.check, decide_eq_true_eq] at hck
    subst hv
    obtain ⟨k1, k2, hck⟩ := hck
    refine ⟨rfl, fun j _ => ?_⟩
    obtain ⟨a1, a2, e, hx, ae⟩ := (hI i).2 j k1
    obtain ⟨b1, b2, d, hy, be⟩ := (hI k).2 j k2
    refine ⟨hck.1.trans (add_le_add a1 b1), (add_le_add a2 b2).trans hck.2.1, e + d, ?_, ?_⟩
    · show (E.get (reg n m i)).1 j + (E.get (reg n m k)).1 j = _
      rw [hx, hy]; push_cast; rfl
    · show |((e + d : ℤ) : ℚ) / c.scale - (f j i + f j k)| ≤ _
      refine le_trans ?_ hck.2.2
      rw [show ((e + d : ℤ) : ℚ) / c.scale - (f j i + f j k) =
        ((e : ℚ) / c.scale - f j i) + ((d : ℚ) / c.scale - f j k) by push_cast; ring]
      exact (abs_add_le _ _).trans (add_le_add ae be)

/-- **Soundness of the annotations**, for everything the cleartext program with rescaling may return. -/
theorem code_sound {F : Factory} {c : Config} (hb : 0 < c.base) {top : ℕ} {L : List Ann} {n m : ℕ} (k : Code m) :
    k.check c ((top : ℕ) - 1 / 2) L = true → ∀ {E : Env (fun s => Vec F s × Bool) (List.replicate m n)}
    {f : Fin n → Fin m → ℚ}, Inv F c L E f → ∀ {v : Vec F n × Bool} {inp : Unit → Vec F n},
    (k.prog F c n).Clear (TruncTo F c (top * c.scale * c.scale)) inp E v →
    v.2 = true ∧ ∀ j, (ann L k.last).Holds F c (k.exact c (f j)) (v.1 j) := by
  induction k with
  | @ret m =>
    intro _ E f hI v inp hv
    simp only [Code.prog, Prog.Clear] at hv
    subst hv
    exact hI (Fin.last m)
  | @line m o k ih =>
    intro hck E f hI v inp hv
    simp only [Code.check, Bool.and_eq_true] at hck
    simp only [Code.prog, Prog.Clear] at hv
    obtain ⟨w, hw, hv⟩ := hv
    obtain ⟨w2, w1⟩ := line_sound hb o hck.1 hI hw
    rw [Code.last]
    simp only [Code.exact]
    refine ih hck.2 (E := .cons w E) (f := fun j => ext (f j) (o.exact c (f j))) ?_ hv
    intro i
    by_cases h : i.1 < m
    · rw [reg_old n m i h]
      refine ⟨(hI ⟨i.1, h⟩).1, fun j => ?_⟩
      have := (hI ⟨i.1, h⟩).2 j
      simp only [ext, dif_pos h]
      exact this
    · rw [reg_new n m i h]
      refine ⟨w2, fun j => ?_⟩
      have := w1 j
      have e : i.1 = m := by have := i.2; omega
      have e2 : ext (f j) (o.exact c (f j)) i = o.exact c (f j) := dif_neg h
      show (ann L i.1).Holds F c (ext (f j) (o.exact c (f j)) i) (w.1 j)
      rw [e2, e]
      exact this

/-- **Straight-line code over a private tensor**: if the code is not refused and the annotations check, the result, for every
share, triple, mask and draw, is a scaled tensor whose elements are as annotated. -/
theorem code_run {F : Factory} {b : Backend} {c : Config} {C : Cfg (Vec F)}
    (hb : 0 < c.base) (hF : 0 < F.modulus) (hni : c.noninteractive = false) {top : ℕ}
    (hroom : Room F c (top * c.scale * c.scale)) (hC : pondCfg F b c = some C) {L : List Ann} {n : ℕ} {k : Code 1}
    (hck : k.check c ((top : ℕ) - 1 / 2) L = true) (hk : (k.start F c n).ty .nil = .ok (.priv, true))
    (x : Fin n → ℤ) (hx : ∀ j, (ann L 0).lo ≤ (x j : ℚ) / c.scale ∧ (x j : ℚ) / c.scale ≤ (ann L 0).hi)
    (h0 : 0 ≤ (ann L 0).err) :
    ((k.start F c n).start C fun _ j => (x j : ZMod F.modulus)).All fun r => ∃ p tr,
      r = .ok (⟨.plain (.priv p), true⟩, tr) ∧
      ∀ j, (ann L k.last).Holds F c (k.exact c fun _ => (x j : ℚ) / c.scale) (p.x0 j + p.x1 j) := by
  have hS := pondCfg_sound_to hb hF hni hroom hC
  have H1 := program_refines C hS (fun _ j => (x j : ZMod F.modulus)) (k.start F c n)
  have H2 := program_flags C (fun _ j => (x j : ZMod F.modulus)) (k.start F c n)
  refine All.mono ?_ (All.and H1 H2)
  rintro (e | ⟨v, tr⟩) ⟨h1, h2⟩
  · rw [hk] at h2; cases h2
  rw [hk] at h2
  have h2' : (.ok (.priv, true) : Except Err _) = .ok (v.body.kind, v.sc) := h2
  simp only [Except.ok.injEq, Prod.mk.injEq] at h2'
  obtain ⟨body, sc⟩ := v
  obtain ⟨hk', rfl⟩ := h2'
  obtain ⟨z, hz, hr⟩ := h1 _ _ rfl
  match body, hk', hr with
  | .plain (.priv p), _, hr =>
    refine ⟨p, tr, rfl, ?_⟩
    obtain ⟨w, rfl, hz⟩ := hz
    have hr' : p.x0 + p.x1 = z := hr
    refine fun j => ?_
    rw [← Pi.add_apply, hr']
    refine (code_sound hb k hck (f := fun j _ => (x j : ℚ) / c.scale) ?_ hz).2 j
    intro i
    have : i = 0 := Subsingleton.elim _ _
    subst this
    refine ⟨rfl, fun j _ => ⟨(hx j).1, (hx j).2, x j, rfl, ?_⟩⟩
    rw [sub_self, abs_zero]
    exact h0

end Verif.Pond
