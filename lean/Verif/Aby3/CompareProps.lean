import Verif.Aby3.CompareLemmas
import Verif.Aby3.CircuitProps
import Verif.Aby3.Props
import Verif.Aby3.Dist

/-!
# C25, C26, C28, C29: comparisons, equality, selection, maximum

For all tensors, sharings and draws, on words of `2^e ≥ 2` bits (8, 16, 32, 64, 128). `Stands c X`
says that the tensor `X` is public or private, scaled or not, as `c` says, and has the value of
`c`; `Holds v x` that `x` is a replicated sharing of `v`. Values are compared as signed integers.
-/

namespace Verif.Aby3

open Verif

variable {w n : ℕ}

/-- The difference of two words does not overflow. -/
def Comparable (x y : BitVec w) : Prop := Bits.Fits w (x.toInt - y.toInt)

/-- A bit from a proposition. -/
def bitIf (p : Prop) [Decidable p] : XBits 1 := ⟨if p then 1 else 0⟩

theorem bitIf_one {p : Prop} [Decidable p] : (bitIf p).bits = 1#1 ↔ p := by
  unfold bitIf
  by_cases h : p <;> simp [h]

theorem ofBool_bitIf {b : Bool} {p : Prop} [Decidable p] (h : b = true ↔ p) :
    (⟨BitVec.ofBool b⟩ : XBits 1) = bitIf p := by
  unfold bitIf
  cases b <;> by_cases hp : p <;> simp_all

theorem Comparable.symm_sub {e : ℕ} {x y : BitVec (2 ^ e)} (h : Comparable x y) :
    (x - y).toInt = x.toInt - y.toInt := Bits.toInt_sub_of (by positivity) h.1 h.2

theorem Comparable.msb_sub {e : ℕ} {x y : BitVec (2 ^ e)} (h : Comparable x y) :
    (x - y).msb = true ↔ x.toInt < y.toInt := by
  rw [BitVec.msb_eq_toInt, h.symm_sub]
  simp

/-- Values that are at most a quarter of the ring away from zero are always comparable. -/
theorem comparable_of_small {e : ℕ} (he : 0 < e) {x y : BitVec (2 ^ e)}
    (hx : -2 ^ (2 ^ e - 2) ≤ x.toInt ∧ x.toInt < 2 ^ (2 ^ e - 2))
    (hy : -2 ^ (2 ^ e - 2) ≤ y.toInt ∧ y.toInt < 2 ^ (2 ^ e - 2)) : Comparable x y := by
  have h2 : 2 ≤ 2 ^ e := by
    calc 2 = 2 ^ 1 := rfl
      _ ≤ 2 ^ e := Nat.pow_le_pow_right (by omega) (by omega)
  have : (2 : ℤ) ^ (2 ^ e - 1) = 2 * 2 ^ (2 ^ e - 2) := by
    rw [show 2 ^ e - 1 = (2 ^ e - 2) + 1 by omega, pow_succ]; ring
  constructor <;> rw [this] <;> omega

/-- Outside `Comparable` the sign of the difference is the opposite of the order. -/
theorem msb_sub_overflow (hw : 0 < w) {x y : BitVec w} (h : ¬ Comparable x y) :
    (x - y).msb = true ↔ ¬ x.toInt < y.toInt := by
  have hx := Bits.toInt_range x
  have hy := Bits.toInt_range y
  have h2 := Bits.pow_split hw
  have e : x - y = BitVec.ofInt w (x.toInt - y.toInt) := by
    rw [Bits.ofInt_sub, BitVec.ofInt_toInt, BitVec.ofInt_toInt]
  unfold Comparable Bits.Fits at h
  rw [BitVec.msb_eq_toInt, decide_eq_true_iff]
  rcases lt_or_ge (x.toInt - y.toInt) (-2 ^ (w - 1)) with hlt | hge
  · have e' : x - y = BitVec.ofInt w (x.toInt - y.toInt + 2 ^ w) := by
      rw [e, Bits.ofInt_eq_iff]; exact ⟨-1, by ring⟩
    rw [e', Bits.toInt_ofInt hw (by omega) (by omega)]
    omega
  · have hge' : 2 ^ (w - 1) ≤ x.toInt - y.toInt := by omega
    have e' : x - y = BitVec.ofInt w (x.toInt - y.toInt - 2 ^ w) := by
      rw [e, Bits.ofInt_eq_iff]; exact ⟨1, by ring⟩
    rw [e', Bits.toInt_ofInt hw (by omega) (by omega)]
    omega

attribute [local irreducible] M.All M.Sim

/-! ## C25 -/

/-- `X` and `Y` are tensors with values `x` and `y`, at least one of them private, both scaled or
both unscaled. (Two public tensors have no comparison function and raise; different flags raise
unless a public tensor is compared with a private one.) -/
structure Operands (x y : CVal (.arith w n)) (X Y : Val (.arith w n)) : Prop where
  /-- first operand -/
  left : Stands x X
  /-- second operand -/
  right : Stands y Y
  /-- one is private -/
  secret : x.kind.priv = true ∨ y.kind.priv = true
  /-- same flags -/
  flags : x.kind.sc = y.kind.sc

theorem Operands.swap {x y : CVal (.arith w n)} {X Y : Val (.arith w n)} (h : Operands x y X Y) :
    Operands y x Y X := ⟨h.right, h.left, h.secret.symm, h.flags.symm⟩

/-- The difference of two such operands. -/
theorem Operands.sub {x y : CVal (.arith w n)} {X Y : Val (.arith w n)} (h : Operands x y X Y) :
    ∃ z, X.sub Y = .ok ⟨.priv z, x.kind.sc⟩ ∧ X.body.sub Y.body = .priv z ∧
      Holds (x.val - y.val) z := by
  obtain ⟨hx, hy, hp, hs⟩ := h
  cases hx with
  | pub hx =>
    cases hy with
    | pub hy => rcases hp with h | h <;> cases h
    | priv hy => exact ⟨_, rfl, rfl, ((hy.alike 0).pubSub hx hx).1⟩
  | priv hx =>
    cases hs
    cases hy with
    | pub hy =>
      exact ⟨_, by simp only [Val.sub, beq_self_eq_true, Bool.or_true, if_true]; rfl, rfl,
        ((hx.alike 0).subPub hy hy).1⟩
    | priv hy =>
      exact ⟨_, by simp only [Val.sub, beq_self_eq_true, Bool.or_true, if_true]; rfl, rfl,
        ((hx.alike 0).sub (hy.alike 0)).1⟩

theorem Stands.rel0 {s : Srt} {x : CVal s} {X : Val s} (h : Stands x X) (σ : Fin 3) :
    BRel σ x.val x.val X.body X.body := by
  cases h with
  | pub h => exact .pub h h
  | priv h => exact .priv (h.alike σ)

theorem Stands.sc {s : Srt} {x : CVal s} {X : Val s} (h : Stands x X) : X.sc = x.kind.sc := by
  cases h <;> rfl

/-- What `less_than` computes in every case: the sign bit of the difference. -/
theorem less_than_sign {e : ℕ} (he : 0 < e) {x y : CVal (.arith (2 ^ e) n)}
    {X Y : Val (.arith (2 ^ e) n)} (h : Operands x y X Y) :
    ∃ m, lessThan X Y = .ok m ∧ M.All (Holds (signOf (x.val - y.val))) m := by
  obtain ⟨z, e1, -, hz⟩ := h.sub
  exact ⟨msb z, by rw [lessThan, e1], holds_of_sim (msb_sim he (hz.alike 0)) rfl⟩

/-- **C25** (`less_than`), where the difference of the values does not overflow: the result is a
sharing of `x < y`. `less_than_exact_iff` shows that the condition is necessary. -/
theorem less_than_partial {e : ℕ} (he : 0 < e) {x y : CVal (.arith (2 ^ e) n)}
    {X Y : Val (.arith (2 ^ e) n)} (h : Operands x y X Y)
    (hc : ∀ i, Comparable (x.val i) (y.val i)) :
    ∃ m, lessThan X Y = .ok m ∧
      M.All (Holds (s := .bool 1 n) fun i => bitIf ((x.val i).toInt < (y.val i).toInt)) m := by
  obtain ⟨m, e1, hm⟩ := less_than_sign he h
  refine ⟨m, e1, ?_⟩
  convert hm using 2
  funext i
  exact (ofBool_bitIf (hc i).msb_sub).symm

theorem not_bitIf {p q : Prop} [Decidable p] [Decidable q] (h : q ↔ ¬ p) :
    (⟨~~~(bitIf p).bits⟩ : XBits 1) = bitIf q := by
  unfold bitIf
  by_cases hp : p
  · have : ¬ q := by tauto
    rw [if_pos hp, if_neg this]; rfl
  · have : q := by tauto
    rw [if_neg hp, if_pos this]; rfl

theorem negated_all {r : Except Err (M (Shares (T (.bool 1 n))))} {m : M (Shares (T (.bool 1 n)))}
    (e : r = .ok m) {v u : T (.bool 1 n)} (hm : M.All (Holds v) m)
    (hu : ∀ i, u i = ⟨~~~(v i).bits⟩) : ∃ m', negated r = .ok m' ∧ M.All (Holds u) m' := by
  subst e
  refine ⟨_, rfl, M.All.bind hm fun b hb => M.all_pure.2 ?_⟩
  have := (hb.alike 0).bnot.1
  rw [show u = blift (~~~ ·) v from funext hu]
  exact this

/-- **C25** (`greater_than`). -/
theorem greater_than_partial {e : ℕ} (he : 0 < e) {x y : CVal (.arith (2 ^ e) n)}
    {X Y : Val (.arith (2 ^ e) n)} (h : Operands x y X Y)
    (hc : ∀ i, Comparable (y.val i) (x.val i)) :
    ∃ m, greaterThan X Y = .ok m ∧
      M.All (Holds (s := .bool 1 n) fun i => bitIf ((x.val i).toInt > (y.val i).toInt)) m :=
  less_than_partial he h.swap hc

/-- **C25** (`greater_equal`). -/
theorem greater_equal_partial {e : ℕ} (he : 0 < e) {x y : CVal (.arith (2 ^ e) n)}
    {X Y : Val (.arith (2 ^ e) n)} (h : Operands x y X Y)
    (hc : ∀ i, Comparable (x.val i) (y.val i)) :
    ∃ m, greaterEqual X Y = .ok m ∧
      M.All (Holds (s := .bool 1 n) fun i => bitIf ((x.val i).toInt ≥ (y.val i).toInt)) m := by
  obtain ⟨m, e1, hm⟩ := less_than_partial he h hc
  exact negated_all e1 hm fun i => (not_bitIf not_lt.symm).symm

/-- **C25** (`less_equal`). -/
theorem less_equal_partial {e : ℕ} (he : 0 < e) {x y : CVal (.arith (2 ^ e) n)}
    {X Y : Val (.arith (2 ^ e) n)} (h : Operands x y X Y)
    (hc : ∀ i, Comparable (y.val i) (x.val i)) :
    ∃ m, lessEqual X Y = .ok m ∧
      M.All (Holds (s := .bool 1 n) fun i => bitIf ((x.val i).toInt ≤ (y.val i).toInt)) m := by
  obtain ⟨m, e1, hm⟩ := greater_than_partial he h hc
  exact negated_all e1 hm fun i => (not_bitIf not_lt.symm).symm

/-- **C25**, exactly when: for any operands `less_than` returns a sharing of one fixed tensor of
bits, and its element `i` is the comparison if and only if the difference does not overflow. -/
theorem less_than_exact_iff {e : ℕ} (he : 0 < e) {x y : CVal (.arith (2 ^ e) n)}
    {X Y : Val (.arith (2 ^ e) n)} (h : Operands x y X Y) :
    ∃ m, ∃ b : T (.bool 1 n), lessThan X Y = .ok m ∧ M.All (Holds b) m ∧
      ∀ i, ((b i).bits = 1#1 ↔ (x.val i).toInt < (y.val i).toInt) ↔
        Comparable (x.val i) (y.val i) := by
  obtain ⟨m, e1, hm⟩ := less_than_sign he h
  refine ⟨m, _, e1, hm, fun i => ?_⟩
  have hb : (signOf (x.val - y.val) i).bits = 1#1 ↔ (x.val i - y.val i).msb = true := by
    show BitVec.ofBool (x.val i - y.val i).msb = 1#1 ↔ _
    cases (x.val i - y.val i).msb <;> simp
  rw [hb]
  by_cases hc : Comparable (x.val i) (y.val i)
  · exact iff_of_true hc.msb_sub hc
  · rw [msb_sub_overflow (by positivity) hc]
    exact iff_of_false (by tauto) hc

/-- **C25 fails** on overflow: `less_than(-2^(w-1), 1)` is a sharing of `0` for every word size. -/
theorem less_than_overflow_false {e : ℕ} (he : 0 < e) {x y : CVal (.arith (2 ^ e) n)}
    {X Y : Val (.arith (2 ^ e) n)} (h : Operands x y X Y)
    (hx : ∀ i, (x.val i).toInt = -2 ^ (2 ^ e - 1)) (hy : ∀ i, (y.val i).toInt = 1) :
    (∀ i, (x.val i).toInt < (y.val i).toInt) ∧
    ∃ m, lessThan X Y = .ok m ∧ M.All (Holds (s := .bool 1 n) fun _ => ⟨0⟩) m := by
  have hlt : ∀ i, (x.val i).toInt < (y.val i).toInt := by
    intro i
    rw [hx, hy]
    have : (0 : ℤ) < 2 ^ (2 ^ e - 1) := by positivity
    omega
  refine ⟨hlt, ?_⟩
  obtain ⟨m, e1, hm⟩ := less_than_sign he h
  refine ⟨m, e1, ?_⟩
  convert hm using 2
  funext i
  have hn : ¬ Comparable (x.val i) (y.val i) := by
    unfold Comparable Bits.Fits
    rw [hx, hy]
    omega
  have := mt (msb_sub_overflow (by positivity) hn).1 (by simpa using hlt i)
  apply XBits.ext
  show (0 : BitVec 1) = BitVec.ofBool (x.val i - y.val i).msb
  rw [Bool.not_eq_true] at this
  rw [this]
  rfl

/-- Two public tensors cannot be compared: there is no such function. -/
theorem less_than_public_raises {x y : CVal (.arith w n)} {X Y : Val (.arith w n)}
    (hx : Stands x X) (hy : Stands y Y) (px : x.kind.priv = false) (py : y.kind.priv = false) :
    lessThan X Y = .error .typeError := by
  cases hx with
  | priv => cases px
  | pub hx =>
    cases hy with
    | priv => cases py
    | pub hy =>
      rename_i s _ _ t
      cases s <;> cases t <;> rfl

/-- A private `-3` and a public `5`, 64 bits: the hypotheses of C25 hold. -/
example : Operands (n := 1) ⟨fun _ => (-3 : BitVec 64), ⟨true, true⟩⟩ ⟨fun _ => 5, ⟨false, true⟩⟩
      ⟨.priv ![(fun _ => 7, fun _ => 9), (fun _ => 9, fun _ => -19), (fun _ => -19, fun _ => 7)], true⟩
      ⟨.pub fun _ _ => 5, true⟩ ∧ Comparable (-3 : BitVec 64) 5 :=
  ⟨⟨.priv ⟨fun i => by fin_cases i <;> rfl, by funext i; show (7 : BitVec 64) + 9 + -19 = -3; decide⟩,
    .pub fun _ => rfl, .inl rfl, rfl⟩, by unfold Comparable Bits.Fits; decide⟩

/-! ## C26 -/

/-- **C26** (`equal_zero`): a sharing of `1` where the word is zero and of `0` elsewhere, for every
word. -/
theorem equal_zero_exact {e : ℕ} (he : 0 < e) {x : T (.arith (2 ^ e) n)}
    {X : Shares (T (.arith (2 ^ e) n))} (hx : Holds x X) :
    M.All (Holds (s := .bool 1 n) fun i => bitIf (x i = 0)) (equalZero X) := by
  refine holds_of_sim (equalZero_sim he (hx.alike 0)) ?_
  funext i
  exact ofBool_bitIf (by simp)

/-- **C26** (`equal`): a sharing of `1` where the words are equal and of `0` elsewhere, for every
pair of words, overflow or not. -/
theorem equal_exact {e : ℕ} (he : 0 < e) {x y : CVal (.arith (2 ^ e) n)}
    {X Y : Val (.arith (2 ^ e) n)} (h : Operands x y X Y) :
    ∃ m, equal X Y = .ok m ∧
      M.All (Holds (s := .bool 1 n) fun i => bitIf (x.val i = y.val i)) m := by
  obtain ⟨z, e1, -, hz⟩ := h.sub
  refine ⟨equalZero z, by rw [equal, e1], ?_⟩
  convert equal_zero_exact he hz using 3 with i
  · unfold bitIf
    have : (x.val i = y.val i) ↔ ((x.val - y.val) i = 0) := sub_eq_zero.symm
    simp only [this]

/-! ## C28 -/

theorem Operands.select {x y : CVal (.arith w n)} {X Y : Val (.arith w n)} (h : Operands x y X Y) :
    select X Y = .ok (x.kind.sc, fun c => selectA c X.body Y.body) := by
  obtain ⟨z, e1, -, -⟩ := h.swap.sub
  have hs := h.left.sc
  rw [Aby3.select, e1]
  simp only [← h.flags, hs, beq_self_eq_true, Bool.or_true, if_true]

/-- **C28** (`select` on numbers), private choice bits: the second operand where the bit is set, the
first elsewhere; operands public or private in any combination, every word. -/
theorem select_value {c : T (.bool 1 n)} {C : Shares (T (.bool 1 n))} (hc : Holds c C)
    {x y : CVal (.arith w n)} {X Y : Val (.arith w n)} (hx : Stands x X) (hy : Stands y Y)
    (hs : x.kind.sc = y.kind.sc) :
    ∃ f, select X Y = .ok (x.kind.sc, f) ∧
      M.All (Holds fun i => if (c i).bits = 1#1 then y.val i else x.val i) (f C) := by
  refine ⟨fun c => selectA c X.body Y.body, ?_,
    holds_of_sim (selectA_sim (hc.alike 0) (hx.rel0 0) (hy.rel0 0)) rfl⟩
  by_cases hp : x.kind.priv = true ∨ y.kind.priv = true
  · exact (Operands.mk hx hy hp hs).select
  · cases hx with
    | priv => exact absurd (.inl rfl) hp
    | pub hx =>
      cases hy with
      | priv => exact absurd (.inr rfl) hp
      | pub hy =>
        cases hs
        simp only [Aby3.select, Val.sub, beq_self_eq_true, Bool.or_true, if_true]

/-- **C28** (`select` on bits). -/
theorem selectB_value {c : T (.bool 1 n)} {C : Shares (T (.bool 1 n))} (hc : Holds c C)
    {x y : CVal (.bool 1 n)} {X Y : Val (.bool 1 n)} (hx : Stands x X) (hy : Stands y Y) :
    M.All (Holds fun i => if (c i).bits = 1#1 then y.val i else x.val i)
      (selectB id C X.body Y.body) :=
  holds_of_sim (selectB_sim id (hc.alike 0) (hx.rel0 0) (hy.rel0 0)) rfl

theorem pick_bitIf {p : Fin n → Prop} [DecidablePred p] (x y : T (.arith w n)) :
    (pick id (fun i => bitIf (p i)) x y : T (.arith w n)) = fun i => if p i then y i else x i := by
  funext i
  show (if (bitIf (p i)).bits = 1#1 then y i else x i) = _
  simp only [bitIf_one]

/-- **C28** (`maximum`): a private tensor with the operands' flag, holding at every position the
larger of the two values. -/
theorem maximum_value {e : ℕ} (he : 0 < e) {x y : CVal (.arith (2 ^ e) n)}
    {X Y : Val (.arith (2 ^ e) n)} (h : Operands x y X Y)
    (hc : ∀ i, Comparable (y.val i) (x.val i)) :
    ∃ m, maximum X Y = .ok m ∧
      M.All (Stands ⟨fun i => if (x.val i).toInt > (y.val i).toInt then x.val i else y.val i,
        ⟨true, x.kind.sc⟩⟩) m := by
  obtain ⟨m, e1, hm⟩ := greater_than_partial he h hc
  refine ⟨_, by rw [maximum, e1, h.swap.select], ?_⟩
  refine M.All.bind hm fun c hcv => ?_
  refine M.All.bind (holds_of_sim (selectA_sim (hcv.alike 0) (h.right.rel0 0) (h.left.rel0 0)) rfl)
    fun z hz => M.all_pure.2 ?_
  rw [pick_bitIf] at hz
  rw [← h.flags]
  exact .priv hz

/-- **C28** (`cmp_swap`): the smaller value first, the larger second. -/
theorem cmp_swap_value {e : ℕ} (he : 0 < e) {x y : CVal (.arith (2 ^ e) n)}
    {X Y : Val (.arith (2 ^ e) n)} (h : Operands x y X Y)
    (hc : ∀ i, Comparable (y.val i) (x.val i)) :
    ∃ m, cmpSwap X Y = .ok m ∧
      M.All (fun r =>
        Stands ⟨fun i => if (x.val i).toInt > (y.val i).toInt then y.val i else x.val i,
          ⟨true, x.kind.sc⟩⟩ r.1 ∧
        Stands ⟨fun i => if (x.val i).toInt > (y.val i).toInt then x.val i else y.val i,
          ⟨true, x.kind.sc⟩⟩ r.2) m := by
  obtain ⟨m, e1, hm⟩ := greater_than_partial he h hc
  refine ⟨_, by rw [cmpSwap, e1, h.swap.select, h.select], ?_⟩
  refine M.All.bind hm fun c hcv => ?_
  refine M.All.bind (holds_of_sim (selectA_sim (hcv.alike 0) (h.right.rel0 0) (h.left.rel0 0)) rfl)
    fun z hz => ?_
  refine M.All.bind (holds_of_sim (selectA_sim (hcv.alike 0) (h.left.rel0 0) (h.right.rel0 0)) rfl)
    fun u hu => M.all_pure.2 ?_
  rw [pick_bitIf] at hz hu
  rw [← h.flags]
  exact ⟨.priv hu, .priv hz⟩

/-- **C28** (`relu`): `max(0, x)` for every word except the most negative one, together with the
bits `x > 0`. -/
theorem relu_value {e : ℕ} (he : 0 < e) {x : T (.arith (2 ^ e) n)} {sc : Bool}
    {X : Shares (T (.arith (2 ^ e) n))} (hx : Holds x X)
    (hm : ∀ i, (x i).toInt ≠ -2 ^ (2 ^ e - 1)) :
    ∃ m, reluWithCmp ⟨.priv X, sc⟩ = .ok m ∧
      M.All (fun r => Stands ⟨fun i => if (x i).toInt > 0 then x i else 0, ⟨true, sc⟩⟩ r.1 ∧
        Holds (s := .bool 1 n) (fun i => bitIf ((x i).toInt > 0)) r.2) m := by
  have h : Operands ⟨x, ⟨true, sc⟩⟩ ⟨0, ⟨false, sc⟩⟩ ⟨.priv X, sc⟩ (zeroV sc) :=
    ⟨.priv hx, .pub fun _ => rfl, .inl rfl, rfl⟩
  have hc : ∀ i, Comparable (w := 2 ^ e) ((0 : T (.arith (2 ^ e) n)) i) (x i) := by
    intro i
    have := Bits.toInt_range (x i)
    have := hm i
    show Bits.Fits (2 ^ e) ((0 : BitVec (2 ^ e)).toInt - (x i).toInt)
    rw [show (0 : BitVec (2 ^ e)).toInt = 0 from BitVec.toInt_zero]
    constructor <;> omega
  obtain ⟨m, e1, hm⟩ := greater_than_partial he h hc
  have e2 : reluWithCmp (n := n) ⟨.priv X, sc⟩ = .ok (do
      let c ← m
      let z ← selectA c (zeroV (w := 2 ^ e) (n := n) sc).body (.priv X)
      return (⟨.priv z, sc⟩, c)) := by
    simp only [reluWithCmp]
    rw [e1, h.swap.select]
  refine ⟨_, e2, ?_⟩
  refine M.All.bind hm fun c hcv => ?_
  refine M.All.bind (holds_of_sim (selectA_sim (hcv.alike 0) (h.right.rel0 0) (h.left.rel0 0)) rfl)
    fun z hz => M.all_pure.2 ?_
  rw [pick_bitIf] at hz
  have z0 : ∀ i, ((0 : T (.arith (2 ^ e) n)) i : BitVec (2 ^ e)).toInt = 0 := fun _ => BitVec.toInt_zero
  simp only [z0] at hz hcv
  exact ⟨.priv hz, hcv⟩

/-- Why the most negative word is excluded: `0 - x` overflows for it, `x > 0` comes out true and
`relu` returns it unchanged. -/
theorem relu_min_false {e : ℕ} (he : 0 < e) {x : T (.arith (2 ^ e) n)} {sc : Bool}
    {X : Shares (T (.arith (2 ^ e) n))} (hx : Holds x X)
    (hm : ∀ i, (x i).toInt = -2 ^ (2 ^ e - 1)) :
    ∃ m, reluWithCmp ⟨.priv X, sc⟩ = .ok m ∧
      M.All (fun r => Stands ⟨x, ⟨true, sc⟩⟩ r.1) m := by
  have h : Operands ⟨x, ⟨true, sc⟩⟩ ⟨0, ⟨false, sc⟩⟩ ⟨.priv X, sc⟩ (zeroV sc) :=
    ⟨.priv hx, .pub fun _ => rfl, .inl rfl, rfl⟩
  have hc : ∀ i, (-(x i)).msb = true := by
    intro i
    have hn : ¬ Comparable (0 : BitVec (2 ^ e)) (x i) := by
      unfold Comparable Bits.Fits
      rw [show (0 : BitVec (2 ^ e)).toInt = 0 from BitVec.toInt_zero, hm]
      omega
    have := (msb_sub_overflow (by positivity) hn).2 (by
      rw [show (0 : BitVec (2 ^ e)).toInt = 0 from BitVec.toInt_zero, hm]
      have : (0 : ℤ) < 2 ^ (2 ^ e - 1) := by positivity
      omega)
    rwa [zero_sub] at this
  obtain ⟨m, e1, hm⟩ := less_than_sign he h.swap
  have e2 : reluWithCmp (n := n) ⟨.priv X, sc⟩ = .ok (do
      let c ← m
      let z ← selectA c (zeroV (w := 2 ^ e) (n := n) sc).body (.priv X)
      return (⟨.priv z, sc⟩, c)) := by
    simp only [reluWithCmp]
    rw [show greaterThan (n := n) ⟨.priv X, sc⟩ (zeroV sc) = .ok m from e1, h.swap.select]
  refine ⟨_, e2, ?_⟩
  refine M.All.bind hm fun c hcv => ?_
  refine M.All.bind (holds_of_sim (selectA_sim (hcv.alike 0) (h.right.rel0 0) (h.left.rel0 0)) rfl)
    fun z hz => M.all_pure.2 ?_
  convert Stands.priv (sc := sc) hz using 2
  funext i
  show x i = if BitVec.ofBool ((0 : BitVec (2 ^ e)) - x i).msb = 1#1 then x i else 0
  rw [zero_sub, hc i]
  rfl

/-! ## C29 -/

theorem maxV_eq {e : ℕ} {x y : T (.arith (2 ^ e) n)} {i : Fin n} (hc : Comparable (y i) (x i)) :
    maxV x y i = if (y i).toInt < (x i).toInt then x i else y i := by
  show (if BitVec.ofBool (y i - x i).msb = 1#1 then x i else y i) = _
  have h := hc.msb_sub
  by_cases hlt : (y i).toInt < (x i).toInt
  · rw [if_pos hlt, h.2 hlt]; rfl
  · have : (y i - x i).msb = false := by
      rw [← Bool.not_eq_true]; exact mt h.1 hlt
    rw [if_neg hlt, this]; rfl

/-- `m` is the largest of the values that the tensors of the list have at position `j`. -/
def IsMax (vs : List (T (.arith w n))) (j : Fin n) (m : BitVec w) : Prop :=
  (∃ v ∈ vs, m = v j) ∧ ∀ v ∈ vs, (v j).toInt ≤ m.toInt

theorem vtree_max {e : ℕ} (vs : List (T (.arith (2 ^ e) n))) (h : vs ≠ []) (j : Fin n)
    (hc : ∀ a ∈ vs, ∀ b ∈ vs, Comparable (a j) (b j)) : IsMax vs j (vtree maxV vs h j) := by
  refine vtree_ind maxV (fun l r => (∀ a ∈ l, ∀ b ∈ l, Comparable (a j) (b j)) → IsMax l j (r j))
    ?_ ?_ _ vs rfl h hc
  · exact fun a _ => ⟨⟨a, by simp, rfl⟩, by simp⟩
  · intro l₁ l₂ a b h₁ h₂ hc
    obtain ⟨⟨u, hu, eu⟩, ha⟩ := h₁ fun x hx y hy =>
      hc x (List.mem_append_left _ hx) y (List.mem_append_left _ hy)
    obtain ⟨⟨v, hv, ev⟩, hb⟩ := h₂ fun x hx y hy =>
      hc x (List.mem_append_right _ hx) y (List.mem_append_right _ hy)
    have hcmp : Comparable (b j) (a j) := by
      rw [ev, eu]
      exact hc v (List.mem_append_right _ hv) u (List.mem_append_left _ hu)
    rw [maxV_eq hcmp]
    split
    · refine ⟨⟨u, List.mem_append_left _ hu, eu⟩, fun x hx => ?_⟩
      rcases List.mem_append.1 hx with hx | hx
      · exact ha x hx
      · have := hb x hx; omega
    · refine ⟨⟨v, List.mem_append_right _ hv, ev⟩, fun x hx => ?_⟩
      rcases List.mem_append.1 hx with hx | hx
      · have := ha x hx; omega
      · exact hb x hx

theorem zip4 {V α : Type} {R : V → α → Prop} {vs : List V} {ts : List α}
    (h : List.Forall₂ R vs ts) : ∃ L : List (V × V × α × α), L.map (·.1) = vs ∧
      L.map (·.2.1) = vs ∧ L.map (·.2.2.1) = ts ∧ L.map (·.2.2.2) = ts ∧
      ∀ t ∈ L, t.2.1 = t.1 ∧ t.2.2.2 = t.2.2.1 ∧ R t.1 t.2.2.1 := by
  induction h with
  | nil => exact ⟨[], rfl, rfl, rfl, rfl, by simp⟩
  | cons hab _ ih =>
    rename_i a b _ _ _
    obtain ⟨L, h1, h2, h3, h4, h5⟩ := ih
    refine ⟨(a, a, b, b) :: L, by simp [h1], by simp [h2], by simp [h3], by simp [h4], ?_⟩
    intro t ht
    rcases List.mem_cons.1 ht with rfl | ht
    · exact ⟨rfl, rfl, hab⟩
    · exact h5 t ht

/-- **C29** (`reduce_max` along an axis): for any number of slices, the result is a sharing of their
elementwise maximum. -/
theorem reduce_max_value {e : ℕ} (he : 0 < e) (vs : List (T (.arith (2 ^ e) n)))
    (ts : List (Shares (T (.arith (2 ^ e) n)))) (hv : List.Forall₂ Holds vs ts) (h : ts ≠ [])
    (hc : ∀ a ∈ vs, ∀ b ∈ vs, ∀ j, Comparable (a j) (b j)) :
    ∃ m : T (.arith (2 ^ e) n), M.All (Holds m) (reduceMaxTree ts h) ∧ ∀ j, IsMax vs j (m j) := by
  obtain ⟨L, rfl, h2, rfl, h4, h5⟩ := zip4 hv
  have hL : L ≠ [] := by rintro rfl; simp at h
  refine ⟨_, holds_of_sim (reduceMaxTree_sim he L (fun t ht => ?_) hL) rfl, fun j =>
    vtree_max _ (by simpa using hL) j fun a ha b hb => hc a ha b hb j⟩
  obtain ⟨e1, e2, hR⟩ := h5 t ht
  rw [e1, e2]
  exact hR.alike 0

theorem vectorMaxV_max {e : ℕ} (n : ℕ) (x : T (.arith (2 ^ e) (n + 1)))
    (hc : ∀ i j, Comparable (x i) (x j)) :
    (∃ i, vectorMaxV n x 0 = x i) ∧ ∀ i, (x i).toInt ≤ (vectorMaxV n x 0 : BitVec (2 ^ e)).toInt := by
  induction n using Nat.strong_induction_on with
  | _ n ih =>
    cases n with
    | zero =>
      rw [vectorMaxV]
      exact ⟨⟨0, rfl⟩, fun i => by rw [show i = 0 from Fin.ext (by omega)]⟩
    | succ n =>
      rw [vectorMaxV]
      have hy : ∀ i : Fin ((n + 1) / 2 + 1),
          maxV (slice 0 ((n + 1) / 2 + 1) (by omega) x)
            (slice ((n + 2) / 2) ((n + 1) / 2 + 1) (by omega) x) i =
          if (x ⟨(n + 2) / 2 + i.1, by omega⟩).toInt < (x ⟨0 + i.1, by omega⟩).toInt
            then x ⟨0 + i.1, by omega⟩ else x ⟨(n + 2) / 2 + i.1, by omega⟩ :=
        fun i => maxV_eq (hc _ _)
      generalize maxV (slice 0 ((n + 1) / 2 + 1) (by omega) x)
        (slice ((n + 2) / 2) ((n + 1) / 2 + 1) (by omega) x) = y at hy ⊢
      have hmem : ∀ i, ∃ k, y i = x k := by
        intro i
        rw [hy]
        split
        · exact ⟨_, rfl⟩
        · exact ⟨_, rfl⟩
      obtain ⟨⟨i, hi⟩, hle⟩ := ih ((n + 1) / 2) (by omega) y (by
        intro i j
        obtain ⟨k, hk⟩ := hmem i
        obtain ⟨l, hl⟩ := hmem j
        rw [hk, hl]
        exact hc _ _)
      refine ⟨?_, fun k => ?_⟩
      · obtain ⟨k, hk⟩ := hmem i
        exact ⟨k, hi.trans hk⟩
      · by_cases hk : k.1 < (n + 1) / 2 + 1
        · have h1 := hle ⟨k.1, hk⟩
          rw [hy] at h1
          have ek : x ⟨0 + k.1, by omega⟩ = x k := by congr 1; exact Fin.ext (by simp)
          rw [ek] at h1
          split at h1 <;> omega
        · have h1 := hle ⟨k.1 - (n + 2) / 2, by omega⟩
          rw [hy] at h1
          have ek : x ⟨(n + 2) / 2 + (k.1 - (n + 2) / 2), by omega⟩ = x k := by
            congr 1; exact Fin.ext (by simp; omega)
          simp only [ek] at h1
          split at h1 <;> omega

/-- **C29** (`reduce_max` over all elements): for a vector of any length at least one, the result
is a sharing of its largest element. -/
theorem vector_max_value {e : ℕ} (he : 0 < e) (n : ℕ) {x : T (.arith (2 ^ e) (n + 1))}
    {X : Shares (T (.arith (2 ^ e) (n + 1)))} (hx : Holds x X)
    (hc : ∀ i j, Comparable (x i) (x j)) :
    ∃ m : T (.arith (2 ^ e) 1), M.All (Holds m) (vectorMax n X) ∧
      (∃ i, m 0 = x i) ∧ ∀ i, (x i).toInt ≤ (m 0 : BitVec (2 ^ e)).toInt :=
  ⟨_, holds_of_sim (vectorMax_sim he n (hx.alike 0)) rfl, vectorMaxV_max n x hc⟩

/-- The index tensor of an argmax: copies on the servers, or a sharing. -/
def BodyIs {s : Srt} (v : T s) : Body s → Prop
  | .pub p => IsPub v p
  | .priv x => Holds v x

theorem BRel.is {s : Srt} {σ : Fin 3} {v v' : T s} {b b' : Body s} (h : BRel σ v v' b b') :
    BodyIs v b := by
  cases h with
  | pub h _ => exact h
  | priv h => exact h.1

/-- `k` is the last position at which the values at `j` are largest. -/
def IsLastMax (vs : List (T (.arith w n))) (j : Fin n) (k : ℕ) : Prop :=
  ∃ h : k < vs.length, (∀ u ∈ vs, (u j).toInt ≤ (vs[k] j).toInt) ∧
    ∀ u ∈ vs.drop (k + 1), (u j).toInt < (vs[k] j).toInt

theorem vtree_arg {e m : ℕ} {α : Type} (q : Fin m → Fin n)
    (vs : List (T (.arith (2 ^ e) n) × (Fin m → α))) (h : vs ≠ []) (j : Fin n)
    (hc : ∀ a ∈ vs, ∀ b ∈ vs, Comparable (a.1 j) (b.1 j)) :
    ∃ l₁ p l₂, vs = l₁ ++ p :: l₂ ∧ (vtree (argV q) vs h).1 j = p.1 j ∧
      (∀ i, q i = j → (vtree (argV q) vs h).2 i = p.2 i) ∧
      (∀ u ∈ l₁, (u.1 j).toInt ≤ (p.1 j).toInt) ∧ ∀ u ∈ l₂, (u.1 j).toInt < (p.1 j).toInt := by
  refine vtree_ind (argV q) (fun l r => (∀ a ∈ l, ∀ b ∈ l, Comparable (a.1 j) (b.1 j)) →
    ∃ l₁ p l₂, l = l₁ ++ p :: l₂ ∧ r.1 j = p.1 j ∧ (∀ i, q i = j → r.2 i = p.2 i) ∧
      (∀ u ∈ l₁, (u.1 j).toInt ≤ (p.1 j).toInt) ∧ ∀ u ∈ l₂, (u.1 j).toInt < (p.1 j).toInt)
    ?_ ?_ _ vs rfl h hc
  · exact fun a _ => ⟨[], a, [], rfl, rfl, fun _ _ => rfl, by simp, by simp⟩
  · intro k₁ k₂ a b h₁ h₂ hc
    obtain ⟨l₁, p, l₂, e1, ea, ia, la, ra⟩ := h₁ fun x hx y hy =>
      hc x (List.mem_append_left _ hx) y (List.mem_append_left _ hy)
    obtain ⟨r₁, s, r₂, e2, eb, ib, lb, rb⟩ := h₂ fun x hx y hy =>
      hc x (List.mem_append_right _ hx) y (List.mem_append_right _ hy)
    have hcmp : Comparable (b.1 j) (a.1 j) := by
      rw [ea, eb]
      exact hc s (List.mem_append_right _ (by simp [e2])) p (List.mem_append_left _ (by simp [e1]))
    have hm : (argV q a b).1 j = if (b.1 j).toInt < (a.1 j).toInt then a.1 j else b.1 j :=
      maxV_eq hcmp
    have hi : ∀ i, q i = j → (argV q a b).2 i = if (b.1 j).toInt < (a.1 j).toInt then a.2 i
        else b.2 i := by
      intro i hq
      show (if BitVec.ofBool (b.1 (q i) - a.1 (q i)).msb = 1#1 then a.2 i else b.2 i) = _
      rw [hq]
      have h := hcmp.msb_sub
      by_cases hlt : (b.1 j).toInt < (a.1 j).toInt
      · rw [if_pos hlt, h.2 hlt]; rfl
      · have : (b.1 j - a.1 j).msb = false := by
          rw [← Bool.not_eq_true]; exact mt h.1 hlt
        rw [if_neg hlt, this]; rfl
    rw [ea, eb] at hm hi
    subst e1 e2
    by_cases hlt : (s.1 j).toInt < (p.1 j).toInt
    · rw [if_pos hlt] at hm
      simp only [if_pos hlt] at hi
      refine ⟨l₁, p, l₂ ++ (r₁ ++ s :: r₂), by simp, hm, fun i hq => (hi i hq).trans (ia i hq), la,
        fun u hu => ?_⟩
      rcases List.mem_append.1 hu with hu | hu
      · exact ra u hu
      · rcases List.mem_append.1 hu with hu | hu
        · have := lb u hu; omega
        · rcases List.mem_cons.1 hu with rfl | hu
          · exact hlt
          · have := rb u hu; omega
    · rw [if_neg hlt] at hm
      simp only [if_neg hlt] at hi
      refine ⟨l₁ ++ p :: l₂ ++ r₁, s, r₂, by simp, hm, fun i hq => (hi i hq).trans (ib i hq),
        fun u hu => ?_, rb⟩
      rcases List.mem_append.1 hu with hu | hu
      · rcases List.mem_append.1 hu with hu | hu
        · have := la u hu; omega
        · rcases List.mem_cons.1 hu with rfl | hu
          · omega
          · have := ra u hu; omega
      · exact lb u hu

theorem forall₂_mapIdx {α β γ δ : Type} {R : α → β → Prop} {Q : γ → δ → Prop} {f : ℕ → α → γ}
    {g : ℕ → β → δ} {l : List α} {l' : List β} (h : List.Forall₂ R l l')
    (hf : ∀ k a b, R a b → Q (f k a) (g k b)) : List.Forall₂ Q (l.mapIdx f) (l'.mapIdx g) := by
  induction h generalizing f g with
  | nil => simp
  | cons hab _ ih =>
    simp only [List.mapIdx_cons]
    exact .cons (hf 0 _ _ hab) (ih fun k a b h => hf (k + 1) a b h)

/-- The tree, applied to the slices with their indices `ix 0, ix 1, …`. -/
theorem arg_tree {e m : ℕ} {α : Type} (q : Fin m → Fin n) (vs : List (T (.arith (2 ^ e) n)))
    (ix : ℕ → Fin m → α) (h : vs.mapIdx (fun k v => (v, ix k)) ≠ [])
    (hc : ∀ a ∈ vs, ∀ b ∈ vs, ∀ j, Comparable (a j) (b j)) (j : Fin n) :
    ∃ k, IsLastMax vs j k ∧
      (∀ v, vs[k]? = some v → (vtree (argV q) _ h).1 j = v j) ∧
      ∀ i, q i = j → (vtree (argV q) _ h).2 i = ix k i := by
  have hmem : ∀ a ∈ vs.mapIdx (fun k v => (v, ix k)), a.1 ∈ vs := by
    intro a ha
    obtain ⟨k, hk, rfl⟩ := List.mem_mapIdx.1 ha
    exact List.getElem_mem _
  obtain ⟨l₁, p, l₂, hl, hm, hi, h1, h2⟩ := vtree_arg q _ h j fun a ha b hb =>
    hc _ (hmem a ha) _ (hmem b hb) j
  have hlen : l₁.length < vs.length := by
    have := congrArg List.length hl
    simp at this
    omega
  have hp : p = (vs[l₁.length], ix l₁.length) := by
    have := congrArg (fun l => l[l₁.length]?) hl
    simp [hlen] at this
    exact this.symm
  have hval : ∀ (i : ℕ) (hi : i < vs.length), ((vs[i], ix i) : T (.arith (2 ^ e) n) × (Fin m → α))
      = (l₁ ++ p :: l₂)[i]'(by rw [← hl]; simpa using hi) := by
    intro i hi
    simp only [← hl, List.getElem_mapIdx]
  refine ⟨l₁.length, ⟨hlen, fun u hu => ?_, fun u hu => ?_⟩, fun v hv => ?_, fun i hq => ?_⟩
  · obtain ⟨i, hi, rfl⟩ := List.getElem_of_mem hu
    have hu' := congrArg Prod.fst (hval i hi)
    have hpm : ((l₁ ++ p :: l₂)[i]'(by rw [← hl]; simpa using hi)) ∈ l₁ ++ p :: l₂ :=
      List.getElem_mem _
    simp only at hu'
    rw [hu', show (vs[l₁.length] : T (.arith (2 ^ e) n)) = p.1 by rw [hp]]
    rcases List.mem_append.1 hpm with hx | hx
    · exact h1 _ hx
    · rcases List.mem_cons.1 hx with hx | hx
      · rw [hx]
      · exact (h2 _ hx).le
  · obtain ⟨i, hi, rfl⟩ := List.getElem_of_mem hu
    rw [List.getElem_drop]
    have hi' : l₁.length + 1 + i < vs.length := by
      rw [List.length_drop] at hi; omega
    have hu' := congrArg Prod.fst (hval _ hi')
    simp only at hu'
    rw [hu', show (vs[l₁.length] : T (.arith (2 ^ e) n)) = p.1 by rw [hp]]
    apply h2
    have hi2 : i < l₂.length := by
      have := congrArg List.length hl
      simp at this
      omega
    have : (l₁ ++ p :: l₂)[l₁.length + 1 + i]'(by simp; omega) = l₂[i] := by
      rw [List.getElem_append_right (by omega)]
      simp [show l₁.length + 1 + i - l₁.length = i + 1 by omega]
    rw [this]
    exact List.getElem_mem _
  · rw [hm, hp]
    rw [List.getElem?_eq_getElem hlen] at hv
    cases hv
    rfl
  · rw [hi i hq, hp]

/-- **C29** (`reduce_max_with_argmax`, one-hot): the maximum, and for every position the one-hot
index of the last slice at which it is attained. Element `i` of the index tensor belongs to position
`q i` of the result and to slice `axis i`. -/
theorem argmax_onehot_value {e m : ℕ} (he : 0 < e) (q : Fin m → Fin n) (axis : Fin m → ℕ)
    (vs : List (T (.arith (2 ^ e) n))) (ts : List (Shares (T (.arith (2 ^ e) n))))
    (hv : List.Forall₂ Holds vs ts) (h : ts ≠ [])
    (hc : ∀ a ∈ vs, ∀ b ∈ vs, ∀ j, Comparable (a j) (b j)) :
    ∃ (mx : T (.arith (2 ^ e) n)) (ix : T (.bool 1 m)),
      M.All (fun r => Holds mx r.1 ∧ BodyIs ix r.2) (argmaxOnehot q axis ts h) ∧
      ∀ j, ∃ k, IsLastMax vs j k ∧ (∀ v, vs[k]? = some v → mx j = v j) ∧
        ∀ i, q i = j → ix i = bitIf (axis i = k) := by
  have hne : vs ≠ [] := by
    rintro rfl
    cases hv
    exact h rfl
  have hz := forall₂_mapIdx (Q := fun (v : T (.arith (2 ^ e) n) × T (.bool 1 m))
      (t : Shares (T (.arith (2 ^ e) n)) × Body (.bool 1 m)) => Holds v.1 t.1 ∧ BRel 0 v.2 v.2 t.2 t.2)
    (f := fun k v => (v, onehot axis k)) (g := fun k t => (t, .pub fun _ => onehot axis k)) hv
    fun k a b hab => ⟨hab, .pub (fun _ => rfl) (fun _ => rfl)⟩
  obtain ⟨L, h1, h2, h3, h4, h5⟩ := zip4 hz
  have key := tree_sim (σ := 0) (Q := fun (v v' : T (.arith (2 ^ e) n) × T (.bool 1 m))
      (a a' : Shares (T (.arith (2 ^ e) n)) × Body (.bool 1 m)) =>
      Alike 0 v.1 v'.1 a.1 a'.1 ∧ BRel 0 v.2 v'.2 a.2 a'.2) (g := argV q) (f := argNodeB q)
    (fun _ _ _ _ _ _ _ _ h k => argNodeB_sim he q h k) _ L rfl (by
      intro t ht
      obtain ⟨e1, e2, hR⟩ := h5 t ht
      rw [e1, e2]
      exact ⟨hR.1.alike 0, hR.2⟩) (by simp [h1, hne]) (by simp [h2, hne]) (by simp [h3, h])
      (by simp [h4, h])
  simp only [h1, h2, h3, h4] at key
  refine ⟨_, _, key.left fun a _ ha => ⟨ha.1.1, ha.2.is⟩, fun j => ?_⟩
  obtain ⟨k, hk, hmx, hix⟩ := arg_tree q vs (fun k => onehot axis k) (by simp [hne]) hc j
  exact ⟨k, hk, hmx, hix⟩

/-- **C29** (`reduce_max_with_argmax`, numbers): the index is the number of the last slice at which
the maximum is attained, as a fixed-point number. -/
theorem argmax_normal_value {e : ℕ} (he : 0 < e) (frac : ℕ)
    (vs : List (T (.arith (2 ^ e) n))) (ts : List (Shares (T (.arith (2 ^ e) n))))
    (hv : List.Forall₂ Holds vs ts) (h : ts ≠ [])
    (hc : ∀ a ∈ vs, ∀ b ∈ vs, ∀ j, Comparable (a j) (b j)) :
    ∃ mx ix : T (.arith (2 ^ e) n),
      M.All (fun r => Holds mx r.1 ∧ BodyIs ix r.2) (argmaxNormal frac ts h) ∧
      ∀ j, ∃ k, IsLastMax vs j k ∧ (∀ v, vs[k]? = some v → mx j = v j) ∧
        ix j = BitVec.ofNat (2 ^ e) (k * 2 ^ frac) := by
  have hne : vs ≠ [] := by
    rintro rfl
    cases hv
    exact h rfl
  have hz := forall₂_mapIdx (Q := fun (v : T (.arith (2 ^ e) n) × T (.arith (2 ^ e) n))
      (t : Shares (T (.arith (2 ^ e) n)) × Body (.arith (2 ^ e) n)) =>
        Holds v.1 t.1 ∧ BRel 0 v.2 v.2 t.2 t.2)
    (f := fun k v => (v, number frac k)) (g := fun k t => (t, .pub fun _ => number frac k)) hv
    fun k a b hab => ⟨hab, .pub (fun _ => rfl) (fun _ => rfl)⟩
  obtain ⟨L, h1, h2, h3, h4, h5⟩ := zip4 hz
  have key := tree_sim (σ := 0) (Q := fun (v v' : T (.arith (2 ^ e) n) × T (.arith (2 ^ e) n))
      (a a' : Shares (T (.arith (2 ^ e) n)) × Body (.arith (2 ^ e) n)) =>
      Alike 0 v.1 v'.1 a.1 a'.1 ∧ BRel 0 v.2 v'.2 a.2 a'.2) (g := argV id) (f := argNodeA)
    (fun _ _ _ _ _ _ _ _ h k => argNodeA_sim he h k) _ L rfl (by
      intro t ht
      obtain ⟨e1, e2, hR⟩ := h5 t ht
      rw [e1, e2]
      exact ⟨hR.1.alike 0, hR.2⟩) (by simp [h1, hne]) (by simp [h2, hne]) (by simp [h3, h])
      (by simp [h4, h])
  simp only [h1, h2, h3, h4] at key
  refine ⟨_, _, key.left fun a _ ha => ⟨ha.1.1, ha.2.is⟩, fun j => ?_⟩
  obtain ⟨k, hk, hmx, hix⟩ := arg_tree id vs (fun k => number frac k) (by simp [hne]) hc j
  exact ⟨k, hk, hmx, hix j rfl⟩

/-- Three slices with a tie: the last of the two maxima is reported, and all are comparable. -/
example : IsLastMax (w := 64) (n := 1) [fun _ => 5, fun _ => -7, fun _ => 5] 0 2 ∧
    ∀ a ∈ ([fun _ => 5, fun _ => -7, fun _ => 5] : List (T (.arith 64 1))),
      ∀ b ∈ ([fun _ => 5, fun _ => -7, fun _ => 5] : List (T (.arith 64 1))),
      ∀ j, Comparable (a j) (b j) := by
  refine ⟨⟨by decide, by simp, by simp⟩, ?_⟩
  intro a ha b hb j
  simp only [List.mem_cons, List.not_mem_nil, or_false] at ha hb
  rcases ha with rfl | rfl | rfl <;> rcases hb with rfl | rfl | rfl <;>
    (unfold Comparable Bits.Fits; beta_reduce; decide)

/-! ## None of this tells a server anything (C07) -/

/-- A protocol that keeps sharings alike hides its input: share any `x`, run it; the view of a
server has the same distribution as for any other `x'`. -/
theorem hides_of_sim {s : Srt} {β : Type} {F F' : Shares (T s) → M β} {σ : Fin 3} {Q : β → β → Prop}
    {v v' : T s} (hF : ∀ x x', Alike σ v v' x x' → M.Sim σ Q (F x) (F' x')) :
    M.view σ (share v >>= F) = M.view σ (share v' >>= F') :=
  ((share_sim v v' σ).bind hF).dist_eq

/-- **C07** for `equal_zero`. -/
theorem equal_zero_secrecy {e : ℕ} (he : 0 < e) (σ : Fin 3) (x x' : T (.arith (2 ^ e) n)) :
    M.view σ (share x >>= equalZero) = M.view σ (share x' >>= equalZero) :=
  hides_of_sim fun _ _ h => equalZero_sim he h

/-- **C07** for the maximum of all elements. -/
theorem vector_max_secrecy {e : ℕ} (he : 0 < e) (σ : Fin 3) (n : ℕ)
    (x x' : T (.arith (2 ^ e) (n + 1))) :
    M.view σ (share x >>= vectorMax n) = M.view σ (share x' >>= vectorMax n) :=
  hides_of_sim fun _ _ h => vectorMax_sim he n h

/-- **C07** for `cmp_swap` (and with it `maximum` and the comparisons) of two private tensors. -/
theorem cmp_swap_secrecy {e : ℕ} (he : 0 < e) (σ : Fin 3) (x x' y y' : T (.arith (2 ^ e) n)) :
    M.view σ (share x >>= fun X => share y >>= fun Y => cmpSwapS X Y) =
      M.view σ (share x' >>= fun X => share y' >>= fun Y => cmpSwapS X Y) :=
  hides_of_sim fun _ _ h => (share_sim y y' σ).bind fun _ _ k => cmpSwapS_sim he h k

end Verif.Aby3
