import Verif.Pond.ApproxData
import Verif.Pond.ApproxReal

/-!
# C69: Pond's sigmoid, relu, tanh and log

`Accurate` is the property: on private inputs in an interval the decoded result is within `δ` of the function, for every
sharing, triple, mask and draw. `Returns` says what every draw decodes to at one input.

The functions are polynomials; the two highest coefficients of `sigmoid` and `relu` are smaller than the resolution of
both interactive configurations of the library and are encoded as zero, and all four leave the function quickly outside
the interval the polynomial was fitted on. Nothing checks the inputs.
-/

namespace Verif.Pond

open Verif.Fixed RandM Aby3.PolyBound

/-- **The property**: the function `k` of the library, on every private tensor with elements in `[lo, hi]`, returns a private
tensor that decodes to within `δ` of `g`, for every draw. -/
def Accurate (F : Factory) (b : Backend) (c : Config) (k : Code 1) (g : ℝ → ℝ) (lo hi δ : ℚ) : Prop :=
  ∀ C, pondCfg F b c = some C → ∀ (n : ℕ) (x : Fin n → ℤ), (∀ j, lo ≤ (x j : ℚ) / c.scale ∧ (x j : ℚ) / c.scale ≤ hi) →
    ((k.start F c n).start C fun _ j => (x j : ZMod F.modulus)).All fun r => ∃ p tr,
      r = .ok (⟨.plain (.priv p), true⟩, tr) ∧
      ∀ j, |((decodePond F c true (p.x0 j + p.x1 j) : ℚ) : ℝ) - g ((x j : ℚ) / c.scale : ℚ)| ≤ δ

/-- On private tensors with all elements `q` the function `k` decodes to elements of `S`, for every draw. -/
def Returns (F : Factory) (b : Backend) (c : Config) (k : Code 1) (q : ℤ) (S : Set ℚ) : Prop :=
  ∀ C, pondCfg F b c = some C → ∀ n : ℕ,
    ((k.start F c n).start C fun _ _ => ((q * c.scale : ℤ) : ZMod F.modulus)).All fun r => ∃ p tr,
      r = .ok (⟨.plain (.priv p), true⟩, tr) ∧ ∀ j, decodePond F c true (p.x0 j + p.x1 j) ∈ S

/-! ## The polynomials -/

/-- A number as the servers encode it. -/
def enc (c : Config) (q : ℚ) : ℚ := (encode c true q : ℚ) / c.scale

theorem sigmoid_exact (c : Config) (q : ℚ) : sigmoidCode.exact c (fun _ => q) =
    eval [enc c (1 / 2), enc c (2159198015 / 10 ^ 10), 0, enc c (-82176259 / 10 ^ 10), 0, enc c (1825597 / 10 ^ 10), 0,
      enc c (-18848 / 10 ^ 10), 0, enc c (72 / 10 ^ 10)] q := by
  simp [sigmoidCode, Code.exact, Ins.exact, ext, eval, enc]
  ring

theorem relu_exact (c : Config) (q : ℚ) : reluCode.exact c (fun _ => q) =
    eval [enc c (44015372000819103 / 10 ^ 17), enc c (1 / 2), enc c (11217537671414643 / 10 ^ 17), 0,
      enc c (-13660836712429923 / 10 ^ 19), 0, enc c (9009136367360004 / 10 ^ 21), 0,
      enc c (-21097433984 / 10 ^ 18)] q := by
  simp [reluCode, Code.exact, Ins.exact, ext, eval, enc]
  ring

theorem tanh_exact (c : Config) (q : ℚ) : tanhCode.exact c (fun _ => q) =
    eval [enc c 0, enc c (852721056 / 10 ^ 9), 0, enc c (-12494112 / 10 ^ 8), 0, enc c (10654528 / 10 ^ 9), 0,
      enc c (-423424 / 10 ^ 9)] q := by
  simp [tanhCode, Code.exact, Ins.exact, ext, eval, enc]
  ring

theorem log_exact (c : Config) (q : ℚ) : logCode.exact c (fun _ => q) = eval (Aby3.chebCoeffs.map (enc c)) q := by
  simp [logCode, Code.exact, Ins.exact, ext, eval, enc, Aby3.chebCoeffs]
  ring

theorem eval_cast (p : List ℚ) (q : ℚ) : ((eval p q : ℚ) : ℝ) = evalR p q := by
  induction p with
  | nil => simp [eval, evalR_nil]
  | cons a p ih => rw [evalR_cons, ← ih]; simp [eval]

/-! ## From annotations to decoded values -/

theorem decode_holds {F : Factory} {c : Config} (hb : 0 < c.base) (hh : HoldsShifted F c) {a : Ann}
    (ha : 0 ≤ a.err) (hs : a.size + a.err < (c.base : ℚ) ^ c.pInt) {q : ℚ} {v : ZMod F.modulus} (h : a.Holds F c q v) :
    |decodePond F c true v - q| ≤ a.err := by
  obtain ⟨h1, h2, e, rfl, he⟩ := h ha
  have hsc : (0 : ℚ) < c.scale := by unfold Config.scale; positivity
  have hq := abs_le_size h1 h2
  have habs : |(e : ℚ) / c.scale| < (c.base : ℚ) ^ c.pInt := by
    calc |(e : ℚ) / c.scale| = |q + ((e : ℚ) / c.scale - q)| := by rw [add_sub_cancel]
      _ ≤ |q| + |(e : ℚ) / c.scale - q| := abs_add_le _ _
      _ < _ := by linarith
  have hbs : (c.boundSingle : ℚ) = (c.base : ℚ) ^ c.pInt * c.scale := by
    unfold Config.boundSingle Config.scale; push_cast; ring
  rw [abs_lt, lt_div_iff₀ hsc, div_lt_iff₀ hsc] at habs
  have l1 : -(c.boundSingle : ℤ) ≤ e := by
    have : -(c.boundSingle : ℚ) ≤ e := by rw [hbs]; linarith
    exact_mod_cast this
  have l2 : e < (c.boundSingle : ℤ) := by
    have : (e : ℚ) < c.boundSingle := by rw [hbs]; linarith
    exact_mod_cast this
  rw [pond_decode_int hh e l1 l2 true, if_pos rfl]
  exact he

/-- A library configuration with enough room for products up to `top`. -/
structure Ready (F : Factory) (b : Backend) (c : Config) (top : ℕ) : Prop where
  base : 0 < c.base
  pos : 0 < F.modulus
  inter : c.noninteractive = false
  room : Room F c (top * c.scale * c.scale)
  holds : HoldsShifted F c
  some : ∃ C, pondCfg F b c = some C

theorem ready64 : Ready (native 64) .native fixed64 (2 ^ 36) where
  base := by decide
  pos := by norm_num [native]
  inter := rfl
  room := by
    have : fixed64.maskBits = 58 := by decide +kernel
    unfold Room
    rw [this]
    norm_num [native, Config.boundDouble, fixed64, Config.scale]
  holds := library_fixed.2.2.1
  some := library_fixed.1

theorem ready100 : Ready (crt int100Modulus) .crt fixed100 (2 ^ 50) where
  base := by decide
  pos := by norm_num [crt, int100Modulus]
  inter := rfl
  room := by
    have : fixed100.maskBits = 87 := by decide +kernel
    unfold Room
    rw [this]
    norm_num [crt, int100Modulus, Config.boundDouble, fixed100, Config.scale]
  holds := library_fixed.2.2.2.2.1
  some := library_fixed.2.2.2.2.2

/-- The final annotation can be decoded. -/
def decodable (c : Config) (a : Ann) (ε : ℚ) : Bool :=
  decide (0 ≤ a.err ∧ a.size + a.err < (c.base : ℚ) ^ c.pInt ∧ a.err ≤ ε)

theorem accurate_of {F : Factory} {b : Backend} {c : Config} {top : ℕ} (hR : Ready F b c top) {L : List Ann} {k : Code 1}
    (hck : k.check c ((top : ℕ) - 1 / 2) L = true) (hk : ∀ n, (k.start F c n).ty .nil = .ok (.priv, true))
    (h0 : 0 ≤ (ann L 0).err) {ε : ℚ} (hd : decodable c (ann L k.last) ε = true) {g : ℝ → ℝ} {δ : ℚ}
    (hg : ∀ q : ℚ, (ann L 0).lo ≤ q → q ≤ (ann L 0).hi → |((k.exact c fun _ => q : ℚ) : ℝ) - g q| ≤ δ - ε) :
    Accurate F b c k g (ann L 0).lo (ann L 0).hi δ := by
  intro C hC n x hx
  refine All.mono ?_ (code_run hR.base hR.pos hR.inter hR.room hC hck (hk n) x hx h0)
  rintro r ⟨p, tr, rfl, hp⟩
  refine ⟨p, tr, rfl, fun j => ?_⟩
  simp only [decodable, decide_eq_true_eq] at hd
  have h1 := decode_holds hR.base hR.holds hd.1 hd.2.1 (hp j)
  have h2 := hg _ (hx j).1 (hx j).2
  have h3 : |((decodePond F c true (p.x0 j + p.x1 j) : ℚ) : ℝ) -
      ((k.exact c fun _ => (x j : ℚ) / c.scale : ℚ) : ℝ)| ≤ ε := by
    have := (Rat.cast_le (K := ℝ)).2 (h1.trans hd.2.2)
    push_cast at this ⊢
    exact this
  calc |((decodePond F c true (p.x0 j + p.x1 j) : ℚ) : ℝ) - g ((x j : ℚ) / c.scale : ℚ)|
      ≤ |((decodePond F c true (p.x0 j + p.x1 j) : ℚ) : ℝ) - ((k.exact c fun _ => (x j : ℚ) / c.scale : ℚ) : ℝ)| +
        |((k.exact c fun _ => (x j : ℚ) / c.scale : ℚ) : ℝ) - g ((x j : ℚ) / c.scale : ℚ)| := abs_sub_le _ _ _
    _ ≤ δ := by linarith

theorem returns_of {F : Factory} {b : Backend} {c : Config} {top : ℕ} (hR : Ready F b c top) {L : List Ann} {k : Code 1}
    (hck : k.check c ((top : ℕ) - 1 / 2) L = true) (hk : ∀ n, (k.start F c n).ty .nil = .ok (.priv, true))
    (h0 : 0 ≤ (ann L 0).err) {ε : ℚ} (hd : decodable c (ann L k.last) ε = true) {q : ℤ} (hq1 : (ann L 0).lo ≤ q)
    (hq2 : (q : ℚ) ≤ (ann L 0).hi) {S : Set ℚ}
    (hS : ∀ v, (ann L k.last).lo - ε ≤ v → v ≤ (ann L k.last).hi + ε → v ∈ S) : Returns F b c k q S := by
  intro C hC n
  have hs : (0 : ℚ) < c.scale := by have := hR.base; unfold Config.scale; positivity
  have e : ((q * c.scale : ℤ) : ℚ) / c.scale = q := by push_cast; field_simp
  refine All.mono ?_ (code_run hR.base hR.pos hR.inter hR.room hC hck (hk n) (fun _ => q * c.scale)
    (fun j => by rw [e]; exact ⟨hq1, hq2⟩) h0)
  rintro r ⟨p, tr, rfl, hp⟩
  refine ⟨p, tr, rfl, fun j => ?_⟩
  simp only [decodable, decide_eq_true_eq] at hd
  have h1 := abs_le.1 (decode_holds hR.base hR.holds hd.1 hd.2.1 (hp j))
  obtain ⟨h2, h3, -⟩ := hp j hd.1
  exact hS _ (by linarith [hd.2.2]) (by linarith [hd.2.2])

theorem Accurate.mono {F : Factory} {b : Backend} {c : Config} {k : Code 1} {g : ℝ → ℝ} {lo hi δ lo' hi' δ' : ℚ}
    (h : Accurate F b c k g lo hi δ) (h1 : lo ≤ lo') (h2 : hi' ≤ hi) (h3 : δ ≤ δ') : Accurate F b c k g lo' hi' δ' := by
  intro C hC n x hx
  refine All.mono ?_ (h C hC n x fun j => ⟨h1.trans (hx j).1, (hx j).2.trans h2⟩)
  rintro r ⟨p, tr, rfl, hp⟩
  exact ⟨p, tr, rfl, fun j => (hp j).trans (by exact_mod_cast h3)⟩

/-! ## The polynomials against the functions -/

theorem evalR_neg (p : List ℚ) (x : ℝ) : evalR (scale (-1) p) (-x) = evalR p x := by
  rw [scale_eval]; congr 1; push_cast; ring

/-- A polynomial against the logistic function on `[-r, r]`. -/
theorem logistic_near {p : List ℚ} {r M K : ℚ} {n k d : ℕ} (hM : check (ratDiff p 1 1 0 n) M k 0 r = true)
    (hM' : check (ratDiff (scale (-1) p) 1 0 1 n) M k 0 r = true) (hK : check p K d 0 r = true)
    (hK' : check (scale (-1) p) K d 0 r = true) {x : ℝ} (h0 : -r ≤ x) (h1 : x ≤ r) :
    |evalR p x - Aby3.logistic x| ≤ M + (K + 1) * (r ^ n / n.factorial) := by
  rcases le_total 0 x with h | h
  · have := rat_close (by norm_num) hM hK h h1
    rw [← logistic_eq] at this
    refine this.trans ?_
    have hr : (0 : ℝ) ≤ (r : ℝ) ^ n / n.factorial := by have : (0 : ℝ) ≤ r := h.trans h1; positivity
    push_cast
    rw [abs_zero, one_mul]
    linarith
  · have := rat_close (x := -x) (by norm_num) hM' hK' (by linarith) (by linarith)
    rw [evalR_neg] at this
    have e : Aby3.logistic x = (((0 : ℚ) : ℝ) + ((1 : ℚ) : ℝ) * Real.exp (-(((1 : ℚ) : ℝ) * -x))) /
        (1 + Real.exp (-(((1 : ℚ) : ℝ) * -x))) := by
      unfold Aby3.logistic
      push_cast
      rw [zero_add, one_mul, one_mul, neg_neg]
      have h2 : Real.exp x * Real.exp (-x) = 1 := by rw [← Real.exp_add]; simp
      have p1 := Real.exp_pos x
      have p2 := Real.exp_pos (-x)
      rw [div_eq_div_iff (by positivity) (by positivity)]
      linear_combination -h2
    rw [e]
    refine this.trans ?_
    push_cast
    rw [abs_one, one_mul]

/-- A polynomial against the hyperbolic tangent on `[-r, r]`. -/
theorem tanh_near {p : List ℚ} {r M K : ℚ} {n k d : ℕ} (hM : check (ratDiff p 2 1 (-1) n) M k 0 r = true)
    (hM' : check (ratDiff (scale (-1) p) 2 (-1) 1 n) M k 0 r = true) (hK : check p K d 0 r = true)
    (hK' : check (scale (-1) p) K d 0 r = true) {x : ℝ} (h0 : -r ≤ x) (h1 : x ≤ r) :
    |evalR p x - Real.tanh x| ≤ M + (K + 1) * ((2 * r) ^ n / n.factorial) := by
  rcases le_total 0 x with h | h
  · have := rat_close (by norm_num) hM hK h h1
    rw [← tanh_eq] at this
    refine this.trans (le_of_eq ?_)
    push_cast
    rw [abs_neg, abs_one]
  · have := rat_close (x := -x) (by norm_num) hM' hK' (by linarith) (by linarith)
    rw [evalR_neg] at this
    have e : Real.tanh x = (((-1 : ℚ) : ℝ) + ((1 : ℚ) : ℝ) * Real.exp (-(((2 : ℚ) : ℝ) * -x))) /
        (1 + Real.exp (-(((2 : ℚ) : ℝ) * -x))) := by
      have := tanh_eq (-x)
      rw [Real.tanh_neg] at this
      rw [← neg_neg (Real.tanh x), this, ← neg_div]
      congr 1
      push_cast
      ring
    rw [e]
    refine this.trans (le_of_eq ?_)
    push_cast
    rw [abs_one]

/-- A polynomial against `max x 0` on `[-r, r]`. -/
theorem relu_near {p : List ℚ} {r M : ℚ} {k : ℕ} (hM : check (Aby3.PolyBound.sub p [0, 1]) M k 0 r = true)
    (hM' : check p M k (-r) 0 = true) {x : ℝ} (h0 : -r ≤ x) (h1 : x ≤ r) : |evalR p x - max x 0| ≤ M := by
  rcases le_total 0 x with h | h
  · have := check_sound _ _ _ _ _ hM x (by push_cast; exact h) h1
    rw [sub_eval] at this
    rw [max_eq_left h]
    simpa [evalR_cons, evalR_nil] using this
  · have := check_sound _ _ _ _ _ hM' x (by push_cast; exact h0) (by push_cast; exact h)
    rw [max_eq_right h, sub_zero]
    exact this

/-! ## The coefficients in the library's configurations -/

/-- Coefficients `1416/6561`, `-53/6561`, `1/6561`; those of `x^7` and `x^9` are gone. -/
def sigmoid64 : List ℚ := [3280 / 6561, 1416 / 6561, 0, -53 / 6561, 0, 1 / 6561, 0, 0, 0, 0]
def sigmoid100 : List ℚ := [1 / 2, 14150 / 65536, 0, -538 / 65536, 0, 11 / 65536, 0, 0, 0, 0]
def relu64 : List ℚ := [2887 / 6561, 3280 / 6561, 735 / 6561, 0, -8 / 6561, 0, 0, 0, 0]
def relu100 : List ℚ := [28845 / 65536, 1 / 2, 7351 / 65536, 0, -89 / 65536, 0, 0, 0, 0]
def tanh64 : List ℚ := [0, 5594 / 6561, 0, -819 / 6561, 0, 69 / 6561, 0, -2 / 6561]
def tanh100 : List ℚ := [0, 55883 / 65536, 0, -8188 / 65536, 0, 698 / 65536, 0, -27 / 65536]
def log64 : List ℚ := [-22023 / 6561, 83937 / 6561, -171829 / 6561, 198443 / 6561, -113529 / 6561, 25094 / 6561]
def log100 : List ℚ := [-219987 / 65536, 838424 / 65536, -1716358 / 65536, 1982199 / 65536, -1134013 / 65536,
  250658 / 65536]

/-- **The two highest terms of `sigmoid` and `relu` are dropped**: in both interactive configurations of the library the
result is the exact polynomial of degree 5, respectively 4, up to rounding. -/
theorem exact_values (q : ℚ) :
    sigmoidCode.exact fixed64 (fun _ => q) = eval sigmoid64 q ∧ sigmoidCode.exact fixed100 (fun _ => q) = eval sigmoid100 q ∧
    reluCode.exact fixed64 (fun _ => q) = eval relu64 q ∧ reluCode.exact fixed100 (fun _ => q) = eval relu100 q ∧
    tanhCode.exact fixed64 (fun _ => q) = eval tanh64 q ∧ tanhCode.exact fixed100 (fun _ => q) = eval tanh100 q ∧
    logCode.exact fixed64 (fun _ => q) = eval log64 q ∧ logCode.exact fixed100 (fun _ => q) = eval log100 q := by
  simp only [sigmoid_exact, relu_exact, tanh_exact, log_exact]
  refine ⟨?_, ?_, ?_, ?_, ?_, ?_, ?_, ?_⟩ <;> congr 1 <;> decide +kernel

/-! ## How close the results are -/

theorem sigmoid_ty (F : Factory) (c : Config) (n : ℕ) : (sigmoidCode.start F c n).ty .nil = .ok (.priv, true) := rfl
theorem relu_ty (F : Factory) (c : Config) (n : ℕ) : (reluCode.start F c n).ty .nil = .ok (.priv, true) := rfl
theorem tanh_ty (F : Factory) (c : Config) (n : ℕ) : (tanhCode.start F c n).ty .nil = .ok (.priv, true) := rfl
theorem log_ty (F : Factory) (c : Config) (n : ℕ) : (logCode.start F c n).ty .nil = .ok (.priv, true) := rfl

/-- **`sigmoid`, partial**: within 0.035 of the logistic function on `[-4, 4]`. Missing: everything outside, see
`sigmoid_false`. -/
theorem sigmoid_close_partial :
    Accurate (native 64) .native fixed64 sigmoidCode Aby3.logistic (-4) 4 (35 / 1000) ∧
    Accurate (crt int100Modulus) .crt fixed100 sigmoidCode Aby3.logistic (-4) 4 (35 / 1000) := by
  constructor
  · refine accurate_of ready64 (L := sigmoidAnn64) (ε := 1 / 1000) (by decide +kernel) (sigmoid_ty _ _)
      (by decide +kernel) (by decide +kernel) fun q h1 h2 => ?_
    rw [(exact_values q).1, eval_cast]
    refine (logistic_near (r := 4) (M := 33 / 1000) (K := 2) (n := 17) (k := 8) (d := 3) (by decide +kernel)
      (by decide +kernel) (by decide +kernel) (by decide +kernel) (by exact_mod_cast h1) (by exact_mod_cast h2)).trans ?_
    norm_num [Nat.factorial]
  · refine accurate_of ready100 (L := sigmoidAnn100) (ε := 1 / 10000) (by decide +kernel) (sigmoid_ty _ _)
      (by decide +kernel) (by decide +kernel) fun q h1 h2 => ?_
    rw [(exact_values q).2.1, eval_cast]
    refine (logistic_near (r := 4) (M := 33 / 1000) (K := 2) (n := 17) (k := 8) (d := 3) (by decide +kernel)
      (by decide +kernel) (by decide +kernel) (by decide +kernel) (by exact_mod_cast h1) (by exact_mod_cast h2)).trans ?_
    norm_num [Nat.factorial]

/-- **`relu`, partial**: within 0.45 of `max x 0` on `[-6, 6]`. Missing: everything outside, see `relu_false`; and the bound
cannot be better, see `relu_zero`. -/
theorem relu_close_partial :
    Accurate (native 64) .native fixed64 reluCode (max · 0) (-6) 6 (45 / 100) ∧
    Accurate (crt int100Modulus) .crt fixed100 reluCode (max · 0) (-6) 6 (45 / 100) := by
  constructor
  · refine accurate_of ready64 (L := reluAnn64) (ε := 1 / 1000) (by decide +kernel) (relu_ty _ _)
      (by decide +kernel) (by decide +kernel) fun q h1 h2 => ?_
    rw [(exact_values q).2.2.1, eval_cast]
    refine (relu_near (r := 6) (M := 445 / 1000) (k := 8) (by decide +kernel) (by decide +kernel)
      (by exact_mod_cast h1) (by exact_mod_cast h2)).trans ?_
    norm_num
  · refine accurate_of ready100 (L := reluAnn100) (ε := 1 / 10000) (by decide +kernel) (relu_ty _ _)
      (by decide +kernel) (by decide +kernel) fun q h1 h2 => ?_
    rw [(exact_values q).2.2.2.1, eval_cast]
    refine (relu_near (r := 6) (M := 445 / 1000) (k := 8) (by decide +kernel) (by decide +kernel)
      (by exact_mod_cast h1) (by exact_mod_cast h2)).trans ?_
    norm_num

/-- **`tanh`, partial**: within 0.1 of the hyperbolic tangent on `[-2.9, 2.9]`. Missing: everything outside, see
`tanh_false`. -/
theorem tanh_close_partial :
    Accurate (native 64) .native fixed64 tanhCode Real.tanh (-29 / 10) (29 / 10) (1 / 10) ∧
    Accurate (crt int100Modulus) .crt fixed100 tanhCode Real.tanh (-29 / 10) (29 / 10) (1 / 10) := by
  constructor
  · refine accurate_of ready64 (L := tanhAnn64) (ε := 1 / 1000) (by decide +kernel) (tanh_ty _ _)
      (by decide +kernel) (by decide +kernel) fun q h1 h2 => ?_
    rw [(exact_values q).2.2.2.2.1, eval_cast]
    refine (tanh_near (r := 29 / 10) (M := 98 / 1000) (K := 2) (n := 23) (k := 8) (d := 5) (by decide +kernel)
      (by decide +kernel) (by decide +kernel) (by decide +kernel) (by simpa [neg_div, ann, tanhAnn64] using (Rat.cast_le (K := ℝ)).2 h1)
      (by exact_mod_cast h2)).trans ?_
    norm_num [Nat.factorial]
  · refine accurate_of ready100 (L := tanhAnn100) (ε := 1 / 10000) (by decide +kernel) (tanh_ty _ _)
      (by decide +kernel) (by decide +kernel) fun q h1 h2 => ?_
    rw [(exact_values q).2.2.2.2.2.1, eval_cast]
    refine (tanh_near (r := 29 / 10) (M := 98 / 1000) (K := 2) (n := 23) (k := 8) (d := 5) (by decide +kernel)
      (by decide +kernel) (by decide +kernel) (by decide +kernel) 
      (by simpa [neg_div, ann, tanhAnn100] using (Rat.cast_le (K := ℝ)).2 h1) (by exact_mod_cast h2)).trans ?_
    norm_num [Nat.factorial]

/-- A polynomial against the logarithm on `[1/10, 3/2]`. -/
theorem log_near {p : List ℚ} {M : ℚ} {k : ℕ} (hM : check (Aby3.PolyBound.sub p Aby3.chebCoeffs) M k (1 / 10) (3 / 2) = true)
    {x : ℝ} (h1 : 1 / 10 ≤ x) (h2 : x ≤ 3 / 2) : |evalR p x - Real.log x| ≤ M + 367 / 10000 := by
  have h := check_sound _ _ _ _ _ hM x (by push_cast; exact h1) (by push_cast; exact h2)
  rw [sub_eval] at h
  have h' := Aby3.cheb_log h1 h2
  exact (abs_sub_le _ _ _).trans (add_le_add h h')

/-- **`log`, partial**: within 0.08, respectively 0.041, of the natural logarithm on `[1/10, 3/2]`. Missing: everything
outside, see `log_false`. -/
theorem log_close_partial :
    Accurate (native 64) .native fixed64 logCode Real.log (1 / 10) (3 / 2) (8 / 100) ∧
    Accurate (crt int100Modulus) .crt fixed100 logCode Real.log (1 / 10) (3 / 2) (41 / 1000) := by
  constructor
  · refine accurate_of ready64 (L := logAnn64) (ε := 35 / 1000) (by decide +kernel) (log_ty _ _)
      (by decide +kernel) (by decide +kernel) fun q h1 h2 => ?_
    rw [(exact_values q).2.2.2.2.2.2.1, eval_cast]
    have h1' : (1 / 10 : ℝ) ≤ q := by simpa [ann, logAnn64] using (Rat.cast_le (K := ℝ)).2 h1
    have h2' : (q : ℝ) ≤ 3 / 2 := by simpa [ann, logAnn64] using (Rat.cast_le (K := ℝ)).2 h2
    refine (log_near (M := 8 / 1000) (k := 8) (by decide +kernel) h1' h2').trans ?_
    norm_num
  · refine accurate_of ready100 (L := logAnn100) (ε := 35 / 10000) (by decide +kernel) (log_ty _ _)
      (by decide +kernel) (by decide +kernel) fun q h1 h2 => ?_
    rw [(exact_values q).2.2.2.2.2.2.2, eval_cast]
    have h1' : (1 / 10 : ℝ) ≤ q := by simpa [ann, logAnn100] using (Rat.cast_le (K := ℝ)).2 h1
    have h2' : (q : ℝ) ≤ 3 / 2 := by simpa [ann, logAnn100] using (Rat.cast_le (K := ℝ)).2 h2
    refine (log_near (M := 8 / 10000) (k := 8) (by decide +kernel) h1' h2').trans ?_
    norm_num

/-! ## Where they are wrong -/

/-- **`sigmoid(8)` is above 3**, for every draw. -/
theorem sigmoid_false :
    Returns (native 64) .native fixed64 sigmoidCode 8 (Set.Ici 3) ∧
    Returns (crt int100Modulus) .crt fixed100 sigmoidCode 8 (Set.Ici 3) := by
  constructor
  · exact returns_of ready64 (L := sigmoidFarAnn64) (ε := 1 / 1000) (by decide +kernel) (sigmoid_ty _ _)
      (by decide +kernel) (by decide +kernel) (by decide +kernel) (by decide +kernel)
      fun v h _ => le_trans (by decide +kernel) h
  · exact returns_of ready100 (L := sigmoidFarAnn100) (ε := 1 / 1000) (by decide +kernel) (sigmoid_ty _ _)
      (by decide +kernel) (by decide +kernel) (by decide +kernel) (by decide +kernel)
      fun v h _ => le_trans (by decide +kernel) h

/-- **`relu(10)` is below 5**, for every draw. -/
theorem relu_false :
    Returns (native 64) .native fixed64 reluCode 10 (Set.Iic 5) ∧
    Returns (crt int100Modulus) .crt fixed100 reluCode 10 (Set.Iic 5) := by
  constructor
  · exact returns_of ready64 (L := reluFarAnn64) (ε := 1 / 1000) (by decide +kernel) (relu_ty _ _)
      (by decide +kernel) (by decide +kernel) (by decide +kernel) (by decide +kernel)
      fun v _ h => h.trans (by decide +kernel)
  · exact returns_of ready100 (L := reluFarAnn100) (ε := 1 / 1000) (by decide +kernel) (relu_ty _ _)
      (by decide +kernel) (by decide +kernel) (by decide +kernel) (by decide +kernel)
      fun v _ h => h.trans (by decide +kernel)

/-- **`relu(0)` is above 0.43**, for every draw. -/
theorem relu_zero :
    Returns (native 64) .native fixed64 reluCode 0 (Set.Ici (43 / 100)) ∧
    Returns (crt int100Modulus) .crt fixed100 reluCode 0 (Set.Ici (43 / 100)) := by
  constructor
  · exact returns_of ready64 (L := reluZeroAnn64) (ε := 1 / 1000) (by decide +kernel) (relu_ty _ _)
      (by decide +kernel) (by decide +kernel) (by decide +kernel) (by decide +kernel)
      fun v h _ => le_trans (by decide +kernel) h
  · exact returns_of ready100 (L := reluZeroAnn100) (ε := 1 / 1000) (by decide +kernel) (relu_ty _ _)
      (by decide +kernel) (by decide +kernel) (by decide +kernel) (by decide +kernel)
      fun v h _ => le_trans (by decide +kernel) h

/-- **`tanh(5)` is below -2**, for every draw. -/
theorem tanh_false :
    Returns (native 64) .native fixed64 tanhCode 5 (Set.Iic (-2)) ∧
    Returns (crt int100Modulus) .crt fixed100 tanhCode 5 (Set.Iic (-2)) := by
  constructor
  · exact returns_of ready64 (L := tanhFarAnn64) (ε := 1 / 100) (by decide +kernel) (tanh_ty _ _)
      (by decide +kernel) (by decide +kernel) (by decide +kernel) (by decide +kernel)
      fun v _ h => h.trans (by decide +kernel)
  · exact returns_of ready100 (L := tanhFarAnn100) (ε := 1 / 100) (by decide +kernel) (tanh_ty _ _)
      (by decide +kernel) (by decide +kernel) (by decide +kernel) (by decide +kernel)
      fun v _ h => h.trans (by decide +kernel)

/-- **`log(2)` is above 4.9**, for every draw. -/
theorem log_false :
    Returns (native 64) .native fixed64 logCode 2 (Set.Ici (49 / 10)) ∧
    Returns (crt int100Modulus) .crt fixed100 logCode 2 (Set.Ici (49 / 10)) := by
  constructor
  · exact returns_of ready64 (L := logFarAnn64) (ε := 5 / 100) (by decide +kernel) (log_ty _ _)
      (by decide +kernel) (by decide +kernel) (by decide +kernel) (by decide +kernel)
      fun v h _ => le_trans (by decide +kernel) h
  · exact returns_of ready100 (L := logFarAnn100) (ε := 5 / 100) (by decide +kernel) (log_ty _ _)
      (by decide +kernel) (by decide +kernel) (by decide +kernel) (by decide +kernel)
      fun v h _ => le_trans (by decide +kernel) h

/-- Non-vacuity: the configurations exist, and inputs in the intervals exist. -/
example : (∃ C, pondCfg (native 64) .native fixed64 = some C) ∧ (∃ C, pondCfg (crt int100Modulus) .crt fixed100 = some C) ∧
    (-4 : ℚ) ≤ ((3 * 6561 + 1 : ℤ) : ℚ) / fixed64.scale ∧ ((3 * 6561 + 1 : ℤ) : ℚ) / fixed64.scale ≤ 4 := by
  refine ⟨library_fixed.1, library_fixed.2.2.2.2.2, ?_, ?_⟩ <;> norm_num [Config.scale, fixed64]

/-! ## Secrecy -/

theorem code_noReveal (F : Factory) (c : Config) (n : ℕ) {m : ℕ} (k : Code m) : (k.prog F c n).NoReveal := by
  induction k with
  | ret => trivial
  | line o k ih =>
    have h : (o.op F c n).isReveal = false := by cases o <;> rfl
    rw [Code.prog]
    exact ⟨h, ih⟩

theorem code_noMatmul (F : Factory) (c : Config) (n : ℕ) {m : ℕ} (k : Code m) : (k.prog F c n).NoMatmul := by
  induction k with
  | ret => trivial
  | line o k ih =>
    rw [Code.prog]
    cases o <;> exact ih

/-- **Secrecy**: with a truncation that hides (`pond_noninteractive_hides`), the view of a server while it computes any of
the four functions has the same distribution for all inputs. -/
theorem activation_secrecy {F : Factory} [NeZero F.modulus] {c : Config} (σ : Server) (C : Cfg (Vec F)) (hC : C.Hides σ) (n : ℕ)
    (k : Code 1) (x x' : Fin n → ZMod F.modulus) :
    ((k.start F c n).start C fun _ => x).dist.map (view σ) = ((k.start F c n).start C fun _ => x').dist.map (view σ) :=
  program_secrecy_partial σ C hC _ _ _ ⟨rfl, code_noReveal F c n k⟩ fun _ =>
    Prog.NoMatmul.confined (k.start F c n) (code_noMatmul F c n k) _

end Verif.Pond
