import Verif.Local.Variables
import Verif.Local.Props

/-!
# C98: a variable starts with the value it was given

`Truth` (in `Local/Lemmas` and `Local/Props`) is the value that a tensor stands for under its own scale and
share type; `Near` compares it with plaintext data.
-/

namespace Verif.Local

open Verif

/-- The plaintext `u` is `v` up to one unit of the encoding, and no larger in magnitude. -/
def Near (unit : ℚ) (v u : Vec) : Prop :=
  ∃ f : Fin v.n → ℚ, u = ⟨v.n, f⟩ ∧ ∀ i, |f i - v.val i| < unit ∧ |f i| ≤ |v.val i|

/-- The plaintext, entry by entry times `r`. -/
def Vec.scale (r : ℚ) (v : Vec) : Vec := ⟨v.n, fun i => v.val i * r⟩

namespace Aby3
open Verif.Aby3

/-- What sharing data gives. -/
theorem data_gives (w frac : ℕ) (apply : Bool) {tag : Tag} (ht : tag ≠ .pub) (v : Vec) :
    ∃ m, privateVariable w frac apply tag (.data v) = .ok m ∧
      M.All (Gives w frac apply tag v) m := by
  obtain ⟨m, m', h, -, sim⟩ := shareOutput_sim w frac apply ht 0
    (r := .tensor v true) (r' := .tensor v true) (v := v) (v' := v) rfl rfl rfl
  refine ⟨m, h, sim.left ?_⟩
  rintro x x' ⟨hx, -⟩
  exact hx

theorem gives_truth {w frac : ℕ} {apply : Bool} {tag : Tag} {v : Vec} {y : Priv}
    (h : Gives w frac apply tag v y) :
    Truth frac (.priv y) ⟨v.n, fun i => decode frac apply (encode w frac apply (v.val i))⟩ := by
  obtain ⟨sh, rfl, hs⟩ := h
  exact ⟨_, hs, rfl⟩

/-- **C98 (ABY3), data.** A private variable made from an array or tensor of numbers that fit the word stands
for them up to one unit, whatever is drawn, for both share types. -/
theorem private_from_data (w frac : ℕ) (hw : 1 < w) {tag : Tag} (ht : tag ≠ .pub) (v : Vec)
    (hv : ∀ i, |v.val i| * 2 ^ frac < 2 ^ (w - 1)) :
    ∃ m, privateVariable w frac true tag (.data v) = .ok m ∧
      M.All (fun y => y.tag = tag ∧ ∃ u, Truth frac (.priv y) u ∧ Near (1 / 2 ^ frac) v u) m := by
  obtain ⟨m, e, hm⟩ := data_gives w frac true ht v
  refine ⟨m, e, hm.mono fun y hy => ?_⟩
  have htr := gives_truth hy
  obtain ⟨u, e', hu⟩ := local_reveals w frac hw hy hv none
  obtain ⟨sh, rfl, hs⟩ := hy
  refine ⟨rfl, _, htr, _, rfl, fun i => ?_⟩
  simp only [openArg, stands_reconstruct hs none, Except.ok.injEq, Vec.mk.injEq, heq_eq_eq,
    true_and] at e'
  have := hu i
  rw [← e'] at this
  exact this

/-- **C98 (ABY3), public variables and constants of data.** All servers hold the same words, which stand for
the data up to one unit. -/
theorem public_from_data (w frac : ℕ) (hw : 1 < w) (v : Vec)
    (hv : ∀ i, |v.val i| * 2 ^ frac < 2 ^ (w - 1)) :
    publicVariable w frac true (.data v) = .ok (constant w frac true v) ∧
      ∃ u, Truth frac (.pub _ _ (constant w frac true v).vals (constant w frac true v).scaled) u ∧
        Near (1 / 2 ^ frac) v u := by
  refine ⟨rfl, _, ⟨_, fun _ => rfl, rfl⟩, ?_⟩
  obtain ⟨m, -, hm⟩ := data_gives w frac true (tag := .arithmetic) (by decide) v
  refine ⟨_, rfl, fun i => ?_⟩
  obtain ⟨y, hy⟩ : ∃ y, Gives w frac true .arithmetic v y := by
    refine ⟨⟨w, v.n, fun k => (fun i => if k = 0 then encode w frac true (v.val i) else 0,
      fun i => if k = 2 then encode w frac true (v.val i) else 0), true, .arithmetic⟩, _, rfl, ?_⟩
    refine ⟨fun k => ?_, ?_⟩
    · fin_cases k <;> rfl
    · funext i
      simp [Words]
  obtain ⟨u, e', hu⟩ := local_reveals w frac hw hy hv none
  obtain ⟨sh, rfl, hs⟩ := hy
  simp only [openArg, stands_reconstruct hs none, Except.ok.injEq, Vec.mk.injEq, heq_eq_eq,
    true_and] at e'
  have := hu i
  rw [← e'] at this
  exact this

/-- Integers without scaling are kept exactly. -/
theorem private_from_integers (w frac : ℕ) (hw : 1 < w) {tag : Tag} (ht : tag ≠ .pub) {n : ℕ}
    (k : Fin n → ℤ) (hk : ∀ i, -2 ^ (w - 1) ≤ k i ∧ k i < 2 ^ (w - 1)) :
    ∃ m, privateVariable w frac false tag (.data ⟨n, fun i => k i⟩) = .ok m ∧
      M.All (fun y => Truth frac (.priv y) ⟨n, fun i => k i⟩) m := by
  obtain ⟨m, e, hm⟩ := data_gives w frac false ht ⟨n, fun i => k i⟩
  refine ⟨m, e, hm.mono fun y hy => ?_⟩
  have htr := gives_truth hy
  have e' := local_reveals_exact w frac hw k hy hk none
  obtain ⟨sh, rfl, hs⟩ := hy
  simp only [openArg, stands_reconstruct hs none, Except.ok.injEq] at e'
  rwa [e'] at htr

/-- Truth values in the one-bit factory are kept exactly. -/
theorem private_from_bools (frac : ℕ) {tag : Tag} (ht : tag ≠ .pub) {n : ℕ} (b : Fin n → Bool) :
    ∃ m, privateVariable 1 frac false tag (.data ⟨n, fun i => if b i then 1 else 0⟩) = .ok m ∧
      M.All (fun y => Truth frac (.priv y) ⟨n, fun i => if b i then 1 else 0⟩) m := by
  obtain ⟨m, e, hm⟩ := data_gives 1 frac false ht ⟨n, fun i => if b i then 1 else 0⟩
  refine ⟨m, e, hm.mono fun y hy => ?_⟩
  have htr := gives_truth hy
  have e' := local_reveals_bool frac b hy none
  obtain ⟨sh, rfl, hs⟩ := hy
  simp only [openArg, stands_reconstruct hs none, Except.ok.injEq] at e'
  rwa [e'] at htr

/-- **C98 (ABY3), tensors, in part.** A private variable made from a private tensor stands for the same value if
the tensor has the scale and share type that the call names. Missing: the other tensors
(`private_scale_false`, `private_share_type_false`), and public tensors, which are refused. -/
theorem private_from_tensor_partial (w frac : ℕ) (x : Priv) {u : Vec} (h : Truth frac (.priv x) u) :
    ∃ m, privateVariable w frac x.scaled x.tag (.priv x) = .ok m ∧
      M.All (fun y => Truth frac (.priv y) u) m :=
  ⟨_, rfl, h⟩

/-- The same for public variables of the tensor's own factory. -/
theorem public_from_tensor_partial (frac : ℕ) (x : Public) {u : Vec}
    (h : Truth frac (.pub x.w x.n x.vals x.scaled) u) :
    ∃ y, publicVariable x.w frac x.scaled (.pub x) = .ok y ∧
      Truth frac (.pub y.w y.n y.vals y.scaled) u :=
  ⟨x, by simp [publicVariable], h⟩

/-- What becomes of the other private tensors: with the default `apply_scaling=True` a variable made from an
unscaled tensor stands for its value divided by the scale, without an error. -/
theorem private_unscaled (w frac : ℕ) (x : Priv) (hs : x.scaled = false) {u : Vec}
    (h : Truth frac (.priv x) u) :
    ∃ m, privateVariable w frac true x.tag (.priv x) = .ok m ∧
      M.All (fun y => Truth frac (.priv y) (u.scale (1 / 2 ^ frac))) m := by
  obtain ⟨v, hv, rfl⟩ := h
  refine ⟨_, rfl, v, hv, ?_⟩
  simp [Vec.scale, decode, hs, div_eq_mul_inv]

/-- Conversely `apply_scaling=False` multiplies the value of a scaled tensor by the scale. -/
theorem private_scaled (w frac : ℕ) (x : Priv) (hs : x.scaled = true) {u : Vec}
    (h : Truth frac (.priv x) u) :
    ∃ m, privateVariable w frac false x.tag (.priv x) = .ok m ∧
      M.All (fun y => Truth frac (.priv y) (u.scale (2 ^ frac))) m := by
  obtain ⟨v, hv, rfl⟩ := h
  refine ⟨_, rfl, v, hv, ?_⟩
  have : (2 : ℚ) ^ frac ≠ 0 := by positivity
  simp [Vec.scale, decode, hs, this]

/-- A private tensor that stands for one, unscaled. -/
def one64 : Priv := ⟨64, 1, fun k => (fun _ => if k = 0 then 1 else 0,
  fun _ => if k = 2 then 1 else 0), false, .arithmetic⟩

theorem one64_truth (frac : ℕ) : Truth frac (.priv one64) ⟨1, fun _ => 1⟩ := by
  refine ⟨fun _ => 1, ⟨fun k => by fin_cases k <;> rfl, ?_⟩, ?_⟩
  · funext i
    show (1 : BitVec 64) + 0 + 0 = 1
    decide
  · congr

/-- **C98 is false: scale.** With the default arguments a variable made from a private tensor need not stand
for the tensor's value: an unscaled one becomes `1 / 2 ^ frac`. -/
theorem private_scale_false : ¬ ∀ (w frac : ℕ) (x : Priv) (u : Vec), x.tag = .arithmetic →
    Truth frac (.priv x) u →
    ∃ m, privateVariable w frac true .arithmetic (.priv x) = .ok m ∧
      M.All (fun y => Truth frac (.priv y) u) m := by
  intro h
  obtain ⟨m, e, hm⟩ := h 64 1 one64 _ rfl (one64_truth 1)
  cases e
  obtain ⟨v, hv, e1⟩ : Truth 1 (.priv ⟨64, 1, one64.shares, true, .arithmetic⟩) ⟨1, fun _ => 1⟩ := hm
  obtain ⟨v', hv', e2⟩ := one64_truth 1
  have r1 := stands_reconstruct hv none
  have r2 := stands_reconstruct hv' none
  have : v = v' := Except.ok.inj (r1.symm.trans r2)
  subst this
  have a := congrFun (eq_of_heq (Vec.mk.inj e1).2) 0
  have b := congrFun (eq_of_heq (Vec.mk.inj e2).2) 0
  simp only [decode, one64] at a b
  norm_num at a b
  rw [← b] at a
  norm_num at a

/-- **C98 is false: share type.** The boolean sharing (1, 1, 1) of 1 becomes an arithmetic variable that stands
for 3, as the share type of the call is ARITHMETIC by default. -/
theorem private_share_type_false : ¬ ∀ (w frac : ℕ) (x : Priv) (u : Vec),
    Truth frac (.priv x) u →
    ∃ m, privateVariable w frac x.scaled .arithmetic (.priv x) = .ok m ∧
      M.All (fun y => Truth frac (.priv y) u) m := by
  intro h
  let x : Priv := ⟨64, 1, fun _ => (fun _ => 1, fun _ => 1), false, .boolean⟩
  have ht : Truth 0 (.priv x) ⟨1, fun i => decode 0 false ((fun _ => 1 : Words 64 1) i)⟩ :=
    ⟨fun _ => 1, ⟨fun _ => rfl, by
      funext i; apply XBits.ext
      show (1 : BitVec 64) ^^^ 1 ^^^ 1 = 1
      decide⟩, rfl⟩
  obtain ⟨m, e, hm⟩ := h 64 0 x _ ht
  cases e
  obtain ⟨v, hv, e1⟩ : Truth 0 (.priv ⟨64, 1, x.shares, false, .arithmetic⟩)
    ⟨1, fun i => decode 0 false ((fun _ => 1 : Words 64 1) i)⟩ := hm
  have hv0 : v 0 = 3 := by
    have r := stands_reconstruct hv none
    have : v = fun _ => (1 : BitVec 64) + 1 + 1 := (Except.ok.inj r).symm
    rw [this]; rfl
  have a := congrFun (eq_of_heq (Vec.mk.inj e1).2) 0
  simp only [hv0] at a
  revert a
  simp [decode]

/-- Initial values of the wrong kind are refused: public and other values for private variables, private and
other values for public ones, and public tensors of another word size. -/
theorem refused (w frac : ℕ) (apply : Bool) (tag : Tag) (x : Public) (y : Priv) (hw : x.w ≠ w) :
    privateVariable w frac apply tag (.pub x) = .error .assertion ∧
    privateVariable w frac apply tag .other = .error .assertion ∧
    publicVariable w frac apply (.priv y) = .error .assertion ∧
    publicVariable w frac apply .other = .error .assertion ∧
    publicVariable w frac apply (.pub x) = .error .type :=
  ⟨rfl, rfl, rfl, rfl, by simp [publicVariable, hw]⟩

/-- **C98 is false: public tensors.** The documentation of `define_private_variable` names public tensors as
initial values (aby3.py 416); all of them are refused. -/
theorem private_public_false : ¬ ∀ (w frac : ℕ) (x : Public), x.w = w →
    ∃ m, privateVariable w frac x.scaled .arithmetic (.pub x) = .ok m := by
  intro h
  obtain ⟨m, e⟩ := h 64 0 ⟨64, 1, fun _ _ => 0, true⟩ rfl
  cases e

/-- A concrete case of `private_from_data`: the numbers 3/2 and -1/3 in words of 64 bits. -/
example : ∀ i : Fin 2, |(⟨2, ![3 / 2, -1 / 3]⟩ : Vec).val i| * 2 ^ 18 < 2 ^ (64 - 1) := by
  intro i
  fin_cases i <;> norm_num [abs_of_pos, abs_of_neg]

end Aby3

namespace Pond
open Verif.Pond

variable {F : Fixed.Factory}

/-- **C98 (Pond), data.** -/
theorem private_from_data {c : Fixed.Config} (hb : 0 < c.base) (hF : Fixed.HoldsShifted F c) (v : Vec)
    (hv : ∀ i, |v.val i| < (c.base : ℚ) ^ c.pInt) :
    ∃ m, privateVariable (F := F) c true (.data v) = .ok m ∧
      m.All fun y => ∃ u, Truth c (.priv y.n y.x y.scaled) u ∧ Near (1 / c.scale) v u := by
  refine ⟨_, rfl, ?_⟩
  rw [RandM.all_bind]
  refine RandM.All.mono (fun p hp => ?_) (share_ok (T := RT F) (s := v.n) _)
  refine ⟨_, rfl, _, rfl, fun i => ?_⟩
  have hp' : (p.x0 + p.x1) i = (Fixed.encode c true (v.val i) : ZMod F.modulus) := by
    have : p.x0 + p.x1 = _ := hp
    rw [this]
  rw [hp']
  obtain ⟨h1, h2, -⟩ := Fixed.pond_encode_decode (F := F) hb hF (v.val i) (hv i)
  exact ⟨h1, h2⟩

/-- **C98 (Pond), public variables and constants of data.** -/
theorem public_from_data {c : Fixed.Config} (hb : 0 < c.base) (hF : Fixed.HoldsShifted F c) (v : Vec)
    (hv : ∀ i, |v.val i| < (c.base : ℚ) ^ c.pInt) :
    publicVariable (F := F) c true (.data v) = .ok (constant c true v) ∧
      ∃ u, Truth c (.pub (F := F) v.n (constant c true v).v0 (constant c true v).v1
        (constant (F := F) c true v).scaled) u ∧ Near (1 / c.scale) v u := by
  refine ⟨rfl, _, ⟨rfl, rfl⟩, _, rfl, fun i => ?_⟩
  obtain ⟨h1, h2, -⟩ := Fixed.pond_encode_decode (F := F) hb hF (v.val i) (hv i)
  exact ⟨h1, h2⟩

/-- Integers without scaling are kept exactly, by private and public variables and constants. -/
theorem from_integers {c : Fixed.Config} (hF : Fixed.HoldsShifted F c) {n : ℕ} (k : Fin n → ℤ)
    (hk : ∀ i, -(c.boundSingle : ℤ) ≤ k i ∧ k i < c.boundSingle) :
    (∃ m, privateVariable (F := F) c false (.data ⟨n, fun i => k i⟩) = .ok m ∧
      m.All fun y => Truth c (.priv y.n y.x y.scaled) ⟨n, fun i => k i⟩) ∧
    ∃ y, publicVariable (F := F) c false (.data ⟨n, fun i => k i⟩) = .ok y ∧
      y = constant c false ⟨n, fun i => k i⟩ ∧
      Truth c (.pub y.n y.v0 y.v1 y.scaled) ⟨n, fun i => k i⟩ := by
  have hd : ∀ i, Fixed.decodePond F c false (Fixed.encode c false (k i) : ZMod F.modulus) = k i :=
    fun i => (Fixed.encode_decode_integer (F := F) (k i) (hk i).1 (hk i).2).1 hF
  refine ⟨⟨_, rfl, ?_⟩, _, rfl, rfl, rfl, ?_⟩
  · rw [RandM.all_bind]
    refine RandM.All.mono (fun p hp => ?_) (share_ok (T := RT F) (s := n) _)
    have : p.x0 + p.x1 = fun i => (Fixed.encode c false (k i) : ZMod F.modulus) := hp
    show _ = (⟨n, fun i => Fixed.decodePond F c false ((p.x0 + p.x1) i)⟩ : Vec)
    rw [this]
    congr 1
    funext i
    exact (hd i).symm
  · show _ = (⟨n, fun i => Fixed.decodePond F c false _⟩ : Vec)
    congr 1
    funext i
    exact (hd i).symm

/-- The value of an initial tensor. -/
def Value (c : Fixed.Config) : Init F → Vec → Prop
  | .pub n v0 v1 sc, u => Truth c (.pub n v0 v1 sc) u
  | .priv x, u => Truth c (.priv x.n x.x x.scaled) u
  | _, _ => False

/-- The `is_scaled` flag of an initial tensor. -/
def isScaled : Init F → Option Bool
  | .pub _ _ _ sc => some sc
  | .priv x => some x.scaled
  | _ => none

/-- **C98 (Pond), tensors, in part.** A private variable made from a public or private tensor stands for the
same value, whatever is drawn, if the call names the tensor's scale. Missing: the other scale
(`private_unscaled`, `private_scale_false`); masked tensors are refused. -/
theorem private_from_tensor_partial (c : Fixed.Config) {x : Init F} {sc : Bool}
    (hs : isScaled x = some sc) {u : Vec} (h : Value c x u) :
    ∃ m, privateVariable c sc x = .ok m ∧
      m.All fun y => y.scaled = sc ∧ Truth c (.priv y.n y.x y.scaled) u := by
  cases x with
  | data v => cases hs
  | masked _ _ _ => cases hs
  | foreign => cases hs
  | other => cases hs
  | priv x => cases hs; exact ⟨_, rfl, rfl, h⟩
  | pub n v0 v1 s =>
    cases hs
    obtain ⟨-, rfl⟩ := h
    refine ⟨_, rfl, ?_⟩
    rw [RandM.all_bind]
    refine RandM.All.mono (fun p hp => ⟨rfl, ?_⟩) (share_ok (T := RT F) (s := n) v0)
    have : p.x0 + p.x1 = v0 := hp
    show _ = (⟨n, fun i => Fixed.decodePond F c sc ((p.x0 + p.x1) i)⟩ : Vec)
    rw [this]

/-- The same for public variables. -/
theorem public_from_tensor_partial (c : Fixed.Config) {n : ℕ} {v0 v1 : RT F n} {sc : Bool} {u : Vec}
    (h : Truth c (.pub n v0 v1 sc) u) :
    ∃ y, publicVariable c sc (.pub n v0 v1 sc) = .ok y ∧
      Truth c (.pub y.n y.v0 y.v1 y.scaled) u :=
  ⟨_, rfl, h⟩

/-- With the default `apply_scaling=True` a variable made from an unscaled tensor, public or private, stands
for its value divided by the scale. -/
theorem private_unscaled (c : Fixed.Config) {x : Init F} (hs : isScaled x = some false) {u : Vec}
    (h : Value c x u) :
    ∃ m, privateVariable c true x = .ok m ∧
      m.All fun y => Truth c (.priv y.n y.x y.scaled) (u.scale (1 / c.scale)) := by
  cases x with
  | data v => cases hs
  | masked _ _ _ => cases hs
  | foreign => cases hs
  | other => cases hs
  | priv x =>
    obtain ⟨n, x, s⟩ := x
    cases hs
    cases h
    refine ⟨_, rfl, ?_⟩
    show _ = (⟨n, fun i => Fixed.decodePond F c true ((x.x0 + x.x1) i)⟩ : Vec)
    simp [Vec.scale, Fixed.decodePond, div_eq_mul_inv]
  | pub n v0 v1 s =>
    cases hs
    obtain ⟨-, rfl⟩ := h
    refine ⟨_, rfl, ?_⟩
    rw [RandM.all_bind]
    refine RandM.All.mono (fun p hp => ?_) (share_ok (T := RT F) (s := n) v0)
    have : p.x0 + p.x1 = v0 := hp
    show _ = (⟨n, fun i => Fixed.decodePond F c true ((p.x0 + p.x1) i)⟩ : Vec)
    rw [this]
    simp [Vec.scale, Fixed.decodePond, div_eq_mul_inv]

/-- **C98 is false: scale.** In every configuration with a scale other than one, there is a private tensor such
that the variable made from it with the default arguments stands for another value. -/
theorem private_scale_false {c : Fixed.Config} (hF : Fixed.HoldsShifted F c)
    (h1 : 1 < c.boundSingle) (hc : c.scale ≠ 1) :
    ¬ ∀ (x : Init F) (u : Vec), Value c x u → ∃ m, privateVariable c true x = .ok m ∧
      m.All fun y => Truth c (.priv y.n y.x y.scaled) u := by
  intro h
  have hd : Fixed.decodePond F c false (Fixed.encode c false ((1 : ℤ) : ℚ) : ZMod F.modulus) = (1 : ℤ) :=
    (Fixed.encode_decode_integer (F := F) 1 (by omega) (by omega)).1 hF
  let a : RT F 1 := fun _ => (Fixed.encode c false ((1 : ℤ) : ℚ) : ZMod F.modulus)
  let x : Init F := .priv ⟨1, ⟨a, 0⟩, false⟩
  have hv : Value c x ⟨1, fun _ => 1⟩ := by
    show _ = (⟨1, fun i => Fixed.decodePond F c false ((a + 0) i)⟩ : Vec)
    rw [add_zero]
    congr 1
    funext i
    exact_mod_cast hd.symm
  obtain ⟨m, e, hm⟩ := h x _ hv
  cases e
  obtain ⟨m', e', hm'⟩ := private_unscaled c (x := x) rfl hv
  cases e'
  have t1 : (⟨1, fun _ => 1⟩ : Vec) = (⟨1, fun i => Fixed.decodePond F c true ((a + 0) i)⟩ : Vec) := hm
  have t2 : (⟨1, fun _ => 1⟩ : Vec).scale (1 / c.scale) =
    (⟨1, fun i => Fixed.decodePond F c true ((a + 0) i)⟩ : Vec) := hm'
  have := congrFun (eq_of_heq (Vec.mk.inj (t1.trans t2.symm)).2) 0
  simp only [one_mul, one_div] at this
  have h2 : (c.scale : ℚ) = 1 := by rw [← inv_inv (c.scale : ℚ), ← this, inv_one]
  exact hc (by exact_mod_cast h2)

/-- Initial values of the wrong kind and tensors of another factory are refused. -/
theorem refused (c : Fixed.Config) (apply : Bool) (x : Shared F) {n : ℕ} (m : Masked (RT F n))
    (sc : Bool) :
    privateVariable (F := F) c apply (.masked n m sc) = .error .assertion ∧
    privateVariable (F := F) c apply .other = .error .assertion ∧
    privateVariable (F := F) c apply .foreign = .error .type ∧
    publicVariable c apply (.priv x) = .error .assertion ∧
    publicVariable (F := F) c apply .foreign = .error .type :=
  ⟨rfl, rfl, rfl, rfl, rfl⟩

/-- Concrete cases of the hypotheses: the library's 64-bit configuration. -/
example : Fixed.HoldsShifted (Fixed.native 64) Fixed.fixed64 ∧ 0 < Fixed.fixed64.base ∧
    1 < Fixed.fixed64.boundSingle ∧ Fixed.fixed64.scale ≠ 1 ∧
    ∀ i, |(⟨2, ![3 / 2, -1 / 3]⟩ : Vec).val i| < (Fixed.fixed64.base : ℚ) ^ Fixed.fixed64.pInt := by
  refine ⟨(Fixed.native_holds 64 (by decide) _ (by decide)).1, by decide, by decide,
    by norm_num [Fixed.Config.scale, Fixed.fixed64], fun i => ?_⟩
  fin_cases i <;> norm_num [Fixed.fixed64, abs_of_pos, abs_of_neg]

end Pond

end Verif.Local
