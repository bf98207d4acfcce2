import Verif.Local.EqualPublic
import Verif.Local.PublicInputProps

/-!
# C101: equality of public tensors in Pond
-/

namespace Verif.Local.Pond

open Verif Verif.Pond

variable {F : Fixed.Factory} {n : ℕ}

/-- The units of one: the scaling factor of a scaled tensor, one for the others. -/
def units (c : Fixed.Config) (scaled : Bool) : ℚ := if scaled then (c.scale : ℚ) else 1

/-- The words hold these numbers, within the range of the configuration: each is a whole number of units. -/
def Stands (c : Fixed.Config) (scaled : Bool) (w : RT F n) (u : Fin n → ℚ) : Prop :=
  ∀ i, ∃ k : ℤ, |k| < c.boundSingle ∧ w i = (k : ZMod F.modulus) ∧ u i * units c scaled = k

/-- The public tensor shows, decoded from either server, one where `P` holds and zero elsewhere. -/
def Shows (c : Fixed.Config) (z : Public F) (P : Fin n → Prop) : Prop :=
  z.scaled = false ∧ ∃ e : z.n = n, ∀ i : Fin z.n,
    (P (e ▸ i) → Fixed.decodePond F c false (z.v0 i) = 1 ∧ Fixed.decodePond F c false (z.v1 i) = 1) ∧
    (¬ P (e ▸ i) → Fixed.decodePond F c false (z.v0 i) = 0 ∧ Fixed.decodePond F c false (z.v1 i) = 0)

/-- What `Stands` means: the tensor decodes to the numbers. -/
theorem stands_decodes {c : Fixed.Config} (hb : 0 < c.base) (hF : Fixed.HoldsShifted F c) {sc : Bool} {w : RT F n}
    {u : Fin n → ℚ} (h : Stands c sc w u) (i : Fin n) : Fixed.decodePond F c sc (w i) = u i := by
  obtain ⟨k, hk, e, hu⟩ := h i
  have hr := abs_lt.mp hk
  have hs : (c.scale : ℚ) ≠ 0 := by
    have : 0 < c.scale := Nat.pow_pos hb
    exact_mod_cast this.ne'
  rw [e, Fixed.pond_decode_int hF k hr.1.le hr.2 sc, ← hu]
  cases sc
  · simp [units]
  · simp [units, hs]

theorem units_pos {c : Fixed.Config} (hb : 0 < c.base) (sc : Bool) : 0 < units c sc := by
  have : 0 < c.scale := Nat.pow_pos hb
  cases sc
  · simp [units]
  · simpa [units] using this

/-- In the range, words are equal exactly if the integers are. -/
theorem cast_inj {c : Fixed.Config} (hF : Fixed.HoldsShifted F c) {k l : ℤ} (hk : |k| < c.boundSingle)
    (hl : |l| < c.boundSingle) : (k : ZMod F.modulus) = l ↔ k = l := by
  refine ⟨fun h => ?_, fun h => by rw [h]⟩
  have hr := abs_lt.mp hk
  have hr' := abs_lt.mp hl
  have h1 := Fixed.pond_decode_int hF k hr.1.le hr.2 false
  have h2 := Fixed.pond_decode_int hF l hr'.1.le hr'.2 false
  rw [h, h2] at h1
  simpa using h1.symm

theorem decode_bit {c : Fixed.Config} (hF : Fixed.HoldsShifted F c) (h1 : 1 < c.boundSingle) (P : Prop)
    [Decidable P] : Fixed.decodePond F c false (if P then 1 else 0 : ZMod F.modulus) = if P then 1 else 0 := by
  have h1' : (1 : ℤ) < c.boundSingle := by exact_mod_cast h1
  split
  · simpa using Fixed.pond_decode_int hF 1 (by omega) h1' false
  · simpa using Fixed.pond_decode_int hF 0 (by omega) (by omega) false

theorem equal_words {c : Fixed.Config} (hF : Fixed.HoldsShifted F c) (h1 : 1 < c.boundSingle)
    {server0 server1 : Runtime.Player} (hd : server0.device = server1.device) (sx sy : Bool) {x y : RT F n}
    {P : Fin n → Prop} (hP : ∀ i, P i ↔ x i = y i) :
    ∃ z, equalPublicPublic false server0 server1 ⟨n, x, x, sx⟩ ⟨n, y, y, sy⟩ = .ok z ∧ Shows c z P := by
  refine ⟨⟨n, equalWords x y, equalWords x y, false⟩, ?_, rfl, rfl, fun i => ?_⟩
  · simp [equalPublicPublic, mkPublic, hd]
  · have := decode_bit (F := F) hF h1 (x i = y i)
    simp only [hP, equalWords]
    refine ⟨fun h => ?_, fun h => ?_⟩
    · rw [this, if_pos h]; exact ⟨rfl, rfl⟩
    · rw [this, if_neg h]; exact ⟨rfl, rfl⟩

/-- **C101, in part: two tensors of one scaling.** If the servers are on one device, `equal` shows exactly where
the two tensors hold the same number. Missing: different scalings (`mixed_scales_false`) and servers on
different devices (`equal_remote_raises`). -/
theorem equal_partial {c : Fixed.Config} (hb : 0 < c.base) (hF : Fixed.HoldsShifted F c) (h1 : 1 < c.boundSingle)
    {server0 server1 : Runtime.Player} (hd : server0.device = server1.device) {sc : Bool} {x y : RT F n}
    {u v : Fin n → ℚ} (hx : Stands c sc x u) (hy : Stands c sc y v) :
    ∃ z, equal false server0 server1 c (.pub ⟨n, x, x, sc⟩) (.pub ⟨n, y, y, sc⟩) = .ok z ∧
      Shows c z fun i => u i = v i := by
  refine equal_words hF h1 hd sc sc fun i => ?_
  obtain ⟨k, hk, e, hu⟩ := hx i
  obtain ⟨l, hl, e', hv⟩ := hy i
  have hp := units_pos hb sc
  rw [e, e', cast_inj hF hk hl]
  constructor
  · intro h
    rw [h, hv] at hu
    exact_mod_cast hu.symm
  · intro h
    have : u i * units c sc = v i * units c sc := by rw [hu, hv, h]
    exact mul_right_cancel₀ hp.ne' this

/-- A number that is a whole number of units and in range is lifted to exactly this number. -/
theorem lifted {c : Fixed.Config} {sc : Bool} {q : ℚ} {k : ℤ} (hk : |k| < c.boundSingle)
    (hq : q * units c sc = k) :
    ∃ w : RT F n, Stands c sc w (fun _ => q) ∧ liftNumber (F := F) c sc n q = ⟨n, w, w, sc⟩ := by
  refine ⟨(liftNumber (F := F) c sc n q).v0, fun i => ⟨k, hk, ?_, hq⟩, rfl⟩
  have : Fixed.encode c sc q = k := by
    rw [← Fixed.toInt_intCast k, ← hq]
    cases sc <;> simp [Fixed.encode, units]
  show ((Fixed.encode c sc q : ℤ) : ZMod F.modulus) = _
  rw [this]

/-- **C101, in part: a tensor and a number.** If the servers are on one device and the number is a whole number
of units of the tensor, `equal` shows, in either order, where the tensor holds this number. Missing: other
numbers (`rounded_number_false`). -/
theorem equal_number_partial {c : Fixed.Config} (hb : 0 < c.base) (hF : Fixed.HoldsShifted F c)
    (h1 : 1 < c.boundSingle) {server0 server1 : Runtime.Player} (hd : server0.device = server1.device) {sc : Bool}
    {x : RT F n} {u : Fin n → ℚ} (hx : Stands c sc x u) {q : ℚ} {k : ℤ} (hk : |k| < c.boundSingle)
    (hq : q * units c sc = k) :
    (∃ z, equal false server0 server1 c (.pub ⟨n, x, x, sc⟩) (.number q) = .ok z ∧ Shows c z fun i => u i = q) ∧
    ∃ z, equal false server0 server1 c (.number q) (.pub ⟨n, x, x, sc⟩) = .ok z ∧ Shows c z fun i => q = u i := by
  obtain ⟨w, hl, e⟩ := lifted (F := F) (n := n) hk hq
  have a := equal_partial hb hF h1 hd hx hl
  have b := equal_partial hb hF h1 hd hl hx
  rw [← e] at a b
  exact ⟨a, b⟩

/-- **C101, in part: two numbers.** They are compared as scaled numbers. -/
theorem equal_numbers_partial {c : Fixed.Config} (hb : 0 < c.base) (hF : Fixed.HoldsShifted F c)
    (h1 : 1 < c.boundSingle) {server0 server1 : Runtime.Player} (hd : server0.device = server1.device) {p q : ℚ}
    {k l : ℤ} (hk : |k| < c.boundSingle) (hp : p * c.scale = k) (hl : |l| < c.boundSingle) (hq : q * c.scale = l) :
    ∃ z, equal (F := F) false server0 server1 c (.number p) (.number q) = .ok z ∧ Shows c z fun _ : Fin 1 => p = q := by
  obtain ⟨w, hw, e⟩ := lifted (F := F) (n := 1) (sc := true) hk hp
  have a := (equal_number_partial hb hF h1 hd hw (sc := true) hl hq).1
  rw [← e] at a
  exact a

/-- **C101, in part: any number.** Even if the number has to be rounded, `equal` shows a zero wherever the tensor
is a unit or more away from it. -/
theorem equal_far {c : Fixed.Config} (hF : Fixed.HoldsShifted F c)
    (h1 : 1 < c.boundSingle) {server0 server1 : Runtime.Player} (hd : server0.device = server1.device) {sc : Bool}
    {x : RT F n} {u : Fin n → ℚ} (hx : Stands c sc x u) {q : ℚ} (hq : |Fixed.encode c sc q| < c.boundSingle) :
    ∃ (P : Fin n → Prop) (z : Public F), equal false server0 server1 c (.pub ⟨n, x, x, sc⟩) (.number q) = .ok z ∧
      Shows c z P ∧ ∀ i, 1 ≤ |u i - q| * units c sc → ¬ P i := by
  obtain ⟨z, hz, hs⟩ := equal_words hF h1 hd sc sc (x := x) (y := (liftNumber (F := F) c sc n q).v0)
    (P := fun i => x i = (liftNumber (F := F) c sc n q).v0 i) (fun i => Iff.rfl)
  refine ⟨_, z, hz, hs, fun i hi he => ?_⟩
  obtain ⟨k, hk, e, hu⟩ := hx i
  have hu0 : 0 ≤ units c sc := by cases sc <;> simp [units]
  have he' : (k : ZMod F.modulus) = (Fixed.encode c sc q : ℤ) := by rw [← e]; exact he
  rw [cast_inj hF hk hq] at he'
  have ht := (Fixed.toInt_spec (q * units c sc)).2.1
  have hen : Fixed.encode c sc q = Fixed.toInt (q * units c sc) := by cases sc <;> simp [Fixed.encode, units]
  rw [← hen, ← he', ← hu, ← sub_mul, abs_mul, abs_of_nonneg hu0] at ht
  linarith

/-- Whatever public tensors of one length are compared, in a local configuration the servers are on one device,
so the theorems above apply. -/
theorem local_one_device (names : List String) (job : String) (auto : Bool) (hist : List Runtime.LocalOp)
    {server0 server1 : Runtime.Player}
    (h0 : server0 ∈ ((Runtime.LocalConfig.new names job auto).run hist).players)
    (h1 : server1 ∈ ((Runtime.LocalConfig.new names job auto).run hist).players) :
    server0.device = server1.device :=
  Runtime.local_devices_false names job auto hist _ _ h0 h1

/-- **C101 is false.** In every remote configuration, whichever two players are the servers, `equal` of two
public tensors of one length, or of such a tensor and a number, or of two numbers, raises `AssertionError`. -/
theorem equal_remote_raises (int128 : Bool) (hostmap : List (String × String)) (job : String) (debug : Bool)
    {server0 server1 : Runtime.Player} {i j : ℕ}
    (h0 : (Runtime.RemoteConfig.new hostmap job debug).players[i]? = some server0)
    (h1 : (Runtime.RemoteConfig.new hostmap job debug).players[j]? = some server1) (hij : i ≠ j)
    (c : Fixed.Config) (x0 x1 y0 y1 : RT F n) (sx sy : Bool) (p q : ℚ) :
    equal int128 server0 server1 c (.pub ⟨n, x0, x1, sx⟩) (.pub ⟨n, y0, y1, sy⟩) = .error .assertion ∧
    equal int128 server0 server1 c (.pub ⟨n, x0, x1, sx⟩) (.number q) = .error .assertion ∧
    equal int128 server0 server1 c (.number p) (.pub ⟨n, y0, y1, sy⟩) = .error .assertion ∧
    equal (F := F) int128 server0 server1 c (.number p) (.number q) = .error .assertion := by
  have hne := (Runtime.remote_devices hostmap job debug _ _ _ _ h0 h1 hij).1
  refine ⟨?_, ?_, ?_, ?_⟩ <;>
    simp [equal, liftPair, liftNumber, constant, equalPublicPublic, mkPublic, hne]

/-- **C101 is false for int128 words**: in every configuration `equal` of two public tensors of one length, or of
such a tensor and a number, raises `AssertionError`. -/
theorem equal_int128_false (server0 server1 : Runtime.Player) (c : Fixed.Config) (x0 x1 y0 y1 : RT F n)
    (sx sy : Bool) (p q : ℚ) :
    equal true server0 server1 c (.pub ⟨n, x0, x1, sx⟩) (.pub ⟨n, y0, y1, sy⟩) = .error .assertion ∧
    equal true server0 server1 c (.pub ⟨n, x0, x1, sx⟩) (.number q) = .error .assertion ∧
    equal true server0 server1 c (.number p) (.pub ⟨n, y0, y1, sy⟩) = .error .assertion ∧
    equal (F := F) true server0 server1 c (.number p) (.number q) = .error .assertion := by
  refine ⟨?_, ?_, ?_, ?_⟩ <;> simp [equal, liftPair, liftNumber, constant, equalPublicPublic]

/-- Two servers on one device. -/
def serverA : Runtime.Player := ⟨"server0", 0, ("tfe", 0), none⟩
/-- The second one. -/
def serverB : Runtime.Player := ⟨"server1", 1, ("tfe", 0), none⟩

/-- **C101 is false for different scalings**, for every factory and configuration with room: a scaled and an
unscaled tensor that both hold two are not equal, while a scaled unit equals an unscaled one. No error is
raised, although the other operations of Pond refuse to mix encodings. -/
theorem mixed_scales_false {c : Fixed.Config} (hF : Fixed.HoldsShifted F c)
    (h1 : 1 < c.scale) (h2 : 2 * c.scale < c.boundSingle) :
    (∃ x y : RT F 1, Stands c true x (fun _ => 2) ∧ Stands c false y (fun _ => 2) ∧
      ∃ z, equal false serverA serverB c (.pub ⟨1, x, x, true⟩) (.pub ⟨1, y, y, false⟩) = .ok z ∧
        Shows c z fun _ : Fin 1 => False) ∧
    ∃ x y : RT F 1, Stands c true x (fun _ => 1 / c.scale) ∧ Stands c false y (fun _ => 1) ∧
      ∃ z, equal false serverA serverB c (.pub ⟨1, x, x, true⟩) (.pub ⟨1, y, y, false⟩) = .ok z ∧
        Shows c z fun _ : Fin 1 => True := by
  have hs : (c.scale : ℚ) ≠ 0 := by
    have : 0 < c.scale := by omega
    exact_mod_cast this.ne'
  have ha : |((2 * c.scale : ℕ) : ℤ)| < c.boundSingle := by rw [Nat.abs_cast]; exact_mod_cast h2
  have hb : |(2 : ℤ)| < c.boundSingle := by rw [abs_of_pos (by norm_num)]; omega
  have hc : |(1 : ℤ)| < c.boundSingle := by rw [abs_of_pos (by norm_num)]; omega
  have hd : serverA.device = serverB.device := rfl
  refine ⟨⟨fun _ => (((2 * c.scale : ℕ) : ℤ) : ZMod F.modulus), fun _ => ((2 : ℤ) : ZMod F.modulus),
    fun _ => ⟨_, ha, rfl, by simp [units]⟩, fun _ => ⟨2, hb, rfl, by simp [units]⟩, ?_⟩,
    ⟨fun _ => ((1 : ℤ) : ZMod F.modulus), fun _ => ((1 : ℤ) : ZMod F.modulus),
      fun _ => ⟨1, hc, rfl, by simp [units, hs]⟩, fun _ => ⟨1, hc, rfl, by simp [units]⟩, ?_⟩⟩
  · refine equal_words hF (by omega) hd true false (x := fun _ : Fin 1 => (((2 * c.scale : ℕ) : ℤ) : ZMod F.modulus))
      (y := fun _ => ((2 : ℤ) : ZMod F.modulus)) fun _ => ?_
    rw [cast_inj hF ha hb]
    constructor
    · exact False.elim
    · intro h; omega
  · exact equal_words hF (by omega) hd true false (x := fun _ : Fin 1 => ((1 : ℤ) : ZMod F.modulus))
      (y := fun _ => ((1 : ℤ) : ZMod F.modulus)) fun _ => ⟨fun _ => rfl, fun _ => trivial⟩

/-- **C101 is false for numbers between two units**: a tensor of unscaled integers that holds 100 is equal to
100.7, which is rounded. -/
theorem rounded_number_false {c : Fixed.Config} (hF : Fixed.HoldsShifted F c) (h : 100 < c.boundSingle) :
    ∃ x : RT F 1, Stands c false x (fun _ => 100) ∧
      ∃ z, equal false serverA serverB c (.pub ⟨1, x, x, false⟩) (.number (1007 / 10)) = .ok z ∧
        Shows c z fun _ : Fin 1 => True := by
  have hc : |(100 : ℤ)| < c.boundSingle := by rw [abs_of_pos (by norm_num)]; omega
  refine ⟨fun _ => ((100 : ℤ) : ZMod F.modulus), fun _ => ⟨100, hc, rfl, by simp [units]⟩, ?_⟩
  have hd : serverA.device = serverB.device := rfl
  refine equal_words hF (by omega) hd false false (y := (liftNumber (F := F) c false 1 (1007 / 10)).v0) fun _ => ?_
  have : Fixed.encode c false (1007 / 10) = 100 := by
    simp only [Fixed.encode, Bool.false_eq_true, if_false, Fixed.toInt]
    rw [if_pos (by norm_num)]
    norm_num [Int.floor_eq_iff]
  simp [liftNumber, constant, this]

/-- Private and masked tensors, and objects that are not numbers, are refused with `TypeError`; public tensors of
different lengths with `ValueError`. -/
theorem equal_refused (int128 : Bool) (server0 server1 : Runtime.Player) (c : Fixed.Config) (x : Operand F) {n m : ℕ} (h : m ≠ n)
    (x0 x1 : RT F n) (y0 y1 : RT F m) (sx sy : Bool) :
    equal int128 server0 server1 c x .hidden = .error .type ∧ equal int128 server0 server1 c .hidden x = .error .type ∧
    equal int128 server0 server1 c x .other = .error .type ∧ equal int128 server0 server1 c .other x = .error .type ∧
    equal int128 server0 server1 c (.pub ⟨n, x0, x1, sx⟩) (.pub ⟨m, y0, y1, sy⟩) = .error .value := by
  refine ⟨?_, ?_, ?_, ?_, ?_⟩
  · cases x <;> rfl
  · cases x <;> rfl
  · cases x <;> rfl
  · cases x <;> rfl
  · simp [equal, liftPair, equalPublicPublic, h]

/-- A concrete case: the test of the library, `[100, 200]` compared with 100 with int64 words. -/
example : ∃ z, equal false serverA serverB Fixed.fixed64_ni
    (.pub ⟨2, ![((100 : ℤ) : ZMod (2 ^ 64)), ((200 : ℤ) : ZMod (2 ^ 64))],
      ![((100 : ℤ) : ZMod (2 ^ 64)), ((200 : ℤ) : ZMod (2 ^ 64))], false⟩) (.number 100)
      = .ok z ∧ Shows (F := Fixed.native 64) (n := 2) Fixed.fixed64_ni z fun i => (![100, 200] i : ℚ) = 100 := by
  refine (equal_number_partial (F := Fixed.native 64) (u := ![100, 200]) (k := 100) (by decide)
    (Fixed.native_holds 64 (by norm_num) _ (by decide)).1 (by decide) rfl ?_ (by decide) (by simp [units])).1
  intro i
  fin_cases i
  · exact ⟨100, by decide, rfl, by simp [units]⟩
  · exact ⟨200, by decide, rfl, by simp [units]⟩

/-- `equal_remote_raises` applies to the first two players of the host map of the documentation. -/
example : ∃ p q, (Runtime.RemoteConfig.new Aby3.hosts "tfe" false).players[0]? = some p ∧
    (Runtime.RemoteConfig.new Aby3.hosts "tfe" false).players[1]? = some q :=
  ⟨_, _, rfl, rfl⟩

/-- `mixed_scales_false` and `rounded_number_false` apply to the configurations of the library. -/
example : Fixed.HoldsShifted (Fixed.native 64) Fixed.fixed64 ∧ 1 < Fixed.fixed64.scale ∧
    2 * Fixed.fixed64.scale < Fixed.fixed64.boundSingle ∧ 100 < Fixed.fixed64.boundSingle :=
  ⟨(Fixed.native_holds 64 (by norm_num) _ (by decide)).1, by decide, by decide, by decide⟩

end Verif.Local.Pond
