import Verif.Aby3.ProgLemmas
import Verif.Core.Support
import Verif.Aby3.Cheetah

/-!
# C04, C05, C06, C07, C48 (ABY3 part): what ABY3 guarantees

Every theorem quantifies over all word widths, tensor sizes, programs, private inputs and random
draws.
-/

namespace Verif.Aby3

open Verif

variable {s t : Srt} {I : Type} {ι : I → Srt} {Γ : List Srt}

/-! ## C04 -/

/-- **C04.** Whatever is drawn, the sharing is replicated consistently - what server `i` holds
second is what server `i + 1` holds first - and each of the three servers, and any outside player,
reconstructs the secret. -/
theorem share_reconstruct (secret : T s) :
    M.All (fun x => (∀ i : Fin 3, (x i).2 = (x (i + 1)).1) ∧ ∀ p, reconstruct x p = secret)
      (share secret) := by
  intro a b
  have h : Holds secret ![(a, b), (b, secret - a - b), (secret - a - b, a)] := by
    refine ⟨fun i => by fin_cases i <;> rfl, ?_⟩
    show a + b + (secret - a - b) = secret
    abel
  exact ⟨h.1, fun p => h.reconstruct p⟩

/-- **C04**, opening: `reveal` gives every server the value. -/
theorem share_reveal (secret : T s) :
    M.All (fun p => ∀ i, p i = secret) (share secret >>= reveal) := by
  intro a b i
  have h : Holds secret ![(a, b), (b, secret - a - b), (secret - a - b, a)] := by
    refine ⟨fun i => by fin_cases i <;> rfl, ?_⟩
    show a + b + (secret - a - b) = secret
    abel
  exact h.reconstruct (some i)

/-- A concrete instance: the byte 5 shared with draws 200 and 100 wraps around. -/
example : reconstruct (s := .arith 8 1) ![(fun _ => 200#8, fun _ => 100#8),
    (fun _ => 100#8, fun _ => 5#8 - 200#8 - 100#8), (fun _ => 5#8 - 200#8 - 100#8, fun _ => 200#8)]
    (some 1) = fun _ => 5#8 := by
  funext i
  show 100#8 + (5#8 - 200#8 - 100#8) + 200#8 = 5#8
  decide

/-! ## C05, C06 -/

/-- **C05, C06.** For every input and every draw: a program raises exactly the exception the
specification says, and otherwise returns a tensor - three equal copies, or a consistent replicated
sharing - of a value the cleartext program allows, where only truncations may round. -/
theorem program_refines (frac : ℕ) (inp : ∀ i, T (ι i)) (p : Prog ι [] t) (hp : p.Sane) :
    M.All (fun r => match r with
      | .error er => p.Clear frac inp .nil (.error er)
      | .ok v => ∃ d, p.Clear frac inp .nil (.ok d) ∧ Stands d v) (p.run frac inp .nil) :=
  Prog.correct frac inp p (fun _ x => by cases x) hp

theorem ofKinds_get (ks : Env (fun _ => Kind) Γ) (x : Var Γ s) :
    (ofKinds ks).get x = ⟨0, ks.get x⟩ := Env.get_map _ _ _

theorem Op.exact_congr (inp : ∀ i, T (ι i)) {c c' : Env CVal Γ}
    (h : ∀ s (x : Var Γ s), (c.get x).val = (c'.get x).val) (o : Op ι Γ t) :
    o.exact inp c = o.exact inp c' := by
  cases o <;> simp only [Op.exact, h]

theorem Op.rounding_congr (frac : ℕ) {c c' : Env CVal Γ}
    (h : ∀ s (x : Var Γ s), (c.get x).kind = (c'.get x).kind) (o : Op ι Γ t) :
    o.rounding frac c = o.rounding frac c' := by
  cases o <;> simp only [Op.rounding, h]

/-- The kinds of cleartext tensors. -/
def kinds (c : Env CVal Γ) : Env (fun _ => Kind) Γ := c.map fun _ v => v.kind

theorem kinds_get (c : Env CVal Γ) (x : Var Γ s) : (kinds c).get x = (c.get x).kind :=
  Env.get_map _ _ _

theorem flow_kinds (frac : ℕ) (c : Env CVal Γ) (o : Op ι Γ t) :
    o.flow frac (ofKinds (kinds c)) = o.flow frac c :=
  Op.flow_congr frac (fun s x => by rw [ofKinds_get, kinds_get]) o

theorem rounding_kinds (frac : ℕ) (c : Env CVal Γ) (o : Op ι Γ t) :
    o.rounding frac (ofKinds (kinds c)) = o.rounding frac c :=
  Op.rounding_congr frac (fun s x => by rw [ofKinds_get, kinds_get]) o

theorem clear_ty (frac : ℕ) (inp : ∀ i, T (ι i)) (p : Prog ι Γ t) :
    ∀ {c : Env CVal Γ} {r : Except Err (CVal t)}, p.Clear frac inp c r →
      p.ty frac (kinds c) = r.map CVal.kind := by
  induction p with
  | ret x =>
    rintro c r rfl
    simp [Prog.ty, kinds_get, Except.map]
  | step o k ih =>
    intro c r h
    simp only [Prog.Clear] at h
    rw [Prog.ty, flow_kinds]
    cases hf : o.flow frac c with
    | error er =>
      rw [hf] at h
      simp only at h
      subst h
      rfl
    | ok κ =>
      rw [hf] at h
      obtain ⟨z, _, hk⟩ := h
      exact ih hk

theorem clear_eval (frac : ℕ) (inp : ∀ i, T (ι i)) (p : Prog ι Γ t) :
    ∀ {c : Env CVal Γ} {d : CVal t}, p.Exact frac (kinds c) → p.Clear frac inp c (.ok d) →
      d.val = p.eval inp (c.map fun _ v => v.val) := by
  induction p with
  | ret x =>
    intro c d _ h
    cases h
    exact (Env.get_map _ _ _).symm
  | step o k ih =>
    intro c d he h
    simp only [Prog.Clear] at h
    rw [Prog.Exact, flow_kinds] at he
    cases hf : o.flow frac c with
    | error er =>
      rw [hf] at h
      simp only at h
      cases h
    | ok κ =>
      rw [hf] at h he
      obtain ⟨z, hz, hk⟩ := h
      simp only [rounding_kinds] at he
      obtain ⟨he1, he2⟩ := he
      rw [he1] at hz
      have hz : z = o.exact inp c := by cases o <;> exact hz
      rw [ih (c := .cons ⟨z, κ⟩ c) he2 hk, Prog.eval, hz]
      congr 1
      show Env.cons _ _ = Env.cons _ _
      congr 1
      exact Op.exact_congr inp (fun s x => by simp only [Env.get_map]) o

/-- **C05, C06**, programs without truncation: whenever such a program returns, what it returns
stands for exactly the ring (or bitwise) value of the cleartext program. -/
theorem program_exact (frac : ℕ) (inp : ∀ i, T (ι i)) (p : Prog ι [] t) (hp : p.Sane)
    (he : p.Exact frac .nil) :
    M.All (fun r => match r with
      | .error er => p.ty frac .nil = .error er
      | .ok v => ∃ κ, p.ty frac .nil = .ok κ ∧ Stands ⟨p.eval inp .nil, κ⟩ v)
      (p.run frac inp .nil) := by
  refine M.All.mono (program_refines frac inp p hp) ?_
  rintro (er | v) h
  · exact clear_ty frac inp p h
  · obtain ⟨d, hd, hv⟩ := h
    refine ⟨d.kind, clear_ty frac inp p hd, ?_⟩
    have := clear_eval frac inp p (c := .nil) he hd
    simp only [Env.map] at this
    rw [← this]
    exact hv

/-- **C05, C06**, revealed results: if the result is public, each of the three servers holds the
cleartext value. -/
theorem program_reveals (frac : ℕ) (inp : ∀ i, T (ι i)) (p : Prog ι [] t) (hp : p.Sane)
    (he : p.Exact frac .nil) {sc : Bool} (hty : p.ty frac .nil = .ok ⟨false, sc⟩) :
    M.All (fun r => ∃ y : Pub (T t), r = .ok ⟨.pub y, sc⟩ ∧ ∀ i, y i = p.eval inp .nil)
      (p.run frac inp .nil) := by
  refine M.All.mono (program_exact frac inp p hp he) ?_
  rintro (er | v) h
  · simp only [hty] at h
    cases h
  · obtain ⟨κ, hκ, hv⟩ := h
    rw [hty] at hκ
    cases hκ
    cases hv with
    | pub h => exact ⟨_, rfl, h⟩

/-! ## C48 -/

/-- **C48.** Whether a program raises, which exception, whether the result is private, and its
`is_scaled` flag are those of the table `Prog.ty`, for every input and every draw. -/
theorem program_flags (frac : ℕ) (inp : ∀ i, T (ι i)) (p : Prog ι [] t) (hp : p.Sane) :
    M.All (fun r => match r with
      | .error er => p.ty frac .nil = .error er
      | .ok ⟨.pub _, sc⟩ => p.ty frac .nil = .ok ⟨false, sc⟩
      | .ok ⟨.priv _, sc⟩ => p.ty frac .nil = .ok ⟨true, sc⟩) (p.run frac inp .nil) := by
  refine M.All.mono (program_refines frac inp p hp) ?_
  rintro (er | v) h
  · exact clear_ty frac inp p h
  · obtain ⟨d, hd, hv⟩ := h
    have := clear_ty frac inp p hd
    cases hv with
    | pub _ => exact this
    | priv _ => exact this

theorem op_scale (frac : ℕ) {ks : Env (fun _ => Kind) Γ} {e : Env (fun _ => ℕ) Γ}
    (h : ∀ s (x : Var Γ s), e.get x = if (ks.get x).sc then frac else 0) (o : Op ι Γ t) {κ : Kind}
    (hf : o.flow frac (ofKinds ks) = .ok κ)
    (hm : o.Matched ks) :
    o.exactScale frac e - (o.rounding frac (ofKinds ks)).bits = if κ.sc then frac else 0 := by
  cases o with
  | bilin k f m r x y =>
    simp only [Op.flow, Op.rounding, Op.exactScale, ofKinds_get, h] at hf ⊢
    rcases hx : ks.get x with ⟨_ | _, _ | _⟩ <;> rcases hy : ks.get y with ⟨_ | _, _ | _⟩ <;>
      rw [hx, hy] at hf <;> simp at hf <;> (try split at hf) <;> (try simp at hf) <;>
      (try obtain ⟨_, hf⟩ := hf) <;> (try subst hf) <;> simp [Rounding.bits]
  | trunc => exact hm.elim
  | _ =>
    simp only [Op.flow, Op.rounding, Op.exactScale, ofKinds_get, h, Rounding.bits, Op.Matched] at hf hm ⊢
    repeat' split at hf
    all_goals simp_all
    all_goals (try subst hf) <;> simp_all

theorem scale_flag (frac : ℕ) (p : Prog ι Γ t) :
    ∀ {ks : Env (fun _ => Kind) Γ} {e : Env (fun _ => ℕ) Γ},
    (∀ s (x : Var Γ s), e.get x = if (ks.get x).sc then frac else 0) → p.Matched frac ks →
    ∀ {κ : Kind} {b : ℕ}, p.scale frac ks e = .ok (κ, b) → b = if κ.sc then frac else 0 := by
  induction p with
  | ret x =>
    intro ks e h _ κ b hs
    simp only [Prog.scale, Except.ok.injEq, Prod.mk.injEq] at hs
    rw [← hs.1, ← hs.2]
    exact h _ x
  | step o k ih =>
    intro ks e h hm κ b hs
    simp only [Prog.Matched] at hm
    rw [Prog.scale] at hs
    cases hf : o.flow frac (ofKinds ks) with
    | error er => rw [hf] at hs; cases hs
    | ok κ' =>
      rw [hf] at hs hm
      refine ih ?_ hm.2 hs
      intro s x
      cases x with
      | here => exact op_scale frac h o hf hm.1
      | there x => exact h _ x

theorem scale_ty (frac : ℕ) (p : Prog ι Γ t) :
    ∀ {ks : Env (fun _ => Kind) Γ} {e : Env (fun _ => ℕ) Γ} {κ : Kind} {b : ℕ},
    p.scale frac ks e = .ok (κ, b) → p.ty frac ks = .ok κ := by
  induction p with
  | ret x =>
    intro ks e κ b h
    simp only [Prog.scale, Except.ok.injEq, Prod.mk.injEq] at h
    rw [Prog.ty, h.1]
  | step o k ih =>
    intro ks e κ b h
    rw [Prog.scale] at h
    rw [Prog.ty]
    cases hf : o.flow frac (ofKinds ks) with
    | error er => rw [hf] at h; cases h
    | ok κ' =>
      rw [hf] at h
      exact ih h

/-- **C48**, truthfulness: in a program that adds only tensors with the same flag and does not
truncate by hand, the payload of the result carries the fractional bits its `is_scaled` flag
announces, since products are truncated exactly when both factors are scaled. -/
theorem flag_truthful (frac : ℕ) (p : Prog ι [] t) (hp : p.Matched frac .nil) {κ : Kind} {b : ℕ}
    (h : p.scale frac .nil .nil = .ok (κ, b)) :
    p.ty frac .nil = .ok κ ∧ b = if κ.sc then frac else 0 := by
  refine ⟨?_, scale_flag frac p (fun _ x => by cases x) hp h⟩
  exact scale_ty frac p h

/-- Scaled plus unscaled. -/
def addMismatch : Prog (fun _ : Bool => Srt.arith 64 1) [] (.arith 64 1) :=
  .step (.input false true) <| .step (.input true false) <|
  .step (.add (.there .here) .here) <| .ret .here

/-- **C48 fails** for sums of two private tensors: flags are not compared (aby3.py:2148-2159), and
scaled plus unscaled is accepted. With 8 fractional bits, `1.0 + 1` is `257/256`, labelled scaled,
whatever is drawn. -/
theorem add_mismatch_accepted_false :
    M.All (fun r => ∃ x, r = .ok ⟨.priv x, true⟩ ∧ Holds (s := .arith 64 1) (fun _ => 257#64) x)
      (addMismatch.run 8 (fun b => if b then fun _ => 1#64 else fun _ => 256#64) .nil) := by
  have h := program_exact 8 (fun b : Bool => if b then fun _ => 1#64 else fun _ => 256#64)
    addMismatch ⟨trivial, trivial, trivial, trivial⟩ ⟨rfl, rfl, rfl, trivial⟩
  refine M.All.mono h ?_
  rintro (er | v) h
  · cases h
  · obtain ⟨κ, hκ, hv⟩ := h
    cases hκ
    cases hv with
    | priv h => exact ⟨_, rfl, h⟩

/-- Scaled public minus unscaled private. -/
def subMismatch : Prog (fun _ : Unit => Srt.arith 64 1) [] (.arith 64 1) :=
  .step (.const (t := .arith 64 1) (fun _ => 256#64) true) <| .step (.input () false) <|
  .step (.sub (.there .here) .here) <| .ret .here

/-- **C48 fails** for public minus private (aby3.py:2281-2303): `1.0 - 1` is `255/256`, labelled
scaled. -/
theorem sub_mismatch_accepted_false :
    M.All (fun r => ∃ x, r = .ok ⟨.priv x, true⟩ ∧ Holds (s := .arith 64 1) (fun _ => 255#64) x)
      (subMismatch.run 8 (fun _ => fun _ => 1#64) .nil) := by
  have h := program_exact 8 (fun _ : Unit => fun _ => 1#64)
    subMismatch ⟨trivial, trivial, trivial, trivial⟩ ⟨rfl, rfl, rfl, trivial⟩
  refine M.All.mono h ?_
  rintro (er | v) h
  · cases h
  · obtain ⟨κ, hκ, hv⟩ := h
    cases hκ
    have e : subMismatch.eval (fun _ => fun _ => 1#64) .nil = fun _ => 255#64 := by
      funext i
      show 256#64 - 1#64 = 255#64
      decide
    rw [e] at hv
    cases hv with
    | priv h => exact ⟨_, rfl, h⟩

/-- The other flag mismatches raise, for instance private plus public. -/
example : (.step (.const (t := .arith 64 1) (fun _ => 256#64) true) <| .step (.input () false) <|
    .step (.add (.there .here) .here) <| .ret .here :
    Prog (fun _ : Unit => Srt.arith 64 1) [] (.arith 64 1)).ty 8 .nil = .error .assertion := rfl

/-! ## Examples -/

/-- Share two vectors, multiply them elementwise, subtract one, convert to bits, mask with a
constant, convert back, reveal. -/
def demo : Prog (fun _ : Bool => Srt.arith 64 2) [] (.arith 64 2) :=
  .step (.input false false) <|
  .step (.input true false) <|
  .step (.mul id id (.there .here) .here) <|
  .step (.sub .here (.there .here)) <|
  .step (.a2b none .here) <|
  .step (.const (t := .bool 64 2) (fun _ => ⟨255#64⟩) false) <|
  .step (.and id id (.there .here) .here) <|
  .step (.not .here) <|
  .step (.b2a .here) <|
  .step (.reveal .here) (.ret .here)

/-- `demo` meets the hypotheses of `program_exact` and `program_reveals`. -/
theorem demo_ok : demo.Sane ∧ demo.Exact 8 .nil ∧ demo.ty 8 .nil = .ok ⟨false, false⟩ := by
  refine ⟨?_, ?_, rfl⟩
  · simp [demo, Prog.Sane, Op.Sane]
  · exact ⟨rfl, rfl, rfl, rfl, rfl, rfl, rfl, rfl, rfl, rfl, trivial⟩

/-- What `demo` reveals: `~((x·y - y) & 255)`. -/
example (inp : Bool → T (.arith 64 2)) : demo.eval inp .nil =
    fun i => ~~~((inp false i * inp true i - inp true i) &&& 255#64) := rfl

/-- A fixed-point product of two scaled inputs, plus a scaled constant: it rounds, so only
`program_refines` applies; nothing is opened. -/
def demoFixed : Prog (fun _ : Bool => Srt.arith 64 2) [] (.arith 64 2) :=
  .step (.input false true) <|
  .step (.input true true) <|
  .step (.mul id id (.there .here) .here) <|
  .step (.const (t := .arith 64 2) (fun _ => 256#64) true) <|
  .step (.add (.there .here) .here) (.ret .here)

/-- `demoFixed` meets the hypotheses of `program_refines`, `flag_truthful` and `closed_secrecy`. -/
theorem demoFixed_ok : demoFixed.Sane ∧ demoFixed.Matched 8 .nil ∧ demoFixed.Closed 8 .nil ∧
    demoFixed.scale 8 .nil .nil = .ok (⟨true, true⟩, 8) := by
  refine ⟨?_, ?_, ?_, rfl⟩
  · simp [demoFixed, Prog.Sane, Op.Sane]
  · exact ⟨trivial, trivial, trivial, trivial, rfl, trivial⟩
  · exact ⟨trivial, trivial, fun _ _ => Function.injective_id, trivial, trivial, trivial⟩

/-! ## C07 -/

/-- **C07**, shares: the pair of components a server receives is uniform on all pairs, whatever
the secret. -/
theorem share_uniform (σ : Fin 3) (secret : T s) :
    (RandM.dist (share secret)).map (fun r => r.1 σ) =
      (PMF.uniformOfFintype (T s)).bind fun a => (PMF.uniformOfFintype (T s)).bind fun b =>
        PMF.pure (a, b) := by
  have hd : RandM.dist (share secret) = (PMF.uniformOfFintype (T s)).bind fun a =>
      (PMF.uniformOfFintype (T s)).bind fun b => PMF.pure
        ((![(a, b), (b, secret - a - b), (secret - a - b, a)] : Shares (T s)),
          [⟨0, s, a⟩, ⟨0, s, b⟩, ⟨1, s, b⟩, ⟨1, s, secret - a - b⟩, ⟨2, s, secret - a - b⟩,
            ⟨2, s, a⟩]) := rfl
  rw [hd]
  simp only [PMF.map_bind, PMF.pure_map]
  obtain rfl | rfl | rfl := fin3_all σ
  · rfl
  · show ((PMF.uniformOfFintype (T s)).bind fun a => (PMF.uniformOfFintype (T s)).bind fun b =>
      PMF.pure (b, secret - a - b)) = _
    rw [PMF.bind_comm]
    congr 1
    funext b
    exact RandM.uniform_bind_equiv ((Equiv.subLeft secret).trans (Equiv.subRight b))
      fun c => PMF.pure (b, c)
  · show ((PMF.uniformOfFintype (T s)).bind fun a => (PMF.uniformOfFintype (T s)).bind fun b =>
      PMF.pure (secret - a - b, a)) = _
    conv_rhs => rw [PMF.bind_comm]
    congr 1
    funext a
    exact RandM.uniform_bind_equiv (Equiv.subLeft (secret - a)) fun c => PMF.pure (c, a)

/-- **C07.** Everything a server comes to know while a program runs - its shares of the inputs,
correlated draws, resharing and oblivious-transfer messages, openings - has the same distribution
for any two vectors of private inputs on which the program opens the same values and masks are not
reused (`Agree`). -/
theorem program_secrecy (σ : Fin 3) (frac : ℕ) (inp inp' : ∀ i, T (ι i)) (p : Prog ι [] t)
    (hp : p.Sane) (ha : p.Agree frac inp inp' .nil .nil) :
    (RandM.dist (p.run frac inp .nil)).map (fun r => seen σ r.2) =
      (RandM.dist (p.run frac inp' .nil)).map (fun r => seen σ r.2) :=
  (Prog.sim frac inp inp' p EnvRel.nil hp ha).dist_eq

theorem agree_of_closed (frac : ℕ) (inp inp' : ∀ i, T (ι i)) (p : Prog ι Γ t) :
    ∀ {c c' : Env CVal Γ}, kinds c = kinds c' → p.Closed frac (kinds c) →
      p.Agree frac inp inp' c c' := by
  induction p with
  | ret x => intros; trivial
  | step o k ih =>
    intro c c' hk hc
    rw [Prog.Closed, flow_kinds] at hc
    simp only [Prog.Agree]
    cases hf : o.flow frac c with
    | error er => trivial
    | ok κ =>
      rw [hf] at hc
      refine ⟨?_, ?_, fun z z' _ _ _ => ih ?_ hc.2⟩
      · have := hc.1
        cases o <;> first | trivial | skip
        all_goals
          simp only [Op.Closed, kinds_get] at this
          exact this
      · cases o <;> first | trivial | exact hc.1.elim
      · show Env.cons _ (kinds c) = Env.cons _ (kinds c')
        rw [hk]

/-- **C07**, programs that open nothing and broadcast no first factor: no server learns anything
about the inputs. -/
theorem closed_secrecy (σ : Fin 3) (frac : ℕ) (inp inp' : ∀ i, T (ι i)) (p : Prog ι [] t)
    (hp : p.Sane) (hc : p.Closed frac .nil) :
    (RandM.dist (p.run frac inp .nil)).map (fun r => seen σ r.2) =
      (RandM.dist (p.run frac inp' .nil)).map (fun r => seen σ r.2) :=
  program_secrecy σ frac inp inp' p hp (agree_of_closed frac inp inp' p rfl hc)

/-- Multiply two private vectors and reveal the product. -/
def demoOpen : Prog (fun _ : Bool => Srt.arith 64 1) [] (.arith 64 1) :=
  .step (.input false false) <|
  .step (.input true false) <|
  .step (.mul id id (.there .here) .here) <|
  .step (.reveal .here) (.ret .here)

/-- Non-vacuity of `program_secrecy`: for `3 · 4` and `2 · 6` the same value is opened, so the
views have the same distribution although the inputs differ. -/
example : demoOpen.Agree 8 (fun b => if b then fun _ => 4#64 else fun _ => 3#64)
    (fun b => if b then fun _ => 6#64 else fun _ => 2#64) .nil .nil := by
  refine ⟨trivial, trivial, ?_⟩
  rintro z z' rfl rfl _
  refine ⟨trivial, trivial, ?_⟩
  rintro z z' rfl rfl _
  refine ⟨fun _ _ => Function.injective_id, trivial, ?_⟩
  rintro z z' rfl rfl _
  refine ⟨trivial, ?_, fun _ _ _ _ _ => trivial⟩
  funext i
  show 3#64 * 4#64 = 2#64 * 6#64
  decide

/-- A scalar and a vector of two elements. -/
abbrev bcSort : Bool → Srt
  | false => .arith 64 1
  | true => .arith 64 2

/-- The scalar and the vector. -/
def bcInp (x : T (.arith 64 1)) (y : T (.arith 64 2)) : ∀ b : Bool, T (bcSort b)
  | false => x
  | true => y

/-- A private scalar times a private vector of two elements: the zero sharing has the shape of the
scalar (aby3.py:2466), one element. -/
def broadcast : Prog bcSort [] (.arith 64 2) :=
  .step (.input false false) <|
  .step (.input true false) <|
  .step (.mul (fun _ => 0) id (.there .here) .here) (.ret .here)

/-- What server 0 computes from its view of `broadcast`: if the second component `x₁` of the
scalar is one and the vector's second component `y₁` has equal elements, the difference of the two
elements of the received product share, which have the same mask, plus that of `y₀`. -/
def broadcastAttack : List Msg → BitVec 64
  | [_, x1, y0, y1, _, _, z1] =>
    let y0 := y0.arith 64 2
    let y1 := y1.arith 64 2
    let z1 := z1.arith 64 2
    if x1.arith 64 1 0 = 1 ∧ y1 0 = y1 1 then z1 0 - z1 1 + (y0 0 - y0 1) else 0
  | _ => 0

/-- The value the attack computes, in terms of the inputs and the draws. -/
def broadcastGuess (x : T (.arith 64 1)) (y : T (.arith 64 2)) (a b : T (.arith 64 1))
    (c d : T (.arith 64 2)) (f g : T (.arith 64 1)) : BitVec 64 :=
  let x2 := (x - a - b) 0
  let y2 := y - c - d
  let z1 := fun i => b 0 * d i + b 0 * y2 i + x2 * d i + (f 0 - g 0)
  if b 0 = 1 ∧ d 0 = d 1 then z1 0 - z1 1 + (c 0 - c 1) else 0

theorem broadcast_all (x : T (.arith 64 1)) (y : T (.arith 64 2))
    (P : BitVec 64 → Prop) :
    RandM.All (fun r => P (broadcastAttack (seen 0 r.2))) (broadcast.run 8 (bcInp x y) .nil) ↔
    ∀ (a b : T (.arith 64 1)) (c d : T (.arith 64 2)) (_e f g : T (.arith 64 1)),
      P (broadcastGuess x y a b c d f g) := Iff.rfl

theorem broadcastGuess_eq (x : T (.arith 64 1)) (y : T (.arith 64 2)) (a b : T (.arith 64 1))
    (c d : T (.arith 64 2)) (f g : T (.arith 64 1)) :
    broadcastGuess x y a b c d f g = if b 0 = 1 ∧ d 0 = d 1 then y 0 - y 1 else 0 := by
  unfold broadcastGuess
  simp only [Pi.sub_apply]
  split
  · rename_i hc
    rw [hc.1, hc.2]
    ring
  · rfl

/-- Server 0's view of `x * y`, where the scalar `x` is broadcast, gives away `y₀ - y₁`: the attack
is always `0` when the elements are equal, and is their difference for some draws otherwise. -/
theorem broadcast_all_iff (x : T (.arith 64 1)) (y : T (.arith 64 2)) :
    RandM.All (fun r => broadcastAttack (seen 0 r.2) = 0) (broadcast.run 8 (bcInp x y) .nil) ↔
      y 0 = y 1 := by
  refine (broadcast_all x y (· = 0)).trans ?_
  simp only [broadcastGuess_eq]
  constructor
  · intro h
    have := h 0 (fun _ => 1) 0 0 0 0 0
    rw [if_pos ⟨rfl, rfl⟩] at this
    exact sub_eq_zero.1 this
  · intro h a b c d _ f g
    rw [h, sub_self, ite_self]

theorem all_of_view {α β : Type} {m : M α} {n : M β} {σ : Fin 3}
    (h : (RandM.dist m).map (fun r => seen σ r.2) = (RandM.dist n).map (fun r => seen σ r.2))
    {f : List Msg → BitVec 64} {c : BitVec 64} (hm : RandM.All (fun r => f (seen σ r.2) = c) m) :
    RandM.All (fun r => f (seen σ r.2) = c) n :=
  RandM.All.of_dist_eq h (P := fun l => f l = c) hm

attribute [local irreducible] RandM.All Prog.run in
/-- **C07 fails** when the first factor of a product is broadcast: `_mul_private_private` draws
its zero sharing with `x.shape` (aby3.py:2452), so elements of the result that share an element of
`x` share a mask. For every scalar `x`, server 0's view of `x * y` has different distributions for
any two vectors of which one has equal elements and the other has not, although nothing is
opened. -/
theorem broadcast_leaks_false (x : T (.arith 64 1)) (y y' : T (.arith 64 2)) (hy : y 0 = y 1)
    (hy' : y' 0 ≠ y' 1) : broadcast.Sane ∧
    (RandM.dist (broadcast.run 8 (bcInp x y) .nil)).map (fun r => seen 0 r.2) ≠
      (RandM.dist (broadcast.run 8 (bcInp x y') .nil)).map (fun r => seen 0 r.2) := by
  refine ⟨⟨trivial, trivial, trivial, trivial⟩, fun h => hy' ?_⟩
  have h0 := (broadcast_all_iff x y).2 hy
  exact (broadcast_all_iff x y').1 (all_of_view h h0)

/-- There are such vectors. -/
example : (![0, 0] : T (.arith 64 2)) 0 = (![0, 0] : T (.arith 64 2)) 1 ∧
    (![0, 1] : T (.arith 64 2)) 0 ≠ (![0, 1] : T (.arith 64 2)) 1 := by decide

end Verif.Aby3
