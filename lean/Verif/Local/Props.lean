import Verif.Local.Lemmas
import Verif.Aby3.Dist
import Verif.Fixed.Props
import Verif.Bits.Int

/-!
# C49: what `define_local_computation` computes and who learns what

`Truth`, `Gives`, `Out.vecs?`, `SameForm` (in `Local/Lemmas`) are the specification: the true value
of an argument under its own share type, and private tensors that stand for given plaintext.
-/

namespace Verif.Local

open Verif

theorem zip_left {A B B' : Type} {P : A → B → Prop} :
    ∀ {vs : List A} {xs : List B} {xs' : List B'},
      List.Forall₂ (fun (v : A × A) (x : B × B') => P v.1 x.1) (vs.zip vs) (xs.zip xs') →
      xs.length = vs.length → xs'.length = vs.length → List.Forall₂ P vs xs
  | [], [], _, _, _, _ => .nil
  | [], _ :: _, _, _, h, _ => by simp at h
  | _ :: _, [], _, _, h, _ => by simp at h
  | _ :: _, _ :: _, [], _, _, h => by simp at h
  | _ :: vs, _ :: xs, _ :: xs', h, h1, h2 => by
    simp only [List.zip_cons_cons, List.forall₂_cons] at h
    exact .cons h.1 (zip_left h.2 (by simpa using h1) (by simpa using h2))

theorem mapM_length {rs : List RetVal} {vs : List Vec} (h : rs.mapM RetVal.vec? = some vs) :
    rs.length = vs.length := by
  induction rs generalizing vs with
  | nil => simp at h; simp [h]
  | cons r rs ih =>
    simp only [List.mapM_cons] at h
    cases hr : r.vec? <;> simp [hr] at h
    cases hrs : rs.mapM RetVal.vec? <;> simp [hrs] at h
    subst h
    simp [ih hrs]

theorem vecs_length {A : Type} {o : Out} {vs : List Vec} {r : Res A} (h : o.vecs? = some vs)
    (hf : SameForm o r) : r.toList.length = vs.length := by
  cases o with
  | nothing => cases r <;> simp_all [SameForm, Out.vecs?, Res.toList]
  | other => simp [Out.vecs?] at h
  | tensor v s =>
    cases s <;> simp [Out.vecs?] at h
    cases r <;> simp_all [SameForm, Res.toList]; subst h; rfl
  | list rs =>
    cases r <;> simp only [SameForm] at hf
    simp only [Res.toList, ← hf]
    exact mapM_length h

namespace Aby3
open Verif.Aby3

theorem Out.Alike.refl {o : Out} (h : o.vecs?.isSome) : Out.Alike o o := by
  cases o with
  | nothing => trivial
  | other => simp [Out.vecs?] at h
  | tensor v s => exact ⟨rfl, rfl⟩
  | list rs =>
    intro us us' e e'
    rw [e] at e'
    cases e'
    exact List.forall₂_same.2 fun _ _ => rfl

/-- **C49 (ABY3), in part.** Missing: public arguments (`public_argument_raises`) and private
arguments whose share type is not that of the call (`share_type_false`).

For every list of other arguments, whatever their sharings, every player and every function: the
function is run on the true values of the arguments, and what the call returns has the form of what
the function returned and stands for it, in the factory, scaling and share type asked for. -/
theorem local_spec_partial (w frac : ℕ) (p : Option (Fin 3)) (f : List Vec → Out) {args : List Arg}
    (apply : Bool) {tag : Tag} (ht : tag ≠ .pub) {vals : List Vec}
    (hfit : ∀ a ∈ args, Fits tag a) (hargs : List.Forall₂ (Truth frac) args vals) {vs : List Vec}
    (hvs : (f vals).vecs? = some vs) :
    ∃ m, defineLocal w frac p f args apply tag = .ok m ∧
      M.All (fun r => SameForm (f vals) r ∧ List.Forall₂ (Gives w frac apply tag) vs r.toList) m := by
  have h1 : each (openArg frac tag p) args = .ok vals := by
    refine each_ok (P := fun a v => Fits tag a ∧ Truth frac a v)
      (fun a v h => openArg_truth frac tag p h.1 h.2) ?_
    clear hvs
    induction hargs with
    | nil => exact .nil
    | cons h _ ih =>
      exact .cons ⟨hfit _ (by simp), h⟩ (ih fun a ha => hfit a (by simp [ha]))
  have hs : (f vals).vecs?.isSome := by rw [hvs]; rfl
  obtain ⟨m, m', h, h', sim⟩ := shareResult_sim w frac apply ht 0 hs hs (Out.Alike.refl hs)
  refine ⟨_, by simp only [defineLocal, h1, h]; rfl, ?_⟩
  refine M.All.bind (receiveAll_all p args) fun _ _ => sim.left ?_
  rintro r r' ⟨f1, f2, hz⟩
  refine ⟨f1, zip_left (xs' := r'.toList) ((hz vs vs hvs hvs).imp fun _ _ h => h.1) ?_ ?_⟩
  · exact vecs_length hvs f1
  · exact vecs_length hvs f2

/-- An argument of two inputs and a result of one, as a concrete case: the player adds the entries
of a private tensor shared as (1, 2, 4) and of a plain one. -/
example : ∃ (a : List Arg) (v : List Vec), (∀ x ∈ a, Fits .arithmetic x) ∧
    List.Forall₂ (Truth 4) a v ∧ v = [⟨1, fun _ => 7⟩, ⟨1, fun _ => 1 / 3⟩] := by
  refine ⟨[.priv ⟨64, 1, ![(fun _ => 1, fun _ => 2), (fun _ => 2, fun _ => 4),
    (fun _ => 4, fun _ => 1)], false, .arithmetic⟩, .plain ⟨1, fun _ => 1 / 3⟩], _, ?_, ?_, rfl⟩
  · intro x hx
    simp at hx
    rcases hx with rfl | rfl
    · rfl
    · trivial
  · refine .cons ⟨fun _ => 7, ⟨fun i => by fin_cases i <;> rfl, rfl⟩, ?_⟩ (.cons rfl .nil)
    congr

/-- What a shared result decodes to at every player: within one unit of what the function returned,
never larger in magnitude. -/
theorem local_reveals (w frac : ℕ) (hw : 1 < w) {tag : Tag} {v : Vec} {x : Priv}
    (hx : Gives w frac true tag v x) (hv : ∀ i, |v.val i| * 2 ^ frac < 2 ^ (w - 1))
    (p : Option (Fin 3)) :
    ∃ u : Fin v.n → ℚ, openArg frac tag p (.priv x) = .ok ⟨v.n, u⟩ ∧
      ∀ i, |u i - v.val i| < 1 / 2 ^ frac ∧ |u i| ≤ |v.val i| := by
  obtain ⟨sh, rfl, hsh⟩ := hx
  refine ⟨fun i => decode frac true (encode w frac true (v.val i)),
    by simp only [openArg, stands_reconstruct hsh p], fun i => ?_⟩
  have hp : (0 : ℚ) < 2 ^ frac := by positivity
  obtain ⟨h1, h2, -⟩ := Fixed.toInt_spec (v.val i * 2 ^ frac)
  have hb : |(Fixed.toInt (v.val i * 2 ^ frac) : ℚ)| < 2 ^ (w - 1) := by
    refine h1.trans_lt ?_
    rw [abs_mul, abs_of_pos hp]
    exact hv i
  have hb' : |Fixed.toInt (v.val i * 2 ^ frac)| < (2 ^ (w - 1) : ℤ) := by exact_mod_cast hb
  obtain ⟨b1, b2⟩ := abs_lt.1 hb'
  have hd : decode frac true (encode w frac true (v.val i)) =
      (Fixed.toInt (v.val i * 2 ^ frac) : ℚ) / 2 ^ frac := by
    have hw1 : w ≠ 1 := by omega
    simp only [decode, encode, if_neg hw1, if_true]
    rw [Bits.toInt_ofInt (by omega) b1.le b2]
  show |decode frac true (encode w frac true (v.val i)) - v.val i| < _ ∧
    |decode frac true (encode w frac true (v.val i))| ≤ _
  rw [hd]
  generalize (Fixed.toInt (v.val i * 2 ^ frac) : ℚ) = t at h1 h2
  constructor
  · rw [div_sub' hp.ne', abs_div, abs_of_pos hp]
    gcongr
    rwa [mul_comm]
  · rw [abs_div, abs_of_pos hp, div_le_iff₀ hp]
    calc |t| ≤ |v.val i * 2 ^ frac| := h1
      _ = |v.val i| * 2 ^ frac := by rw [abs_mul, abs_of_pos hp]

/-- Integers that are shared without scaling come back exactly. -/
theorem local_reveals_exact (w frac : ℕ) (hw : 1 < w) {tag : Tag} {n : ℕ} (k : Fin n → ℤ) {x : Priv}
    (hx : Gives w frac false tag ⟨n, fun i => k i⟩ x)
    (hk : ∀ i, -2 ^ (w - 1) ≤ k i ∧ k i < 2 ^ (w - 1)) (p : Option (Fin 3)) :
    openArg frac tag p (.priv x) = .ok ⟨n, fun i => k i⟩ := by
  obtain ⟨sh, rfl, hsh⟩ := hx
  simp only [openArg, stands_reconstruct hsh p]
  have hw1 : w ≠ 1 := by omega
  congr 2
  funext i
  simp only [decode, encode, if_neg hw1, Bool.false_eq_true, if_false, Fixed.toInt_intCast]
  rw [Bits.toInt_ofInt (by omega) (hk i).1 (hk i).2]

/-- Truth values shared in the one-bit factory come back exactly. -/
theorem local_reveals_bool (frac : ℕ) {tag : Tag} {n : ℕ} (b : Fin n → Bool) {x : Priv}
    (hx : Gives 1 frac false tag ⟨n, fun i => if b i then 1 else 0⟩ x) (p : Option (Fin 3)) :
    openArg frac tag p (.priv x) = .ok ⟨n, fun i => if b i then 1 else 0⟩ := by
  obtain ⟨sh, rfl, hsh⟩ := hx
  simp only [openArg, stands_reconstruct hsh p]
  congr 2
  funext i
  cases h : b i <;> simp [decode, encode]

/-- **C49 (ABY3), secrecy.** A server that is not the player learns nothing: for any two lists of
arguments on which the function returns tensors of the same shapes, what the server is told has the
same distribution, and the shares it ends up with look the same. -/
theorem local_secret (w frac : ℕ) {p : Option (Fin 3)} {σ : Fin 3} (hp : p ≠ some σ)
    (f : List Vec → Out) {args args' : List Arg} (apply : Bool) {tag : Tag} (ht : tag ≠ .pub)
    {vals vals' : List Vec} (hfit : ∀ a ∈ args, Fits tag a) (hfit' : ∀ a ∈ args', Fits tag a)
    (hargs : List.Forall₂ (Truth frac) args vals) (hargs' : List.Forall₂ (Truth frac) args' vals')
    (hv : (f vals).vecs?.isSome) (hv' : (f vals').vecs?.isSome)
    (hf : Out.Alike (f vals) (f vals')) :
    ∃ m m', defineLocal w frac p f args apply tag = .ok m ∧
      defineLocal w frac p f args' apply tag = .ok m' ∧
      M.Sim σ (Results σ w frac apply tag (f vals) (f vals')) m m' ∧ M.view σ m = M.view σ m' := by
  have opened : ∀ {as : List Arg} {us : List Vec}, (∀ a ∈ as, Fits tag a) →
      List.Forall₂ (Truth frac) as us → each (openArg frac tag p) as = .ok us := by
    intro as us hfit hargs
    refine each_ok (P := fun a v => Fits tag a ∧ Truth frac a v)
      (fun a v h => openArg_truth frac tag p h.1 h.2) ?_
    induction hargs with
    | nil => exact .nil
    | cons h _ ih =>
      exact .cons ⟨hfit _ (by simp), h⟩ (ih fun a ha => hfit a (by simp [ha]))
  obtain ⟨m, m', h, h', sim⟩ := shareResult_sim w frac apply ht σ hv hv' hf
  have hsim : M.Sim σ (Results σ w frac apply tag (f vals) (f vals'))
      (do receiveAll p args; m) (do receiveAll p args'; m') :=
    (receiveAll_sim hp args args').bind fun _ _ _ => sim
  exact ⟨_, _, by simp only [defineLocal, opened hfit hargs, h],
    by simp only [defineLocal, opened hfit' hargs', h'], hsim, hsim.dist_eq⟩

/-- **C49 fails for public arguments** in ABY3: whatever the function, the player and the other
arguments, a call with a public argument raises, and if the other arguments are fine it raises
`ValueError`. -/
theorem public_argument_raises (w frac : ℕ) (p : Option (Fin 3)) (f : List Vec → Out)
    (args : List Arg) (apply : Bool) (tag : Tag) {w' n : ℕ} {v : Pub (Words w' n)} {sc : Bool}
    (h : Arg.pub w' n v sc ∈ args) :
    (∃ e, defineLocal w frac p f args apply tag = .error e) ∧
      ((∀ a ∈ args, Fits tag a ∨ ∃ w n v sc, a = Arg.pub w n v sc) → tag ≠ .pub →
        defineLocal w frac p f args apply tag = .error .value) := by
  have key : (∃ e, each (openArg frac tag p) args = .error e) ∧
      ((∀ a ∈ args, Fits tag a ∨ ∃ w n v sc, a = Arg.pub w n v sc) → tag ≠ .pub →
        each (openArg frac tag p) args = .error .value) := by
    induction args with
    | nil => simp at h
    | cons a as ih =>
      constructor
      · cases ha : openArg frac tag p a with
        | error e => exact ⟨e, by simp [each, ha]⟩
        | ok u =>
          rcases List.mem_cons.1 h with rfl | h
          · simp [openArg] at ha
          · obtain ⟨e, he⟩ := (ih h).1
            exact ⟨e, by simp [each, ha, he]⟩
      · intro hfit ht
        have hval : (∃ w n v sc, a = Arg.pub w n v sc) → openArg frac tag p a = .error .value := by
          rintro ⟨w, n, v, sc, rfl⟩; rfl
        rcases hfit a (by simp) with hf | hf
        · have ha : ∃ u, openArg frac tag p a = .ok u := by
            cases a with
            | plain u => exact ⟨u, rfl⟩
            | pub => exact hf.elim
            | backing => exact hf.elim
            | priv x =>
              cases tag with
              | pub => exact absurd rfl ht
              | arithmetic => exact ⟨_, rfl⟩
              | boolean => exact ⟨_, rfl⟩
          obtain ⟨u, hu⟩ := ha
          rcases List.mem_cons.1 h with rfl | h
          · exact hf.elim
          · simp [each, hu, (ih h).2 (fun b hb => hfit b (by simp [hb])) ht]
        · simp [each, hval hf]
  constructor
  · obtain ⟨e, he⟩ := key.1
    exact ⟨e, by simp [defineLocal, he]⟩
  · intro h1 h2
    simp [defineLocal, key.2 h1 h2]

/-- **C49 fails for private arguments of the other share type** in ABY3: the default share type of
the call is ARITHMETIC, and it is also used to reconstruct. A boolean sharing (1, 1, 1) of 1 reaches
the function as 3, at every player. -/
theorem share_type_false : ¬ ∀ (frac : ℕ) (p : Option (Fin 3)) (x : Priv) (v : Vec) (tag : Tag),
    tag ≠ .pub → Truth frac (.priv x) v → openArg frac tag p (.priv x) = .ok v := by
  intro h
  let x : Priv := ⟨64, 1, fun _ => (fun _ => 1, fun _ => 1), false, .boolean⟩
  have ht : Truth 0 (.priv x) ⟨1, fun i => decode 0 false ((fun _ => 1 : Words 64 1) i)⟩ :=
    ⟨fun _ => 1, ⟨fun _ => rfl, by
      funext i; apply XBits.ext
      show (1 : BitVec 64) ^^^ 1 ^^^ 1 = 1
      decide⟩, rfl⟩
  have := h 0 none x _ .arithmetic (by decide) ht
  simp only [openArg, reconstructAs, Except.ok.injEq, Vec.mk.injEq] at this
  have e := congrFun (eq_of_heq this.2) 0
  have e3 : decode 0 false (3 : BitVec 64) = decode 0 false (1 : BitVec 64) := e
  revert e3
  simp [decode]

/-- How wrong it can be: for any two words of the same parity there is a boolean sharing of the
first that the default share type reconstructs as the second. -/
theorem share_type_any (w : ℕ) (v u : BitVec (w + 1)) (h : v.getLsbD 0 = u.getLsbD 0) :
    ∃ x : Shares (Words (w + 1) 1), Stands .boolean (fun _ => v) x ∧
      ∀ p, reconstructAs .arithmetic x p = .ok fun _ => u := by
  obtain ⟨m, hm⟩ : ∃ m : BitVec (w + 1), u = v + (m + m) := by
    refine ⟨(u - v) >>> 1, ?_⟩
    have h0 : (u - v).toNat % 2 = 0 := by
      have h1 : v.toNat % 2 = u.toNat % 2 := by
        simp only [BitVec.getLsbD, Nat.testBit_zero] at h
        have := decide_eq_decide.1 h
        omega
      rw [BitVec.toNat_sub]
      have e : 2 ^ (w + 1) = 2 * 2 ^ w := by rw [pow_succ']
      have := v.isLt
      rw [e] at this ⊢
      rw [Nat.mod_mul_right_mod]
      omega
    have h2 : (u - v) >>> 1 + (u - v) >>> 1 = u - v := by
      apply BitVec.eq_of_toNat_eq
      have := (u - v).isLt
      rw [BitVec.toNat_add, BitVec.toNat_ushiftRight, Nat.shiftRight_eq_div_pow, pow_one,
        Nat.mod_eq_of_lt] <;> omega
    rw [h2]
    abel
  have hsum : (v ||| m) + (v &&& m) = v + m := by
    have e1 : v ||| m = (v &&& ~~~m) + m := by
      rw [BitVec.add_eq_or_of_and_eq_zero]
      · ext i hi; simp; cases v[i] <;> cases m[i] <;> rfl
      · ext i hi; simp; try (cases v[i] <;> cases m[i] <;> simp)
    have e2 : (v &&& ~~~m) + (v &&& m) = v := by
      rw [BitVec.add_eq_or_of_and_eq_zero]
      · ext i hi; simp; cases v[i] <;> cases m[i] <;> rfl
      · ext i hi; simp; try (cases v[i] <;> cases m[i] <;> simp)
    rw [e1]
    calc (v &&& ~~~m) + m + (v &&& m) = ((v &&& ~~~m) + (v &&& m)) + m := by abel
      _ = v + m := by rw [e2]
  let a : Words (w + 1) 1 := fun _ => v ||| m
  let b : Words (w + 1) 1 := fun _ => m
  let c : Words (w + 1) 1 := fun _ => v &&& m
  refine ⟨![(a, b), (b, c), (c, a)], ⟨fun i => by fin_cases i <;> rfl, ?_⟩, ?_⟩
  · funext i
    apply XBits.ext
    show (v ||| m) ^^^ m ^^^ (v &&& m) = v
    ext i hi; simp; cases v[i] <;> cases m[i] <;> rfl
  · intro p
    have hh : Holds (s := .arith (w + 1) 1) (fun _ => u)
        (![(a, b), (b, c), (c, a)] : Shares (Words (w + 1) 1)) := by
      refine ⟨fun i => by fin_cases i <;> rfl, ?_⟩
      funext i
      show (v ||| m) + m + (v &&& m) = u
      calc (v ||| m) + m + (v &&& m) = ((v ||| m) + (v &&& m)) + m := by abel
        _ = v + (m + m) := by rw [hsum]; abel
        _ = u := hm.symm
    exact stands_reconstruct (tag := .arithmetic) hh p

/-- Backing tensors are refused, and so is the share type PUBLIC for results. -/
theorem local_refused (w frac : ℕ) (p : Option (Fin 3)) (f : List Vec → Out) (apply : Bool)
    (tag : Tag) (as : List Arg) :
    defineLocal w frac p f (.backing :: as) apply tag = .error .type ∧
    (∀ x, defineLocal w frac p f (.priv x :: as) apply .pub = .error .notImplemented) ∧
    (∀ v, f [] = .tensor v true → defineLocal w frac p f [] apply .pub = .error .notImplemented) ∧
    (∀ v, f [] = .tensor v false → defineLocal w frac p f [] apply tag = .error .assertion) ∧
    (f [] = .other → defineLocal w frac p f [] apply tag = .error .type) := by
  refine ⟨rfl, fun x => rfl, fun v hv => ?_, fun v hv => ?_, fun hv => ?_⟩ <;>
    simp [defineLocal, each, hv, shareResult, shareOutput, shareAs]

end Aby3

namespace Pond
open Verif.Pond

variable {F : Fixed.Factory}

/-- The true value of an argument. -/
def Truth (c : Fixed.Config) : Arg F → Vec → Prop
  | .plain v, u => u = v
  | .pub n v0 v1 sc, u => v0 = v1 ∧ u = ⟨n, fun i => Fixed.decodePond F c sc (v0 i)⟩
  | .priv n x sc, u => u = ⟨n, fun i => Fixed.decodePond F c sc ((x.x0 + x.x1) i)⟩
  | .masked n x sc, u =>
    u = ⟨n, fun i => Fixed.decodePond F c sc ((x.unmasked.x0 + x.unmasked.x1) i)⟩
  | .backing, _ => False

/-- `x` is a private tensor for the plaintext `v`. -/
def Gives (c : Fixed.Config) (apply : Bool) (v : Vec) (x : Shared F) : Prop :=
  ∃ p : Priv (RT F v.n), x = ⟨v.n, p, apply⟩ ∧
    p.x0 + p.x1 = fun i => (Fixed.encode c apply (v.val i) : ZMod F.modulus)

theorem vec_some {r : RetVal} {v : Vec} (h : r.vec? = some v) : r = .tensor v true := by
  rcases r with ⟨u, s⟩ | _ <;> simp only [RetVal.vec?] at h
  · cases s <;> simp at h; rw [h]
  · cases h

theorem shareOutput_ok (c : Fixed.Config) (apply : Bool) {r : RetVal} {v : Vec}
    (hr : r.vec? = some v) :
    ∃ m : RandM (RT F) (Shared F), shareOutput c apply false r = .ok m ∧
      m.All (Gives c apply v) := by
  rw [vec_some hr]
  refine ⟨_, by simp only [shareOutput, if_true]; rfl, ?_⟩
  rw [RandM.all_bind]
  exact RandM.All.mono (fun p hp => ⟨p, rfl, hp⟩) (share_ok (T := RT F) (s := v.n) _)

theorem runAll_ok (c : Fixed.Config) (apply : Bool) :
    ∀ {rs : List RetVal} {vs : List Vec}, rs.mapM RetVal.vec? = some vs →
      ∃ ms : List (RandM (RT F) (Shared F)), each (shareOutput c apply false) rs = .ok ms ∧
        (runAll ms).All (List.Forall₂ (Gives c apply) vs) := by
  intro rs
  induction rs with
  | nil =>
    intro vs h
    simp at h; subst h
    exact ⟨[], rfl, .nil⟩
  | cons r rs ih =>
    intro vs h
    simp only [List.mapM_cons] at h
    cases hr : r.vec? with
    | none => simp [hr] at h
    | some v =>
    cases hrs : rs.mapM RetVal.vec? with
    | none => simp [hr, hrs] at h
    | some us =>
    simp [hr, hrs] at h
    subst h
    obtain ⟨m, e, hm⟩ := shareOutput_ok (F := F) c apply hr
    obtain ⟨ms, es, hms⟩ := ih hrs
    refine ⟨m :: ms, by simp [each, e, es], ?_⟩
    simp only [runAll]
    rw [RandM.all_bind]
    refine RandM.All.mono (fun x hx => ?_) hm
    rw [RandM.all_bind]
    exact RandM.All.mono (fun xs hxs => .cons hx hxs) hms

/-- **C49 (Pond), in part.** Missing: `masked=True`, which always raises (`masked_raises`).

For every list of arguments, public, private, masked or plain, whatever their sharings, and every
function: the function is run on the true values of the arguments, and the result has the form of
what it returned and stands for it. -/
theorem local_spec_partial (c : Fixed.Config) (f : List Vec → Out) {args : List (Arg F)}
    (apply : Bool) {vals : List Vec} (hargs : List.Forall₂ (Truth c) args vals) {vs : List Vec}
    (hvs : (f vals).vecs? = some vs) :
    ∃ m, defineLocal c f args apply false = .ok m ∧
      m.All fun r => SameForm (f vals) r ∧ List.Forall₂ (Gives c apply) vs r.toList := by
  have h1 : each (openArg c) args = .ok vals := by
    refine each_ok (P := Truth c) ?_ hargs
    intro a v h
    cases a with
    | plain u => cases h; rfl
    | pub n v0 v1 sc => obtain ⟨-, rfl⟩ := h; rfl
    | priv n x sc => cases h; rfl
    | masked n x sc => cases h; rfl
    | backing => exact h.elim
  simp only [defineLocal, h1]
  cases ho : f vals with
  | nothing =>
    rw [ho] at hvs
    simp [Out.vecs?] at hvs; subst hvs
    exact ⟨_, rfl, trivial, .nil⟩
  | other => rw [ho] at hvs; simp [Out.vecs?] at hvs
  | tensor v s =>
    rw [ho] at hvs
    cases s <;> simp [Out.vecs?] at hvs
    subst hvs
    obtain ⟨m, e, hm⟩ := shareOutput_ok (F := F) c apply (r := .tensor v true) rfl
    refine ⟨_, by simp only [shareResult, e]; rfl, ?_⟩
    rw [RandM.all_bind]
    exact RandM.All.mono (fun x hx => ⟨trivial, .cons hx .nil⟩) hm
  | list rs =>
    rw [ho] at hvs
    simp only [Out.vecs?] at hvs
    obtain ⟨ms, e, hm⟩ := runAll_ok (F := F) c apply hvs
    refine ⟨_, by simp only [shareResult, e]; rfl, ?_⟩
    rw [RandM.all_bind]
    refine RandM.All.mono (fun xs hx => ⟨?_, hx⟩) hm
    show rs.length = xs.length
    rw [← hx.length_eq]
    exact mapM_length hvs

/-- What a shared result decodes to when it is passed back: within one unit of what the function
returned. -/
theorem local_reveals {c : Fixed.Config} (hb : 0 < c.base) (hF : Fixed.HoldsShifted F c) {v : Vec}
    {x : Shared F} (hx : Gives c true v x) (hv : ∀ i, |v.val i| < (c.base : ℚ) ^ c.pInt) :
    ∃ u : Fin v.n → ℚ, openArg c (.priv x.n x.x x.scaled) = .ok ⟨v.n, u⟩ ∧
      ∀ i, |u i - v.val i| < 1 / c.scale ∧ |u i| ≤ |v.val i| := by
  obtain ⟨p, rfl, hp⟩ := hx
  refine ⟨fun i => Fixed.decodePond F c true (Fixed.encode c true (v.val i) : ZMod F.modulus), ?_, ?_⟩
  · simp only [openArg, reconstruct, hp]
  · intro i
    obtain ⟨h1, h2, -⟩ := Fixed.pond_encode_decode (F := F) hb hF (v.val i) (hv i)
    exact ⟨h1, h2⟩

/-- **C49 fails for `masked=True`** in Pond: whatever the arguments and the function, if the
function returns a tensor the call raises `TypeError`, because of the unary plus at the start of
pond.py 560. In particular `define_private_input(..., masked=True)` never works. -/
theorem masked_raises (c : Fixed.Config) (f : List Vec → Out) {args : List (Arg F)} (apply : Bool)
    {vals : List Vec} (hargs : each (openArg c) args = .ok vals) {v : Vec}
    (hf : f vals = .tensor v true) :
    defineLocal c f args apply true = .error .type := by
  simp [defineLocal, hargs, hf, shareResult, shareOutput]

/-- A concrete case for the hypotheses: one public and one private argument over 64-bit words. -/
example : ∃ (a : List (Arg (Fixed.native 64))) (v : List Vec),
    List.Forall₂ (Truth Fixed.fixed64_ni) a v ∧ a.length = 2 :=
  ⟨[.pub 1 (fun _ => 5) (fun _ => 5) false, .priv 2 ⟨fun _ => 9, fun _ => -4⟩ true], _,
    .cons ⟨rfl, rfl⟩ (.cons rfl .nil), rfl⟩

end Pond
end Verif.Local
