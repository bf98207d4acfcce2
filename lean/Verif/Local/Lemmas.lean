import Verif.Local.Model
import Verif.Aby3.Lemmas
import Verif.Pond.Lemmas

/-!
# Local computations: specification and helper lemmas
-/

namespace Verif.Local

open Verif

/-! ## Specification -/

/-- A returned object that can be shared: a tensor of known shape. -/
def RetVal.vec? : RetVal → Option Vec
  | .tensor v true => some v
  | _ => none

/-- The tensors in a legal return value of the function; `none` if the return value is not
legal. -/
def Out.vecs? : Out → Option (List Vec)
  | .nothing => some []
  | .tensor v true => some [v]
  | .tensor _ false => none
  | .list vs => vs.mapM RetVal.vec?
  | .other => none

/-- The tensors in a result. -/
def Res.toList {A : Type} : Res A → List A
  | .nothing => []
  | .one x => [x]
  | .many xs => xs

/-- The result has the form of the return value: nothing for nothing, a tensor for a tensor, a list
for a list. -/
def SameForm {A : Type} : Out → Res A → Prop
  | .nothing, .nothing => True
  | .tensor _ _, .one _ => True
  | .list vs, .many xs => vs.length = xs.length
  | _, _ => False

theorem each_ok {A B : Type} {f : A → Except Err B} {P : A → B → Prop}
    (hf : ∀ a b, P a b → f a = .ok b) {as : List A} {bs : List B} (h : List.Forall₂ P as bs) :
    each f as = .ok bs := by
  induction h with
  | nil => rfl
  | cons h _ ih => simp [each, hf _ _ h, ih]

namespace Aby3
open Verif.Aby3

/-- The words `v` are shared as `x` under a share type. -/
def Stands {w n : ℕ} (tag : Tag) (v : Words w n) (x : Shares (Words w n)) : Prop :=
  match tag with
  | .arithmetic => Holds (s := .arith w n) v x
  | .boolean => Holds (s := .bool w n) (toBool v) (x.map toBool)
  | .pub => False

/-- `x` and `x'` stand for `v` and `v'` and look the same to server `σ`. -/
def Looks {w n : ℕ} (σ : Fin 3) (tag : Tag) (v v' : Words w n) (x x' : Shares (Words w n)) : Prop :=
  Stands tag v x ∧ Stands tag v' x' ∧ x σ = x' σ

/-- The true value of an argument: what it stands for under its own share type. -/
def Truth (frac : ℕ) : Arg → Vec → Prop
  | .plain v, u => u = v
  | .pub w n x sc, u => ∃ v : Words w n, (∀ i, x i = v) ∧ u = ⟨n, fun i => decode frac sc (v i)⟩
  | .priv x, u => ∃ v : Words x.w x.n, Stands x.tag v x.shares ∧
      u = ⟨x.n, fun i => decode frac x.scaled (v i)⟩
  | .backing, _ => False

/-- The arguments for which the code works: not public, and private ones have the share type that
the call gives for its results. -/
def Fits (tag : Tag) : Arg → Prop
  | .plain _ => True
  | .priv x => x.tag = tag
  | _ => False

/-- `x` is a private tensor of the given kind for the plaintext `v`. -/
def Gives (w frac : ℕ) (apply : Bool) (tag : Tag) (v : Vec) (x : Priv) : Prop :=
  ∃ sh : Shares (Words w v.n), x = ⟨w, v.n, sh, apply, tag⟩ ∧
    Stands tag (fun i => encode w frac apply (v.val i)) sh

/-! ## Values -/

theorem stands_reconstruct {w n : ℕ} {tag : Tag} {v : Words w n} {x : Shares (Words w n)}
    (h : Stands tag v x) (p : Option (Fin 3)) : reconstructAs tag x p = .ok v := by
  cases tag with
  | pub => exact h.elim
  | arithmetic => simp only [reconstructAs]; rw [Holds.reconstruct (s := .arith w n) h p]
  | boolean =>
    simp only [reconstructAs]
    rw [Holds.reconstruct (s := .bool w n) h p]
    rfl

theorem share_looks {w n : ℕ} {tag : Tag} (ht : tag ≠ .pub) (v v' : Words w n) (σ : Fin 3) :
    ∃ m m', shareAs tag v = .ok m ∧ shareAs tag v' = .ok m' ∧
      M.Sim σ (Looks σ tag v v') m m' := by
  cases tag with
  | pub => exact absurd rfl ht
  | arithmetic => exact ⟨_, _, rfl, rfl, share_sim (s := .arith w n) v v' σ⟩
  | boolean =>
    refine ⟨_, _, rfl, rfl, (share_sim (s := .bool w n) (toBool v) (toBool v') σ).bind ?_⟩
    rintro x x' ⟨h1, h2, h3⟩
    refine M.Sim.pure ⟨?_, ?_, ?_⟩
    · exact h1
    · exact h2
    · simp only [Shares.map, h3]

/-- Outputs of two runs that look the same to `σ`. -/
def Outs (σ : Fin 3) (w frac : ℕ) (apply : Bool) (tag : Tag) (v v' : Vec) (x x' : Priv) : Prop :=
  Gives w frac apply tag v x ∧ Gives w frac apply tag v' x' ∧
    ∃ n, ∃ sh sh' : Shares (Words w n), x = ⟨w, n, sh, apply, tag⟩ ∧ x' = ⟨w, n, sh', apply, tag⟩ ∧
      sh σ = sh' σ

theorem shareOutput_sim (w frac : ℕ) (apply : Bool) {tag : Tag} (ht : tag ≠ .pub) (σ : Fin 3)
    {r r' : RetVal} {v v' : Vec} (hr : r.vec? = some v) (hr' : r'.vec? = some v')
    (hn : v.n = v'.n) :
    ∃ m m', shareOutput w frac apply tag r = .ok m ∧ shareOutput w frac apply tag r' = .ok m' ∧
      M.Sim σ (Outs σ w frac apply tag v v') m m' := by
  obtain ⟨n, v⟩ := v
  obtain ⟨n', v'⟩ := v'
  cases hn
  have e : r = .tensor ⟨n, v⟩ true := by
    rcases r with ⟨u, s⟩ | _ <;> simp only [RetVal.vec?] at hr
    · cases s <;> simp at hr; rw [hr]
    · cases hr
  have e' : r' = .tensor ⟨n, v'⟩ true := by
    rcases r' with ⟨u, s⟩ | _ <;> simp only [RetVal.vec?] at hr'
    · cases s <;> simp at hr'; rw [hr']
    · cases hr'
  subst e e'
  obtain ⟨m, m', h, h', hs⟩ := share_looks ht (fun i => encode w frac apply (v i))
    (fun i => encode w frac apply (v' i)) σ
  simp only [shareOutput, if_true, h, h']
  refine ⟨_, _, rfl, rfl, hs.bind ?_⟩
  rintro x x' ⟨h1, h2, h3⟩
  exact M.Sim.pure ⟨⟨x, rfl, h1⟩, ⟨x', rfl, h2⟩, n, x, x', rfl, rfl, h3⟩

theorem each_sim (w frac : ℕ) (apply : Bool) {tag : Tag} (ht : tag ≠ .pub) (σ : Fin 3) :
    ∀ {rs rs' : List RetVal} {vs vs' : List Vec}, rs.mapM RetVal.vec? = some vs →
      rs'.mapM RetVal.vec? = some vs' → List.Forall₂ (fun v v' : Vec => v.n = v'.n) vs vs' →
      ∃ ms ms', each (shareOutput w frac apply tag) rs = .ok ms ∧
        each (shareOutput w frac apply tag) rs' = .ok ms' ∧
        M.Sim σ (fun xs xs' => List.Forall₂ (fun (v : Vec × Vec) (x : Priv × Priv) =>
          Outs σ w frac apply tag v.1 v.2 x.1 x.2) (vs.zip vs') (xs.zip xs') ∧
          xs.length = rs.length ∧ xs'.length = rs'.length) (runAll ms) (runAll ms') := by
  intro rs
  induction rs with
  | nil =>
    intro rs' vs vs' h h' hn
    simp at h; subst h
    cases hn
    cases rs' with
    | nil => exact ⟨[], [], rfl, rfl, M.Sim.pure ⟨.nil, rfl, rfl⟩⟩
    | cons r rs' =>
      simp only [List.mapM_cons] at h'
      cases hr : r.vec? <;> simp [hr] at h'
      cases hrs : rs'.mapM RetVal.vec? <;> simp [hrs] at h'
  | cons r rs ih =>
    intro rs' vs vs' h h' hn
    simp only [List.mapM_cons] at h
    cases hr : r.vec? with
    | none => simp [hr] at h
    | some v =>
    cases hrs : rs.mapM RetVal.vec? with
    | none => simp [hr, hrs] at h
    | some us =>
    simp [hr, hrs] at h
    subst h
    cases hn with
    | cons hv hus =>
    rename_i v' us'
    cases rs' with
    | nil => simp at h'
    | cons r' rs' =>
    simp only [List.mapM_cons] at h'
    cases hr' : r'.vec? with
    | none => simp [hr'] at h'
    | some v1 =>
    cases hrs' : rs'.mapM RetVal.vec? with
    | none => simp [hr', hrs'] at h'
    | some us1 =>
    simp [hr', hrs'] at h'
    obtain ⟨rfl, rfl⟩ := h'
    obtain ⟨m, m', e1, e1', s1⟩ := shareOutput_sim w frac apply ht σ hr hr' hv
    obtain ⟨ms, ms', e2, e2', s2⟩ := ih hrs hrs' hus
    refine ⟨m :: ms, m' :: ms', by simp [each, e1, e2], by simp [each, e1', e2'], ?_⟩
    refine s1.bind fun x x' hx => s2.bind fun xs xs' hxs => M.Sim.pure ⟨?_, ?_, ?_⟩
    · exact .cons hx hxs.1
    · simp [hxs.2.1]
    · simp [hxs.2.2]

/-- Two results that look the same to `σ` and stand for the two return values. -/
def Results (σ : Fin 3) (w frac : ℕ) (apply : Bool) (tag : Tag) (o o' : Out)
    (r r' : Res Priv) : Prop :=
  SameForm o r ∧ SameForm o' r' ∧ ∀ vs vs', o.vecs? = some vs → o'.vecs? = some vs' →
    List.Forall₂ (fun (v : Vec × Vec) (x : Priv × Priv) =>
      Outs σ w frac apply tag v.1 v.2 x.1 x.2) (vs.zip vs') (r.toList.zip r'.toList)

/-- Two return values of the same form: the same constructor and shapes. -/
def Out.Alike : Out → Out → Prop
  | .nothing, .nothing => True
  | .tensor v s, .tensor v' s' => v.n = v'.n ∧ s = s'
  | .list vs, .list vs' => ∀ us us', vs.mapM RetVal.vec? = some us →
      vs'.mapM RetVal.vec? = some us' → List.Forall₂ (fun v v' : Vec => v.n = v'.n) us us'
  | _, _ => False

theorem shareResult_sim (w frac : ℕ) (apply : Bool) {tag : Tag} (ht : tag ≠ .pub) (σ : Fin 3)
    {o o' : Out} (ho : o.vecs?.isSome) (ho' : o'.vecs?.isSome) (hoo : Out.Alike o o') :
    ∃ m m', shareResult w frac apply tag o = .ok m ∧ shareResult w frac apply tag o' = .ok m' ∧
      M.Sim σ (Results σ w frac apply tag o o') m m' := by
  cases o with
  | other => simp [Out.vecs?] at ho
  | nothing =>
    cases o' <;> simp only [Out.Alike] at hoo
    refine ⟨_, _, rfl, rfl, M.Sim.pure ⟨trivial, trivial, ?_⟩⟩
    intro vs vs' h h'
    simp [Out.vecs?] at h h'
    subst h h'
    exact .nil
  | tensor v s =>
    cases o' with
    | nothing => exact hoo.elim
    | list _ => exact hoo.elim
    | other => exact hoo.elim
    | tensor v' s' =>
    obtain ⟨hn, rfl⟩ := hoo
    cases s with
    | false => simp [Out.vecs?] at ho
    | true =>
    obtain ⟨m, m', h, h', hs⟩ := shareOutput_sim w frac apply ht σ (r := .tensor v true)
      (r' := .tensor v' true) rfl rfl hn
    refine ⟨_, _, by simp only [shareResult, h]; rfl, by simp only [shareResult, h']; rfl, hs.bind ?_⟩
    intro x x' hx
    refine M.Sim.pure ⟨trivial, trivial, ?_⟩
    intro vs vs' e e'
    simp [Out.vecs?] at e e'
    subst e e'
    exact .cons hx .nil
  | list rs =>
    cases o' with
    | nothing => exact hoo.elim
    | tensor _ _ => exact hoo.elim
    | other => exact hoo.elim
    | list rs' =>
    obtain ⟨vs, hv⟩ := Option.isSome_iff_exists.1 ho
    obtain ⟨vs', hv'⟩ := Option.isSome_iff_exists.1 ho'
    simp only [Out.vecs?] at hv hv'
    obtain ⟨ms, ms', h, h', hs⟩ := each_sim w frac apply ht σ hv hv' (hoo vs vs' hv hv')
    refine ⟨_, _, by simp only [shareResult, h]; rfl, by simp only [shareResult, h']; rfl, hs.bind ?_⟩
    rintro xs xs' ⟨h1, h2, h3⟩
    refine M.Sim.pure ⟨h2.symm, h3.symm, ?_⟩
    intro us us' e e'
    simp only [Out.vecs?, hv, hv', Option.some.injEq] at e e'
    subst e e'
    exact h1

theorem openArg_truth (frac : ℕ) (tag : Tag) (p : Option (Fin 3)) {a : Arg} {v : Vec}
    (h : Fits tag a) (hv : Truth frac a v) : openArg frac tag p a = .ok v := by
  cases a with
  | plain u => cases hv; rfl
  | pub => exact h.elim
  | backing => exact h.elim
  | priv x =>
    obtain ⟨u, hu, rfl⟩ := hv
    have h : x.tag = tag := h
    rw [h] at hu
    simp only [openArg, stands_reconstruct hu p]

/-- The player is not server `σ`. -/
def NotAt (σ : Fin 3) (p : Option (Fin 3)) : Prop := p ≠ some σ

theorem receive_quiet {σ : Fin 3} {p : Option (Fin 3)} (hp : NotAt σ p) (a : Arg) :
    ∃ l, receive p a = RandM.pure ((), l) ∧ seen σ l = [] := by
  cases a with
  | priv x =>
    match p, hp with
    | none, _ => exact ⟨[], rfl, rfl⟩
    | some 0, hp => exact ⟨_, rfl, by
        have : (0 : Fin 3) ≠ σ := fun h => hp (by rw [h])
        simp [seen, this]⟩
    | some 1, hp => exact ⟨_, rfl, by
        have : (1 : Fin 3) ≠ σ := fun h => hp (by rw [h])
        simp [seen, this]⟩
    | some 2, hp => exact ⟨_, rfl, by
        have : (2 : Fin 3) ≠ σ := fun h => hp (by rw [h])
        simp [seen, this]⟩
  | _ => exact ⟨[], rfl, rfl⟩

theorem receiveAll_quiet {σ : Fin 3} {p : Option (Fin 3)} (hp : NotAt σ p) (as : List Arg) :
    ∃ l, receiveAll p as = RandM.pure ((), l) ∧ seen σ l = [] := by
  induction as with
  | nil => exact ⟨[], rfl, rfl⟩
  | cons a as ih =>
    obtain ⟨l, h, hl⟩ := receive_quiet hp a
    obtain ⟨k, h', hk⟩ := ih
    refine ⟨l ++ k, ?_, ?_⟩
    · simp only [receiveAll, h, h']
      rfl
    · simp only [seen, List.filter_append] at hl hk ⊢
      rw [hl, hk]; rfl

theorem receiveAll_sim {σ : Fin 3} {p : Option (Fin 3)} (hp : NotAt σ p) (as as' : List Arg) :
    M.Sim σ (fun _ _ => True) (receiveAll p as) (receiveAll p as') := by
  obtain ⟨l, h, hl⟩ := receiveAll_quiet hp as
  obtain ⟨k, h', hk⟩ := receiveAll_quiet hp as'
  rw [h, h']
  exact RandM.Coupled.pure ⟨trivial, hl.trans hk.symm⟩

theorem receiveAll_all (p : Option (Fin 3)) (as : List Arg) :
    M.All (fun _ => True) (receiveAll p as) := RandM.All.trivial (fun _ => trivial) _

end Aby3
end Verif.Local
