import Verif.Pond.Lemmas

/-! Helper lemmas for the secrecy theorem: a coupling of the runs on two input vectors. -/

namespace Verif.Pond

open RandM

variable {S : Type} {T : S → Type} {Γ : List S} {α β : Type}

/-- messages addressed to `σ` -/
abbrev seen (σ : Server) (tr : List (Msg T)) : List (Msg T) := tr.filter (·.dst = σ)

/-- mask share held by a server -/
def Masked.of {A : Type} (σ : Server) (m : Masked A) : A :=
  match σ with
  | .s0 => m.a0
  | .s1 => m.a1

/-- Masked tensors look the same to `σ`. -/
def MaskedRel {A : Type} (σ : Server) (m n : Masked A) : Prop :=
  m.unmasked.of σ = n.unmasked.of σ ∧ m.of σ = n.of σ ∧ m.alpha0 = n.alpha0 ∧ m.alpha1 = n.alpha1

/-- Public/private tensors look the same to `σ`. -/
def PlainRel {A : Type} (σ : Server) : Plain A → Plain A → Prop
  | .pub v0 v1, .pub w0 w1 => v0 = w0 ∧ v1 = w1
  | .priv p, .priv q => p.of σ = q.of σ
  | _, _ => False

/-- Tensors look the same to `σ`. -/
def BodyRel {A : Type} (σ : Server) : Body A → Body A → Prop
  | .plain p, .plain q => PlainRel σ p q
  | .masked m, .masked n => MaskedRel σ m n
  | _, _ => False

/-- Tensors with flags. -/
def ValRel {A : Type} (σ : Server) (v w : Val A) : Prop := BodyRel σ v.body w.body ∧ v.sc = w.sc

/-- Caches look the same to `σ`. -/
def CacheRel {A : Type} (σ : Server) : Option (Masked A) → Option (Masked A) → Prop
  | none, none => True
  | some m, some n => MaskedRel σ m n
  | _, _ => False

/-- Registers look the same to `σ`. -/
def SlotRel (σ : Server) (s : S) (v w : Slot (T s)) : Prop :=
  ValRel σ v.val w.val ∧ CacheRel σ v.cache w.cache

/-- States look the same to `σ`. -/
def StRel (σ : Server) (st st' : St T Γ) : Prop :=
  Env.Rel (SlotRel σ) st.env st'.env ∧ seen σ st.trace = seen σ st'.trace

/-- Outcomes related by `Q`. -/
def RPost (σ : Server) (Q : α → β → Prop) :
    Except Err (α × St T Γ) → Except Err (β × St T Γ) → Prop
  | .ok (a, st), .ok (b, st') => Q a b ∧ StRel σ st st'
  | .error e, .error e' => e = e'
  | _, _ => False

/-- Relational triple. -/
def RT (σ : Server) (Q : α → β → Prop) (m : Exec T Γ α) (n : Exec T Γ β) : Prop :=
  ∀ st st', StRel σ st st' → Coupled (RPost σ Q) (m st) (n st')

namespace RT
variable {σ : Server} {γ δ : Type}

theorem bind {R : α → β → Prop} {Q : γ → δ → Prop} {m : Exec T Γ α} {n : Exec T Γ β}
    {f : α → Exec T Γ γ} {g : β → Exec T Γ δ} (h : RT σ R m n)
    (hf : ∀ a b, R a b → RT σ Q (f a) (g b)) : RT σ Q (m >>= f) (n >>= g) := by
  intro st st' hst
  refine (h st st' hst).bind ?_
  rintro (e | ⟨a, s1⟩) (e' | ⟨b, s2⟩) hab
  · exact .pure hab
  · exact hab.elim
  · exact hab.elim
  · exact hf a b hab.1 s1 s2 hab.2

theorem pure {Q : α → β → Prop} {a : α} {b : β} (h : Q a b) :
    RT σ Q (Pure.pure a : Exec T Γ α) (Pure.pure b) := fun _ _ hst => .pure ⟨h, hst⟩

theorem fail {Q : α → β → Prop} (e : Err) :
    RT σ Q (Exec.fail e : Exec T Γ α) (Exec.fail e) := fun _ _ _ => .pure rfl

theorem lift {Q : α → β → Prop} {m : RandM T α} {n : RandM T β} (h : Coupled Q m n) :
    RT σ Q (Exec.lift m : Exec T Γ α) (Exec.lift n) := fun _ _ hst =>
  h.bind fun _ _ hab => .pure ⟨hab, hst⟩

theorem send {ms ns : List (Msg T)} (h : seen σ ms = seen σ ns) :
    RT σ (fun _ _ => True) (Exec.send ms : Exec T Γ Unit) (Exec.send ns) := fun _ _ hst =>
  .pure ⟨trivial, hst.1, by
    have h2 := hst.2
    simp only [seen, List.filter_append] at *
    rw [h2, h]⟩

theorem read {s : S} (x : Var Γ s) :
    RT σ (SlotRel σ s) (Exec.read x : Exec T Γ _) (Exec.read x) := fun _ _ hst =>
  .pure ⟨hst.1.get x, hst⟩

theorem setCache {s : S} (x : Var Γ s) {m n : Masked (T s)} (h : MaskedRel σ m n) :
    RT σ (fun _ _ => True) (Exec.setCache x m : Exec T Γ _) (Exec.setCache x n) :=
  fun _ _ hst => .pure ⟨trivial, hst.1.set₂ x ⟨(hst.1.get x).1, h⟩, hst.2⟩

end RT

variable [∀ s, AddCommGroup (T s)] {I : Type} {ι : I → S}

/-- The one-time pad: shares of two secrets can be matched so that `σ` gets the same share. -/
theorem share_coupled (σ : Server) {s : S} (v w : T s) :
    Coupled (fun p q : Priv (T s) => p.of σ = q.of σ) (share (T := T) v) (share w) := by
  refine .coin fun b => ?_
  cases σ <;> cases b
  · exact .sample (Equiv.addRight (w - v)) fun t => .pure (by
      simp only [Priv.of, Equiv.coe_addRight]; abel)
  · exact .sample (Equiv.refl _) fun t => .pure rfl
  · exact .sample (Equiv.refl _) fun t => .pure rfl
  · exact .sample (Equiv.addRight (w - v)) fun t => .pure (by
      simp only [Priv.of, Equiv.coe_addRight]; abel)

theorem dealerShare_coupled (σ : Server) {s : S} (v w : T s) :
    Coupled (fun p q : Priv (T s) => p.of σ = q.of σ) (dealerShare (T := T) v) (dealerShare w) := by
  refine .coin fun b => ?_
  cases σ <;> cases b
  · exact .sample (Equiv.refl _) fun t => .pure rfl
  · exact .sample (Equiv.addRight (w - v)) fun t => .pure (by
      simp only [Priv.of, Equiv.coe_addRight]; abel)
  · exact .sample (Equiv.addRight (w - v)) fun t => .pure (by
      simp only [Priv.of, Equiv.coe_addRight]; abel)
  · exact .sample (Equiv.refl _) fun t => .pure rfl

theorem maskPrivate_coupled (σ : Server) {s : S} (p q : Priv (T s)) (h : p.of σ = q.of σ) :
    Coupled (fun r r' : Masked (T s) × List (Msg T) =>
      MaskedRel σ r.1 r'.1 ∧ seen σ r.2 = seen σ r'.2) (maskPrivate p) (maskPrivate q) := by
  cases σ with
  | s0 =>
    simp only [Priv.of] at h
    refine .sample (Equiv.refl _) fun a0 => .sample (Equiv.addRight (q.x1 - p.x1)) fun a1 => .pure ?_
    have e : q.x1 - (a1 + (q.x1 - p.x1)) = p.x1 - a1 := by abel
    simp [MaskedRel, Priv.of, Masked.of, seen, h, e]
  | s1 =>
    simp only [Priv.of] at h
    refine .sample (Equiv.addRight (q.x0 - p.x0)) fun a0 => .sample (Equiv.refl _) fun a1 => .pure ?_
    have e : q.x0 - (a0 + (q.x0 - p.x0)) = p.x0 - a0 := by abel
    simp [MaskedRel, Priv.of, Masked.of, seen, h, e]

theorem mask_rt (σ : Server) {s : S} (x : Var Γ s) :
    RT σ (MaskedRel σ) (mask x : Exec T Γ _) (mask x) := by
  unfold mask
  refine (RT.read x).bind fun sl sl' h => ?_
  obtain ⟨⟨hb, _⟩, hc⟩ := h
  rcases hm : sl.cache with _ | m <;> rcases hm' : sl'.cache with _ | m' <;>
    simp only [hm, hm', CacheRel] at hc
  · match hb1 : sl.val.body, hb2 : sl'.val.body with
    | .plain (.priv p), .plain (.priv q) =>
      simp only [hb1, hb2, BodyRel, PlainRel] at hb
      refine (RT.lift (maskPrivate_coupled σ p q hb)).bind fun r r' hr => ?_
      refine (RT.send hr.2).bind fun _ _ _ => ?_
      refine (RT.setCache x hr.1).bind fun _ _ _ => ?_
      exact RT.pure hr.1
    | .plain (.pub _ _), .plain (.pub _ _) => exact RT.fail _
    | .masked _, .masked _ => exact RT.fail _
    | .plain (.pub _ _), .plain (.priv _) => simp [hb1, hb2, BodyRel, PlainRel] at hb
    | .plain (.priv _), .plain (.pub _ _) => simp [hb1, hb2, BodyRel, PlainRel] at hb
    | .plain _, .masked _ => simp [hb1, hb2, BodyRel] at hb
    | .masked _, .plain _ => simp [hb1, hb2, BodyRel] at hb
  · exact RT.pure hc

theorem truncatePlain_rt {σ : Server} {C : Cfg T} (hC : C.Hides σ) {s : S} (sc : Bool)
    {z w : Plain (T s)} (h : PlainRel σ z w) :
    RT σ (ValRel σ) (truncatePlain C sc z : Exec T Γ _) (truncatePlain C sc w) := by
  match z, w, h with
  | .pub _ _, .pub _ _, h =>
    obtain ⟨rfl, rfl⟩ := h
    exact RT.pure ⟨⟨rfl, rfl⟩, rfl⟩
  | .priv p, .priv q, h =>
    refine (RT.lift (hC _ s p q h)).bind fun r r' hr => ?_
    refine (RT.send hr.2).bind fun _ _ _ => ?_
    exact RT.pure ⟨hr.1, rfl⟩

theorem finish_rt {σ : Server} {C : Cfg T} (hC : C.Hides σ) {s : S} (scx scy : Bool)
    {z w : Plain (T s)} (h : PlainRel σ z w) :
    RT σ (ValRel σ) (finish C scx scy z : Exec T Γ _) (finish C scx scy w) := by
  unfold finish
  split
  · exact truncatePlain_rt hC _ h
  · exact RT.pure ⟨h, rfl⟩

theorem bilinMasked_rt {σ : Server} {C : Cfg T} (hC : C.Hides σ) {s u t : S}
    (f : T s →+ T u →+ T t) (scx scy : Bool) {mx nx : Masked (T s)} {my ny : Masked (T u)}
    (hx : MaskedRel σ mx nx) (hy : MaskedRel σ my ny) :
    RT σ (ValRel σ) (bilinMasked C f scx scy mx my : Exec T Γ _)
      (bilinMasked C f scx scy nx ny) := by
  unfold bilinMasked
  refine (RT.lift (dealerShare_coupled σ _ _)).bind fun r r' hr => ?_
  have hs : seen σ [(⟨.s0, t, r.x0⟩ : Msg T), ⟨.s1, t, r.x1⟩]
      = seen σ [⟨.s0, t, r'.x0⟩, ⟨.s1, t, r'.x1⟩] := by
    cases σ <;> simp only [Priv.of] at hr <;> simp [seen, hr]
  refine (RT.send hs).bind fun _ _ _ => finish_rt hC _ _ ?_
  obtain ⟨_, hx2, hx3, hx4⟩ := hx
  obtain ⟨_, hy2, hy3, hy4⟩ := hy
  cases σ <;> simp only [Masked.of, Priv.of] at hx2 hy2 hr <;>
    simp [PlainRel, Priv.of, hx2, hx3, hx4, hy2, hy3, hy4, hr]

theorem squareMasked_rt {σ : Server} {C : Cfg T} (hC : C.Hides σ) {s t : S}
    (f : T s →+ T s →+ T t) (sc : Bool) {mx nx : Masked (T s)} (hx : MaskedRel σ mx nx) :
    RT σ (ValRel σ) (squareMasked C f sc mx : Exec T Γ _) (squareMasked C f sc nx) := by
  unfold squareMasked
  refine (RT.lift (dealerShare_coupled σ _ _)).bind fun r r' hr => ?_
  have hs : seen σ [(⟨.s0, t, r.x0⟩ : Msg T), ⟨.s1, t, r.x1⟩]
      = seen σ [⟨.s0, t, r'.x0⟩, ⟨.s1, t, r'.x1⟩] := by
    cases σ <;> simp only [Priv.of] at hr <;> simp [seen, hr]
  refine (RT.send hs).bind fun _ _ _ => finish_rt hC _ _ ?_
  obtain ⟨_, hx2, hx3, hx4⟩ := hx
  cases σ <;> simp only [Masked.of, Priv.of] at hx2 hr <;>
    simp [PlainRel, Priv.of, hx2, hx3, hx4, hr]

theorem unmask_rel {A : Type} {σ : Server} {b c : Body A} (h : BodyRel σ b c) :
    PlainRel σ (unmask b) (unmask c) := by
  match b, c, h with
  | .plain _, .plain _, h => exact h
  | .masked _, .masked _, h => exact h.1

theorem of_add {A : Type} [Add A] {σ : Server} {p q p' q' : Priv A} (h : p.of σ = p'.of σ)
    (h' : q.of σ = q'.of σ) : Priv.of σ ⟨p.x0 + q.x0, p.x1 + q.x1⟩
      = Priv.of σ ⟨p'.x0 + q'.x0, p'.x1 + q'.x1⟩ := by
  cases σ <;> simp_all [Priv.of]

theorem add_rt {σ : Server} {t : S} {x x' y y' : Val (T t)} (hx : ValRel σ x x')
    (hy : ValRel σ y y') : RT σ (ValRel σ) (add x y : Exec T Γ _) (add x' y') := by
  unfold add
  have h1 := unmask_rel hx.1
  have h2 := unmask_rel hy.1
  rw [hx.2, hy.2]
  revert h1 h2
  generalize unmask x.body = a
  generalize unmask x'.body = a'
  generalize unmask y.body = b
  generalize unmask y'.body = b'
  intro h1 h2
  match a, a', b, b', h1, h2 with
  | .pub _ _, .pub _ _, .pub _ _, .pub _ _, ⟨h1, h2⟩, ⟨h3, h4⟩ =>
    subst h1 h2 h3 h4
    dsimp only
    split
    · exact RT.pure ⟨⟨rfl, rfl⟩, rfl⟩
    · exact RT.fail _
  | .pub _ _, .pub _ _, .priv _, .priv _, ⟨h1, h2⟩, h3 =>
    subst h1 h2
    dsimp only
    split
    · exact RT.pure ⟨by cases σ <;> simp_all [PlainRel, BodyRel, Priv.of], rfl⟩
    · exact RT.fail _
  | .priv _, .priv _, .pub _ _, .pub _ _, h3, ⟨h1, h2⟩ =>
    subst h1 h2
    dsimp only
    split
    · exact RT.pure ⟨by cases σ <;> simp_all [PlainRel, BodyRel, Priv.of], rfl⟩
    · exact RT.fail _
  | .priv _, .priv _, .priv _, .priv _, h1, h2 =>
    exact RT.pure ⟨of_add h1 h2, rfl⟩

theorem sub_rt {σ : Server} {t : S} {x x' y y' : Val (T t)} (hx : ValRel σ x x')
    (hy : ValRel σ y y') : RT σ (ValRel σ) (sub x y : Exec T Γ _) (sub x' y') := by
  unfold sub
  have h1 := unmask_rel hx.1
  have h2 := unmask_rel hy.1
  rw [hx.2, hy.2]
  split
  case isFalse => exact RT.fail _
  revert h1 h2
  generalize unmask x.body = a
  generalize unmask x'.body = a'
  generalize unmask y.body = b
  generalize unmask y'.body = b'
  intro h1 h2
  match a, a', b, b', h1, h2 with
  | .pub _ _, .pub _ _, .pub _ _, .pub _ _, ⟨h1, h2⟩, ⟨h3, h4⟩ =>
    subst h1 h2 h3 h4
    exact RT.pure ⟨⟨rfl, rfl⟩, rfl⟩
  | .pub _ _, .pub _ _, .priv _, .priv _, ⟨h1, h2⟩, h3 =>
    subst h1 h2
    exact RT.pure ⟨by cases σ <;> simp_all [PlainRel, BodyRel, Priv.of], rfl⟩
  | .priv _, .priv _, .pub _ _, .pub _ _, h3, ⟨h1, h2⟩ =>
    subst h1 h2
    exact RT.pure ⟨by cases σ <;> simp_all [PlainRel, BodyRel, Priv.of], rfl⟩
  | .priv _, .priv _, .priv _, .priv _, h1, h2 =>
    exact RT.pure ⟨by cases σ <;> simp_all [PlainRel, BodyRel, Priv.of], rfl⟩

theorem linPlain_rel {A B : Type} [AddCommGroup A] [AddCommGroup B] {σ : Server} (f : A →+ B)
    {a b : Plain A} (h : PlainRel σ a b) : PlainRel σ (linPlain f a) (linPlain f b) := by
  match a, b, h with
  | .pub _ _, .pub _ _, ⟨h1, h2⟩ => subst h1 h2; exact ⟨rfl, rfl⟩
  | .priv _, .priv _, h => cases σ <;> simp_all [PlainRel, linPlain, Priv.of]

theorem lin_rt {σ : Server} {s t : S} (k : LinKind) (f : T s →+ T t) {x x' : Val (T s)}
    (hx : ValRel σ x x') : RT σ (ValRel σ) (lin k f x : Exec T Γ _) (lin k f x') := by
  obtain ⟨b, sc⟩ := x
  obtain ⟨b', sc'⟩ := x'
  obtain ⟨h1, h2⟩ := hx
  simp only at h1 h2
  subst h2
  unfold lin
  match b, b', h1, k with
  | .plain _, .plain _, h1, _ => exact RT.pure ⟨linPlain_rel f h1, rfl⟩
  | .masked m, .masked n, ⟨h1, h2, h3, h4⟩, .keepMask =>
    refine RT.pure ⟨⟨?_, ?_, ?_, ?_⟩, rfl⟩
    · cases σ <;> simp_all [Priv.of]
    · cases σ <;> simp_all [Masked.of]
    · simp [h3]
    · simp [h4]
  | .masked m, .masked n, h1, .dropMask =>
    exact RT.pure ⟨linPlain_rel (a := .priv _) (b := .priv _) f h1.1, rfl⟩
  | .masked m, .masked n, h1, .squeeze => exact RT.fail _

theorem concat_rt {σ : Server} {s u t : S} (f : T s × T u →+ T t) {x x' : Val (T s)}
    {y y' : Val (T u)} (hx : ValRel σ x x') (hy : ValRel σ y y') :
    RT σ (ValRel σ) (concat f x y : Exec T Γ _) (concat f x' y') := by
  obtain ⟨b, sc⟩ := x
  obtain ⟨b', sc'⟩ := x'
  obtain ⟨h1, h2⟩ := hx
  obtain ⟨c, tc⟩ := y
  obtain ⟨c', tc'⟩ := y'
  obtain ⟨h3, h4⟩ := hy
  simp only at h1 h2 h3 h4
  subst h2 h4
  unfold concat
  dsimp only
  split
  case isFalse => exact RT.fail _
  match b, b', h1, c, c', h3 with
  | .plain (.pub _ _), .plain (.pub _ _), ⟨h1, h2⟩, .plain (.pub _ _), .plain (.pub _ _),
      ⟨h3, h4⟩ =>
    subst h1 h2 h3 h4
    exact RT.pure ⟨⟨rfl, rfl⟩, rfl⟩
  | .plain (.priv _), .plain (.priv _), h1, .plain (.priv _), .plain (.priv _), h2 =>
    exact RT.pure ⟨by cases σ <;> simp_all [PlainRel, BodyRel, Priv.of], rfl⟩
  | .masked m, .masked n, ⟨h1, h2, h3, h4⟩, .masked m', .masked n', ⟨h1', h2', h3', h4'⟩ =>
    refine RT.pure ⟨⟨?_, ?_, ?_, ?_⟩, rfl⟩
    · cases σ <;> simp_all [Priv.of]
    · cases σ <;> simp_all [Masked.of]
    · simp [h3, h3']
    · simp [h4, h4']
  | .plain (.pub _ _), .plain (.pub _ _), _, .plain (.priv _), .plain (.priv _), _ =>
    exact RT.fail _
  | .plain (.priv _), .plain (.priv _), _, .plain (.pub _ _), .plain (.pub _ _), _ =>
    exact RT.fail _
  | .plain (.pub _ _), .plain (.pub _ _), _, .masked _, .masked _, _ => exact RT.fail _
  | .plain (.priv _), .plain (.priv _), _, .masked _, .masked _, _ => exact RT.fail _
  | .masked _, .masked _, _, .plain (.pub _ _), .plain (.pub _ _), _ => exact RT.fail _
  | .masked _, .masked _, _, .plain (.priv _), .plain (.priv _), _ => exact RT.fail _

theorem misplaced_rt {σ : Server} {s u t : S} (k : BilinKind) (f : T s →+ T u →+ T t)
    {p q : Priv (T s)} (h : p.of σ = q.of σ) (hk : σ = .s0 → k ≠ .matmul) (y : T u) :
    RT σ (fun _ _ => True) (Exec.send (misplaced k f p.x1 y) : Exec T Γ Unit)
      (Exec.send (misplaced k f q.x1 y)) := by
  refine RT.send ?_
  unfold misplaced
  cases σ with
  | s0 => rw [if_neg (hk rfl), if_neg (hk rfl)]
  | s1 =>
    have h' : p.x1 = q.x1 := h
    rw [h']

theorem bilin_rt {σ : Server} {C : Cfg T} (hC : C.Hides σ) {s u t : S} (k : BilinKind)
    (f : T s →+ T u →+ T t) (x : Var Γ s) (y : Var Γ u) (st st' : St T Γ) (hst : StRel σ st st')
    (hm : σ = .s0 → k = .matmul →
      ¬ ((st.env.get x).val.body.kind ≠ .pub ∧ (st.env.get y).val.body.kind = .pub)) :
    Coupled (RPost σ (ValRel σ)) (bilin C k f x y st) (bilin C k f x y st') := by
  unfold bilin
  rw [Exec.read_bind, Exec.read_bind, Exec.read_bind, Exec.read_bind]
  have hx := hst.1.get x
  have hy := hst.1.get y
  revert hm hx hy
  generalize st.env.get x = sx
  generalize st'.env.get x = sx'
  generalize st.env.get y = sy
  generalize st'.env.get y = sy'
  intro hm hx hy
  refine (?_ : RT σ (ValRel σ) _ _) st st' hst
  obtain ⟨⟨b, sc⟩, _⟩ := sx
  obtain ⟨⟨b', sc'⟩, _⟩ := sx'
  obtain ⟨⟨h1, h2⟩, _⟩ := hx
  obtain ⟨⟨c, tc⟩, _⟩ := sy
  obtain ⟨⟨c', tc'⟩, _⟩ := sy'
  obtain ⟨⟨h3, h4⟩, _⟩ := hy
  simp only at h1 h2 h3 h4
  subst h2 h4
  match b, b', h1, c, c', h3 with
  | .plain (.pub _ _), .plain (.pub _ _), ⟨h1, h2⟩, .plain (.pub _ _), .plain (.pub _ _),
      ⟨h3, h4⟩ =>
    subst h1 h2 h3 h4
    exact finish_rt hC _ _ ⟨rfl, rfl⟩
  | .plain (.pub _ _), .plain (.pub _ _), ⟨h1, h2⟩, .plain (.priv _), .plain (.priv _), h =>
    subst h1 h2
    dsimp only
    split
    · exact RT.fail _
    · exact finish_rt hC _ _ (by cases σ <;> simp_all [PlainRel, BodyRel, Priv.of])
  | .plain (.pub _ _), .plain (.pub _ _), ⟨h1, h2⟩, .masked _, .masked _, ⟨h, _⟩ =>
    subst h1 h2
    dsimp only
    split
    · exact RT.fail _
    · exact finish_rt hC _ _ (by cases σ <;> simp_all [PlainRel, Priv.of])
  | .plain (.priv _), .plain (.priv _), h, .plain (.pub _ _), .plain (.pub _ _), ⟨h1, h2⟩ =>
    subst h1 h2
    dsimp only
    split
    · exact RT.fail _
    · exact (misplaced_rt k f h (fun hs hk => hm hs hk ⟨by simp [Body.kind], rfl⟩) _).bind
        fun _ _ _ => finish_rt hC _ _ (by cases σ <;> simp_all [PlainRel, BodyRel, Priv.of])
  | .masked _, .masked _, ⟨h, _⟩, .plain (.pub _ _), .plain (.pub _ _), ⟨h1, h2⟩ =>
    subst h1 h2
    dsimp only
    split
    · exact RT.fail _
    · exact (misplaced_rt k f h (fun hs hk => hm hs hk ⟨by simp [Body.kind], rfl⟩) _).bind
        fun _ _ _ => finish_rt hC _ _ (by cases σ <;> simp_all [PlainRel, Priv.of])
  | .plain (.priv _), .plain (.priv _), _, .plain (.priv _), .plain (.priv _), _ =>
    exact (mask_rt σ x).bind fun _ _ hx => (mask_rt σ y).bind fun _ _ hy =>
      bilinMasked_rt hC f _ _ hx hy
  | .plain (.priv _), .plain (.priv _), _, .masked _, .masked _, hy =>
    exact (mask_rt σ x).bind fun _ _ hx => bilinMasked_rt hC f _ _ hx hy
  | .masked _, .masked _, hx, .plain (.priv _), .plain (.priv _), _ =>
    exact (mask_rt σ y).bind fun _ _ hy => bilinMasked_rt hC f _ _ hx hy
  | .masked _, .masked _, hx, .masked _, .masked _, hy =>
    exact bilinMasked_rt hC f _ _ hx hy

theorem square_rt {σ : Server} {C : Cfg T} (hC : C.Hides σ) {s t : S}
    (f : T s →+ T s →+ T t) (x : Var Γ s) :
    RT σ (ValRel σ) (square C f x : Exec T Γ _) (square C f x) := by
  unfold square
  refine (RT.read x).bind fun sx sx' hx => ?_
  obtain ⟨⟨b, sc⟩, _⟩ := sx
  obtain ⟨⟨b', sc'⟩, _⟩ := sx'
  obtain ⟨⟨h1, h2⟩, _⟩ := hx
  simp only at h1 h2
  subst h2
  match b, b', h1 with
  | .plain (.pub _ _), .plain (.pub _ _), ⟨h1, h2⟩ =>
    subst h1 h2
    exact finish_rt hC _ _ ⟨rfl, rfl⟩
  | .plain (.priv _), .plain (.priv _), _ =>
    exact (mask_rt σ x).bind fun _ _ hx => squareMasked_rt hC f _ hx
  | .masked _, .masked _, hx => exact squareMasked_rt hC f _ hx

/-- Every operation except `reveal` can be run in lock step on different inputs, and for server 0
every one except a matrix product by a public matrix. -/
theorem op_rt {σ : Server} {C : Cfg T} (hC : C.Hides σ) (inp inp' : ∀ i, T (ι i)) {t : S}
    (o : Op T ι Γ t) (ho : o.isReveal = false) (st st' : St T Γ) (hst : StRel σ st st')
    (g : Env (Ghost T) Γ) (hg : Env.Rel SlotOK st.env g)
    (hm : σ = .s0 → ¬ o.matmulByPublic (gty g)) :
    Coupled (RPost σ (ValRel σ)) (o.exec C inp st) (o.exec C inp' st') := by
  by_cases hb : ∃ (s u : S) (k : BilinKind) (f : T s →+ T u →+ T t) (x : Var Γ s) (y : Var Γ u),
      o = .bilin k f x y
  · obtain ⟨s, u, k, f, x, y, rfl⟩ := hb
    refine bilin_rt hC k f x y st st' hst fun hs hk => ?_
    subst hk
    have := hm hs
    simpa only [Op.matmulByPublic, Env.get_map, (hg.get x).kind, (hg.get y).kind] using this
  refine (?_ : RT σ (ValRel σ) (o.exec C inp) (o.exec C inp')) st st' hst
  cases o with
  | const v sc => exact RT.pure ⟨⟨rfl, rfl⟩, rfl⟩
  | input i sc =>
    refine (RT.lift (share_coupled σ _ _)).bind fun r r' hr => ?_
    have hs : seen σ [(⟨.s0, ι i, r.x0⟩ : Msg T), ⟨.s1, ι i, r.x1⟩]
        = seen σ [⟨.s0, ι i, r'.x0⟩, ⟨.s1, ι i, r'.x1⟩] := by
      cases σ <;> simp only [Priv.of] at hr <;> simp [seen, hr]
    exact (RT.send hs).bind fun _ _ _ => RT.pure ⟨hr, rfl⟩
  | add x y => exact (RT.read x).bind fun _ _ hx => (RT.read y).bind fun _ _ hy => add_rt hx.1 hy.1
  | sub x y => exact (RT.read x).bind fun _ _ hx => (RT.read y).bind fun _ _ hy => sub_rt hx.1 hy.1
  | lin k f x => exact (RT.read x).bind fun _ _ hx => lin_rt k f hx.1
  | concat f x y =>
    exact (RT.read x).bind fun _ _ hx => (RT.read y).bind fun _ _ hy => concat_rt f hx.1 hy.1
  | bilin k f x y => exact absurd ⟨_, _, k, f, x, y, rfl⟩ hb
  | square f hf x => exact square_rt hC f x
  | mask x =>
    exact (RT.read x).bind fun _ _ hx => (mask_rt σ x).bind fun _ _ hm => RT.pure ⟨hm, hx.1.2⟩
  | truncate x =>
    refine (RT.read x).bind fun sl sl' hx => ?_
    unfold truncate
    rw [hx.1.2]
    exact truncatePlain_rt hC _ (unmask_rel hx.1.1)
  | reveal x => simp [Op.isReveal] at ho

theorem Coupled.and_left {R : α → β → Prop} {P : α → Prop} {m : RandM T α} {n : RandM T β}
    (h : Coupled R m n) (hP : m.All P) : Coupled (fun a b => R a b ∧ P a) m n := by
  induction h with
  | pure h => exact .pure ⟨h, hP⟩
  | sample σ _ ih => exact .sample σ fun t => ih t (hP t)
  | coin _ ih => exact .coin fun t => ih t (hP t)
  | swapL _ ih => exact .swapL (ih fun y x => hP x y)
  | swapR _ ih => exact .swapR (ih hP)

theorem run_coupled {σ : Server} {C : Cfg T} (hC : C.Hides σ) (inp inp' : ∀ i, T (ι i)) {t : S}
    (p : Prog T ι Γ t) (hp : p.NoReveal) (st st' : St T Γ) (h : StRel σ st st')
    (g : Env (Ghost T) Γ) (hg : Env.Rel SlotOK st.env g)
    (hm : σ = .s0 → p.NoMatmulByPublic (gty g)) :
    Coupled (fun r r' => view σ r = view σ r') (p.run C inp st) (p.run C inp' st') := by
  have hT : C.Sound (fun _ _ _ _ => True) :=
    ⟨fun _ _ _ => trivial, fun _ _ _ => All.trivial (by simp) _⟩
  induction p with
  | ret x => exact .pure (by simpa [view] using h.2)
  | step o k ih =>
    refine (Coupled.and_left (op_rt hC inp inp' o hp.1 st st' h g hg fun hs => (hm hs).1)
      (op_ok hT inp o st g hg)).bind ?_
    rintro (e | ⟨v, s1⟩) (e' | ⟨w, s2⟩) ⟨hr, hq⟩
    · exact .pure (by simp only [RPost] at hr; simp [view, hr])
    · exact hr.elim
    · exact hr.elim
    · obtain ⟨c, _, hc2, hc3, hc4⟩ := hq
      exact ih hp.2 _ _ ⟨⟨⟨hr.1, trivial⟩, hr.2.1⟩, hr.2.2⟩ (.cons c g) ⟨hc3, hc4⟩
        fun hs => (hm hs).2 c.2 hc2

end Verif.Pond
