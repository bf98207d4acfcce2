import Verif.Pond.Secrecy

/-!
# C01, C02, C03, C48 (Pond part): what Pond guarantees

The theorems below quantify over every shape family `T`, every program, every private input and
every random draw.
-/

namespace Verif.Pond

open RandM

variable {S : Type} {T : S → Type} [∀ s, AddCommGroup (T s)] {I : Type} {ι : I → S}

/-! ## C01 -/

/-- **C01.** Whatever mask is drawn and whichever server gets it, reconstruction returns the
secret. -/
theorem share_reconstruct {s : S} (secret : T s) :
    (share (T := T) secret).All fun p => reconstruct p = secret := share_ok secret

/-- **C01**, dealer shares. -/
theorem dealerShare_reconstruct {s : S} (secret : T s) :
    (dealerShare (T := T) secret).All fun p => reconstruct p = secret := dealerShare_ok secret

/-- **C01** through the API: making an input private and revealing it gives both servers the
input, and the run never fails. -/
theorem input_reveal (C : Cfg T) (inp : ∀ i, T (ι i)) (i : I) (sc : Bool) :
    ((Prog.step (.input i sc) (.step (.reveal .here) (.ret .here)) : Prog T ι [] (ι i)).start C
      inp).All fun r => ∃ tr, r = .ok (⟨.plain (.pub (inp i) (inp i)), sc⟩, tr) := by
  intro b r
  cases b <;> exact ⟨_, by simp [Env.get]; rfl⟩

/-- A concrete instance: sharing 5 in `ZMod 7` with mask 3 gives shares that are not 5. -/
example : reconstruct (⟨3, 5 - 3⟩ : Priv (ZMod 7)) = 5 ∧ (5 - 3 : ZMod 7) ≠ 5 := by decide

/-! ## C02 -/

/-- **C02.** A program that never rescales returns, whenever it returns, a tensor that represents
exactly the ring value of the cleartext program: for every input, every dealer randomness, every
truncation implementation. In particular a revealed result is that value at both servers. -/
theorem program_exact (C : Cfg T) (inp : ∀ i, T (ι i)) {t : S} (p : Prog T ι [] t)
    (hp : p.Unscaled) :
    (p.start C inp).All fun r => ∀ v tr, r = .ok (v, tr) →
      Represents (p.clear inp .nil) v.body := by
  have hC : C.Sound (fun _ _ _ _ => True) := ⟨fun _ _ _ => trivial, fun _ _ _ => All.trivial (by simp) _⟩
  refine All.mono ?_ (run_ok hC inp p ⟨.nil, []⟩ .nil trivial)
  rintro (e | ⟨v, tr⟩) h w tr' hw
  · simp at hw
  · cases hw
    obtain ⟨c, hc, _, hr, _⟩ := h
    have := clear_unscaled _ inp p hp .nil (by intro s x; cases x) _ hc
    simp only at this
    rw [← show p.clear inp (Env.map (V := fun s => T s × Bool) (fun _ c => c.1) .nil) =
      p.clear inp .nil from rfl, ← this]
    exact hr

/-- **C02**, with rescaling: for any truncation that meets a relation `Tr` for every randomness,
every returned tensor represents a value the cleartext program allows, where a product of two
scaled values is rescaled by `Tr` and nothing else is touched. -/
theorem program_refines (C : Cfg T) {Tr : Bool → ∀ s, T s → T s → Prop} (hC : C.Sound Tr)
    (inp : ∀ i, T (ι i)) {t : S} (p : Prog T ι [] t) :
    (p.start C inp).All fun r => ∀ v tr, r = .ok (v, tr) →
      ∃ c, p.Clear Tr inp .nil (c, v.sc) ∧ Represents c v.body := by
  refine All.mono ?_ (run_ok hC inp p ⟨.nil, []⟩ .nil trivial)
  rintro (e | ⟨v, tr⟩) h w tr' hw
  · simp at hw
  · cases hw
    obtain ⟨c, hc, _, hr, _, hs⟩ := h
    exact ⟨c.1, hs ▸ hc, hr⟩

/-- A program that shares two inputs, multiplies them twice (reusing the cached masks), squares,
subtracts, and reveals. -/
def demo : Prog (fun _ : Unit => ZMod 7) (fun _ : Bool => ()) [] () :=
  .step (s := ()) (.input false false) <|
  .step (s := ()) (.input true false) <|
  .step (s := ()) (.bilin .mul AddMonoidHom.mul (.there .here) .here) <|
  .step (s := ()) (.bilin .mul AddMonoidHom.mul .here (.there .here)) <|
  .step (s := ()) (.square AddMonoidHom.mul (fun a b => by simp [mul_comm]) .here) <|
  .step (s := ()) (.sub .here (.there .here)) <|
  .step (s := ()) (.reveal .here) (.ret .here)

example : demo.Unscaled := by simp [demo, Prog.Unscaled, Op.unscaled]
/-- The cleartext meaning of `demo` is `(xyy)² - xyy`. -/
example (inp : Bool → ZMod 7) :
    Prog.clear (T := fun _ : Unit => ZMod 7) (ι := fun _ : Bool => ()) inp demo .nil = (inp false * inp true * inp true) * (inp false * inp true * inp true)
      - inp false * inp true * inp true := rfl
/-- `demo` does not raise and returns a public unscaled tensor, so `program_exact` is not vacuous
(by `program_flags` below this holds for every run). -/
example : demo.ty .nil = .ok (.pub, false) := rfl

/-! ## C48 (Pond) -/

/-- **C48** for Pond. Whether a program raises, which exception, and the kind and `is_scaled` flag
of its result are exactly those of the static table `Prog.ty`, for every input and randomness. -/
theorem program_flags (C : Cfg T) (inp : ∀ i, T (ι i)) {t : S} (p : Prog T ι [] t) :
    (p.start C inp).All fun r => match r with
      | .ok (v, _) => p.ty .nil = .ok (v.body.kind, v.sc)
      | .error e => p.ty .nil = .error e := by
  have hC : C.Sound (fun _ _ _ _ => True) := ⟨fun _ _ _ => trivial, fun _ _ _ => All.trivial (by simp) _⟩
  refine All.mono ?_ (run_ok hC inp p ⟨.nil, []⟩ .nil trivial)
  rintro (e | ⟨v, tr⟩) h
  · exact h
  · obtain ⟨c, _, ht, _, hk, hs⟩ := h
    show p.ty .nil = .ok (v.body.kind, v.sc)
    rw [hk, hs]; exact ht

/-! ## C03 -/

/-- **C03**, a single share: with a uniform mask the share a server receives is uniform, whatever
the secret. -/
theorem share_uniform [∀ s, Fintype (T s)] (σ : Server) {s : S} (secret : T s) :
    (share (T := T) secret).dist.map (Priv.of σ) = PMF.uniformOfFintype (T s) := by
  have h0 : ∀ v : T s, ((PMF.uniformOfFintype (T s)).bind fun r => PMF.pure (v - r))
      = PMF.uniformOfFintype (T s) := by
    intro v
    have := uniform_bind_equiv (Equiv.subLeft v) (fun r : T s => PMF.pure r)
    simpa using this
  have h1 : ((PMF.uniformOfFintype (T s)).bind fun r => PMF.pure r)
      = PMF.uniformOfFintype (T s) := PMF.bind_pure _
  have hc : ∀ m : PMF (T s), ((PMF.uniformOfFintype Bool).bind fun _ => m) = m := by
    intro m; exact PMF.bind_const _ _
  simp only [share, RandM.dist, PMF.map_bind]
  conv_rhs => rw [← hc (PMF.uniformOfFintype (T s))]
  congr 1
  funext b
  cases σ <;> cases b <;> simp only [RandM.dist, Priv.of, if_true, PMF.pure_map, Bool.false_eq_true, if_false]
  · exact h0 secret
  · exact h1
  · exact h1
  · exact h0 secret

/-- **C03**, as far as it is true. For a program that opens nothing, run with a truncation that
hides (the local one does), everything server `σ` receives - input shares, dealer masks, openings of
masked values, product shares - has the same distribution for any two vectors of private inputs.
For server 0 the program must not multiply a private matrix from the right by a public one:
`matmul_public_leaks_false` shows that server 0 then learns the private matrix. For server 1 there
is no such condition. -/
theorem program_secrecy_partial [∀ s, Fintype (T s)] (σ : Server) (C : Cfg T) (hC : C.Hides σ)
    (inp inp' : ∀ i, T (ι i)) {t : S} (p : Prog T ι [] t) (hp : p.NoReveal)
    (hm : σ = .s0 → p.NoMatmulByPublic .nil) :
    (p.start C inp).dist.map (view σ) = (p.start C inp').dist.map (view σ) :=
  (run_coupled hC inp inp' p hp ⟨.nil, []⟩ ⟨.nil, []⟩ ⟨trivial, rfl⟩ .nil trivial hm).dist_map_eq
    _ _ fun _ _ h => h

/-- Programs without matrix products at all. -/
def Prog.NoMatmul {Γ : List S} {t : S} : Prog T ι Γ t → Prop
  | .ret _ => True
  | .step (.bilin .matmul _ _ _) _ => False
  | .step _ k => k.NoMatmul

/-- They meet the condition of `program_secrecy_partial`. -/
theorem Prog.NoMatmul.confined {Γ : List S} {t : S} (p : Prog T ι Γ t) (h : p.NoMatmul)
    (e : Env (fun _ => Kind × Bool) Γ) : p.NoMatmulByPublic e := by
  induction p with
  | ret x => trivial
  | step o k ih =>
    refine ⟨?_, fun c _ => ih ?_ _⟩
    · intro ho
      match o, ho, h with
      | .bilin .matmul f x y, _, h => exact h
    · match o, h with
      | .const _ _, h | .input _ _, h | .add _ _, h | .sub _ _, h | .lin _ _ _, h
      | .concat _ _ _, h | .bilin .mul _ _ _, h | .bilin .conv2d _ _ _, h | .square _ _ _, h
      | .mask _, h | .truncate _, h | .reveal _, h => exact h

/-- A product is finished without an exception, and messages are only added. -/
theorem finish_trace (C : Cfg T) {Γ : List S} {t : S} (scx scy : Bool) (z : Plain (T t))
    (st : St T Γ) : (finish C scx scy z st).All fun r =>
      ∃ w ms, r = .ok (w, ⟨st.env, st.trace ++ ms⟩) := by
  unfold finish
  split
  · cases z with
    | pub v0 v1 => exact ⟨_, [], by simp; rfl⟩
    | priv p =>
      simp only [truncatePlain, Exec.bind_def, Exec.lift_def, RandM.bind_assoc, RandM.bind_pure,
        all_bind]
      exact All.trivial (fun r => ⟨_, r.2, rfl⟩) _
  · exact ⟨_, [], by simp; rfl⟩

/-- A private matrix times a public one: nothing is opened. -/
def matmulByPublic (i : I) {u t : S} (f : T (ι i) →+ T u →+ T t) (v : T u) (scx scv : Bool) :
    Prog T ι [] t :=
  .step (.input i scx) <| .step (.const v scv) <| .step (.bilin .matmul f (.there .here) .here) <|
    .ret .here

/-- **C03 fails for server 0.** Whatever the shapes, the public matrix, the flags, the truncation
and the random draws: multiplying a private matrix by a public one sends server 0 both shares of
the private matrix, one after the other, and they add up to it. -/
theorem matmul_public_leaks (C : Cfg T) (inp : ∀ i, T (ι i)) (i : I) {u t : S}
    (f : T (ι i) →+ T u →+ T t) (v : T u) (scx scv : Bool) :
    ((matmulByPublic i f v scx scv).start C inp).All fun r => ∃ (a b : T (ι i)) (l : List (Msg T)),
      view .s0 r = .ok (⟨.s0, ι i, a⟩ :: ⟨.s0, ι i, b⟩ :: l) ∧ a + b = inp i := by
  have key : ∀ (p : Priv (T (ι i))), p.x0 + p.x1 = inp i →
      ((Prog.step (.const v scv) <| .step (.bilin .matmul f (.there .here) .here) <|
        .ret .here : Prog T ι [ι i] t).run C inp
        ⟨.cons ⟨⟨.plain (.priv p), scx⟩, none⟩ .nil, [⟨.s0, ι i, p.x0⟩, ⟨.s1, ι i, p.x1⟩]⟩).All
      fun r => ∃ (a b : T (ι i)) (l : List (Msg T)),
        view .s0 r = .ok (⟨.s0, ι i, a⟩ :: ⟨.s0, ι i, b⟩ :: l) ∧ a + b = inp i := by
    intro p hp
    show RandM.All _ ((finish C scx scv (.priv ⟨f p.x0 v, f p.x1 v⟩) _).bind _)
    rw [all_bind]
    refine All.mono ?_ (finish_trace C scx scv (.priv ⟨f p.x0 v, f p.x1 v⟩) _)
    rintro _ ⟨w, ms, rfl⟩
    exact ⟨p.x0, p.x1, ⟨.s0, u, v⟩ :: ms.filter (·.dst = .s0), by
      simp [view, misplaced], hp⟩
  intro b r
  cases b
  · exact key ⟨inp i - r, r⟩ (by simp)
  · exact key ⟨r, inp i - r⟩ (by simp)

/-- **C03 fails for server 0**, as a statement about distributions: over every finite group of
matrices, for every truncation that hides, the program above opens nothing and yet what server 0
sees differs in distribution for any two different private inputs. -/
theorem matmul_public_leaks_false {A : Type} [AddCommGroup A] [Fintype A] (f : A →+ A →+ A)
    (v : A) (scx scv : Bool) (C : Cfg fun _ : Unit => A) (x x' : A) (hx : x ≠ x') :
    (matmulByPublic (T := fun _ : Unit => A) (ι := fun _ : Unit => ()) (u := ()) (t := ()) ()
        f v scx scv).NoReveal ∧
    ((matmulByPublic (T := fun _ : Unit => A) (ι := fun _ : Unit => ()) (u := ()) (t := ()) ()
        f v scx scv).start C fun _ => x).dist.map (view .s0) ≠
    ((matmulByPublic (T := fun _ : Unit => A) (ι := fun _ : Unit => ()) (u := ()) (t := ()) ()
        f v scx scv).start C fun _ => x').dist.map (view .s0) := by
  refine ⟨by simp [matmulByPublic, Prog.NoReveal, Op.isReveal], fun h => hx ?_⟩
  let dec : Except Err (List (Msg fun _ : Unit => A)) → A := fun
    | .ok (m :: n :: _) => m.val + n.val
    | _ => 0
  have e : ∀ y : A, PMF.map (dec ∘ view .s0) ((matmulByPublic (T := fun _ : Unit => A)
      (ι := fun _ : Unit => ()) (u := ()) (t := ()) () f v scx scv).start C fun _ => y).dist
      = PMF.pure y := by
    intro y
    apply All.dist_map_eq_pure
    refine All.mono ?_ (matmul_public_leaks C (fun _ => y) () f v scx scv)
    rintro r ⟨a, b, l, hv, hab⟩
    simp only [Function.comp, hv]
    exact hab
  have h' := congrArg (fun d => PMF.map dec d) h
  simp only [PMF.map_comp] at h'
  rw [e, e] at h'
  by_contra hne
  have := congrArg (fun d : PMF A => d x) h'
  simp [PMF.pure_apply, hne] at this

/-- Non-vacuity of the failure: `3` in `ZMod 7` times a public `2`. -/
example : (3 : ZMod 7) ≠ 4 := by decide

/-- Non-vacuity: `demo` without its last opening; a server receives seven messages. -/
def demoClosed : Prog (fun _ : Unit => ZMod 7) (fun _ : Bool => ()) [] () :=
  .step (s := ()) (.input false false) <|
  .step (s := ()) (.input true false) <|
  .step (s := ()) (.bilin .mul AddMonoidHom.mul (.there .here) .here) <| .ret .here

example : demoClosed.NoReveal := by simp [demoClosed, Prog.NoReveal, Op.isReveal]
example : demoClosed.NoMatmulByPublic .nil :=
  Prog.NoMatmul.confined _ (by simp [demoClosed, Prog.NoMatmul]) _

/-- Matrix products are covered too, as long as the right factor is not public: a public matrix
times a private one, then times a private one again. -/
def demoMatmul : Prog (fun _ : Unit => ZMod 7) (fun _ : Bool => ()) [] () :=
  .step (s := ()) (.input false false) <|
  .step (s := ()) (.const 2 false) <|
  .step (s := ()) (.bilin .matmul AddMonoidHom.mul .here (.there .here)) <|
  .step (s := ()) (.bilin .matmul AddMonoidHom.mul .here (.there (.there .here))) <| .ret .here

example : demoMatmul.NoReveal ∧ demoMatmul.NoMatmulByPublic .nil := by
  refine ⟨by simp [demoMatmul, Prog.NoReveal, Op.isReveal], ?_⟩
  simp [demoMatmul, Prog.NoMatmulByPublic, Op.matmulByPublic, Op.ty, Env.get, Kind.join]

example (C : Cfg (fun _ : Unit => ZMod 7)) (inp : Bool → ZMod 7) :
    (demoClosed.start C inp).All fun r => ∃ l, view .s0 r = .ok l ∧ l.length = 7 := by
  intro b1 r1
  cases b1 <;> intro b2 r2 <;> cases b2 <;> intro a0 a1 c0 c1 b3 r3 <;> cases b3 <;>
    exact ⟨_, rfl, rfl⟩

/-- A truncation that does nothing, used in examples. -/
def idCfg (T : S → Type) : Cfg T := ⟨fun _ x => x, fun _ _ p => .pure (p, [])⟩

example (σ : Server) : (idCfg T).Hides σ := fun _ _ _ _ h => .pure ⟨h, rfl⟩

/-- Secrecy is not automatic: revealing does leak (so `NoReveal` cannot be dropped). -/
theorem reveal_leaks : ∃ (p : Prog (fun _ : Unit => ZMod 2) (fun _ : Unit => ()) [] ())
    (C : Cfg (fun _ : Unit => ZMod 2)) (inp inp' : Unit → ZMod 2), C.Hides .s0 ∧
    (p.start C inp).dist.map (view .s0) ≠ (p.start C inp').dist.map (view .s0) := by
  refine ⟨.step (s := ()) (.input () false) (.step (s := ()) (.reveal .here) (.ret .here)),
    idCfg _, fun _ => 0, fun _ => 1, fun _ _ _ _ h => .pure ⟨h, rfl⟩, ?_⟩
  intro h
  let dec : Except Err (List (Msg fun _ : Unit => ZMod 2)) → ZMod 2 := fun
    | .ok l => (l.map (·.val)).sum
    | .error _ => 0
  have h' := congrArg (fun d => PMF.map dec d) h
  simp only [PMF.map_comp] at h'
  have e0 : PMF.map (dec ∘ view .s0) ((Prog.step (s := ()) (.input () false)
      (.step (s := ()) (.reveal .here) (.ret .here)) : Prog (fun _ : Unit => ZMod 2)
        (fun _ : Unit => ()) [] ()).start (idCfg _) fun _ => 0).dist = PMF.pure 0 := by
    apply All.dist_map_eq_pure
    intro b r
    cases b <;> rcases (by decide +revert : ∀ r : ZMod 2, r = 0 ∨ r = 1) r with rfl | rfl <;> rfl
  have e1 : PMF.map (dec ∘ view .s0) ((Prog.step (s := ()) (.input () false)
      (.step (s := ()) (.reveal .here) (.ret .here)) : Prog (fun _ : Unit => ZMod 2)
        (fun _ : Unit => ()) [] ()).start (idCfg _) fun _ => 1).dist = PMF.pure 1 := by
    apply All.dist_map_eq_pure
    intro b r
    cases b <;> rcases (by decide +revert : ∀ r : ZMod 2, r = 0 ∨ r = 1) r with rfl | rfl <;> rfl
  rw [e0, e1] at h'
  have := congrArg (fun d : PMF (ZMod 2) => d 0) h'
  simp [PMF.pure_apply] at this

end Verif.Pond
