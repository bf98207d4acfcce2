import Verif.Aby3.ProgSpec
import Verif.Aby3.MulAb
import Verif.Aby3.B2a
import Verif.Aby3.TruncLemmas

/-!
# One simulation lemma per operation
-/

namespace Verif.Aby3

open Verif

variable {σ : Fin 3} {s t : Srt} {w n : ℕ}

theorem M.Sim.refl_of_all {α : Type} {P : α → Prop} {m : M α} (h : M.All P m) :
    M.Sim σ (fun a b => a = b ∧ P a) m m := by
  have h0 : M.Sim σ (fun a b : α => a = b) m m :=
    RandM.Coupled.mono (RandM.Coupled.refl m) fun a b e => by rw [e]; exact ⟨rfl, rfl⟩
  exact (h0.and_all h h).mono fun a b h => ⟨h.1, h.2.1⟩

/-- Two sharings of the same value that look the same to one server are the same. -/
theorem Alike.eq {v : T s} {x x' : Shares (T s)} (h : Alike σ v v x x') : x = x' := by
  have h3 := h.third
  have hσ := h.2.2
  have e1 : x (σ + 1) = x' (σ + 1) := by
    refine Prod.ext ?_ ?_
    · rw [← h.1.1 σ, ← h.2.1.1 σ, hσ]
    · rw [h.1.1 (σ + 1), h.2.1.1 (σ + 1), fin3_succ2, h3]
  have e2 : x (σ + 2) = x' (σ + 2) := by
    refine Prod.ext h3 ?_
    rw [h.1.1 (σ + 2), h.2.1.1 (σ + 2), fin3_succ3, hσ]
  funext i
  rcases fin3_cases σ i with rfl | rfl | rfl
  · exact hσ
  · exact e1
  · exact e2

/-- Turn a simulation of a rounding protocol into one that says what the roundings are, and that
they agree when the rounded values do. -/
theorem round_sim {P : T (.arith w n) → T (.arith w n) → Prop} {R : Type}
    {g : T (.arith w n) → R → T (.arith w n)} (hg : ∀ c r, P c (g c r))
    {f : Shares (T (.arith w n)) → M (Shares (T (.arith w n)))}
    {c c' : T (.arith w n)} {x x' : Shares (T (.arith w n))} (hx : Alike σ c c' x x')
    (h : M.Sim σ (fun o o' => ∃ r r', Alike σ (g c r) (g c' r') o o') (f x) (f x')) :
    M.Sim σ (fun o o' => ∃ z z', P c z ∧ P c' z' ∧ (c = c' → z = z') ∧ Alike σ z z' o o')
      (f x) (f x') := by
  by_cases hc : c = c'
  · subst hc
    obtain rfl := hx.eq
    refine (M.Sim.refl_of_all (h.left (P := fun o => ∃ r, Holds (g c r) o) ?_)).mono ?_
    · rintro a b ⟨r, r', hr⟩
      exact ⟨r, hr.1⟩
    · rintro a b ⟨rfl, r, hr⟩
      exact ⟨g c r, g c r, hg _ _, hg _ _, fun _ => rfl, hr.alike σ⟩
  · refine h.mono ?_
    rintro a b ⟨r, r', hr⟩
    exact ⟨_, _, hg _ _, hg _ _, fun e => absurd e hc, hr⟩

theorem msb_of_nonneg {x : BitVec w} (h : 0 ≤ x.toInt) : x.msb = false := by
  rw [BitVec.toInt_eq_msb_cond] at h
  by_contra hm
  rw [Bool.not_eq_false] at hm
  rw [if_pos hm] at h
  have := x.isLt
  have h2 : (x.toNat : ℤ) < ((2 ^ w : ℕ) : ℤ) := by exact_mod_cast this
  push_cast at h2 h
  omega

theorem or_of_ex {P : ℤ → Prop} (h : ∃ e : ℤ, (e = 0 ∨ e = 1) ∧ P e) : P 0 ∨ P 1 := by
  obtain ⟨e, rfl | rfl, h⟩ := h
  · exact .inl h
  · exact .inr h

theorem heurRun_round {scale a : ℕ} (ha : scale + a + 2 ≤ w) {p : BitVec w × BitVec w}
    (hp : heurPlan w scale a = .ok p) {c c' : T (.arith w n)}
    {x x' : Shares (T (.arith w n))} (hx : Alike σ c c' x x') :
    M.Sim σ (fun o o' => ∃ z z', (Rounding.by .heuristic a).Ok c z ∧
      (Rounding.by .heuristic a).Ok c' z' ∧ (c = c' → z = z') ∧ Alike σ z z' o o')
      (heurRun p.1 p.2 a x) (heurRun p.1 p.2 a x') := by
  rw [heurPlan_ok ha] at hp
  obtain rfl := Except.ok.inj hp
  refine round_sim (P := fun c z => (Rounding.by .heuristic a).Ok (t := .arith w n) c z)
    (R := T (.arith w n)) (g := fun c r i => heur a (c i) (r i)) ?_ hx (heurRun_sim a _ _ hx)
  intro c r i h0 h1
  have := or_of_ex (heur_floor (a := a) (by omega) h0 h1 (r i))
  simpa using this

theorem truncQ8_round {a : ℕ} (ha : a + 1 ≤ w) {c c' : T (.arith w n)}
    {x x' : Shares (T (.arith w n))} (hx : Alike σ c c' x x') :
    M.Sim σ (fun o o' => ∃ z z', (Rounding.by .secureq8 a).Ok c z ∧
      (Rounding.by .secureq8 a).Ok c' z' ∧ (c = c' → z = z') ∧ Alike σ z z' o o')
      (truncQ8 a x) (truncQ8 a x') := by
  refine round_sim (P := fun c z => (Rounding.by .secureq8 a).Ok (t := .arith w n) c z)
    (R := T (.arith w n)) (g := fun c r i => q8 a (c i) (r i)) ?_ hx (truncQ8_sim a hx)
  intro c r i h0
  have := or_of_ex (q8_floor (a := a) (by omega) (msb_of_nonneg h0) (r i))
  simpa using this

theorem truncLocal_round (a : ℕ) {c c' : T (.arith w n)}
    {x x' : Shares (T (.arith w n))} (hx : Alike σ c c' x x') :
    M.Sim σ (fun o o' => ∃ z z', (Rounding.by .loc a).Ok c z ∧
      (Rounding.by .loc a).Ok c' z' ∧ (c = c' → z = z') ∧ Alike σ z z' o o')
      (truncLocal a x) (truncLocal a x') := by
  refine round_sim (P := fun c z => (Rounding.by .loc a).Ok (t := .arith w n) c z)
    (R := T (.arith w n)) (g := fun c r i => pairTrunc a (c i) (r i)) ?_ hx
    ((truncLocal_sim a hx).mono fun o o' h => ⟨_, _, h⟩)
  intro c r i
  exact ⟨r i, by
    show pairTrunc a (c i) (r i) = _
    rw [pairTrunc, Bits.sar_eq, Bits.sar_eq, ← Bits.ofInt_add]⟩

theorem truncLocalPub_floor (a : ℕ) {c : T (.arith w n)} {p : Pub (T (.arith w n))}
    (h : IsPub c p) : ∃ z, (Rounding.floor a).Ok c z ∧ IsPub z (truncLocalPub a p) := by
  refine ⟨alift (·.sshiftRight a) c, fun i => Bits.sar_eq _ _, fun i => ?_⟩
  rw [truncLocalPub, h i]

/-! ## The relation between two runs -/

/-- Two tensors of two runs of the same program. -/
inductive ValRel (σ : Fin 3) : CVal s → CVal s → Val s → Val s → Prop
  | pub {v : T s} {p p' : Pub (T s)} {sc : Bool} (h : IsPub v p) (h' : IsPub v p') :
      ValRel σ ⟨v, ⟨false, sc⟩⟩ ⟨v, ⟨false, sc⟩⟩ ⟨.pub p, sc⟩ ⟨.pub p', sc⟩
  | priv {v v' : T s} {x x' : Shares (T s)} {sc : Bool} (h : Alike σ v v' x x') :
      ValRel σ ⟨v, ⟨true, sc⟩⟩ ⟨v', ⟨true, sc⟩⟩ ⟨.priv x, sc⟩ ⟨.priv x', sc⟩

theorem ValRel.left {c c' : CVal s} {v v' : Val s} (h : ValRel σ c c' v v') : Stands c v := by
  cases h with
  | pub h _ => exact .pub h
  | priv h => exact .priv h.1

theorem ValRel.right {c c' : CVal s} {v v' : Val s} (h : ValRel σ c c' v v') : Stands c' v' := by
  cases h with
  | pub _ h => exact .pub h
  | priv h => exact .priv h.2.1

theorem ValRel.kind {c c' : CVal s} {v v' : Val s} (h : ValRel σ c c' v v') : c.kind = c'.kind := by
  cases h <;> rfl

theorem Stands.rel {c : CVal s} {v : Val s} (h : Stands c v) (σ : Fin 3) : ValRel σ c c v v := by
  cases h with
  | pub h => exact .pub h h
  | priv h => exact .priv (h.alike σ)

variable {I : Type} {ι : I → Srt} {Γ : List Srt}

/-- All registers are related. -/
def EnvRel (σ : Fin 3) (c c' : Env CVal Γ) (e e' : Env Val Γ) : Prop :=
  ∀ s (x : Var Γ s), ValRel σ (c.get x) (c'.get x) (e.get x) (e'.get x)

theorem EnvRel.nil : EnvRel (Γ := []) σ .nil .nil .nil .nil := fun _ x => by cases x

theorem EnvRel.cons {c c' : Env CVal Γ} {e e' : Env Val Γ} (h : EnvRel σ c c' e e') {d d' : CVal s}
    {v v' : Val s} (hv : ValRel σ d d' v v') :
    EnvRel σ (.cons d c) (.cons d' c') (.cons v e) (.cons v' e') := by
  intro u x
  cases x with
  | here => exact hv
  | there x => exact h u x

/-- What an operation does, according to the specification. -/
def OpSim (σ : Fin 3) (frac : ℕ) (inp inp' : ∀ i, T (ι i)) (c c' : Env CVal Γ) (o : Op ι Γ t)
    (r r' : Except Err (M (Val t))) : Prop :=
  match o.flow frac c with
  | .error er => r = .error er ∧ r' = .error er
  | .ok κ => ∃ m m', r = .ok m ∧ r' = .ok m' ∧
      M.Sim σ (fun v v' => ∃ z z', (o.rounding frac c).Ok (o.exact inp c) z ∧
        (o.rounding frac c').Ok (o.exact inp' c') z' ∧
        (o.exact inp c = o.exact inp' c' → z = z') ∧ ValRel σ ⟨z, κ⟩ ⟨z', κ⟩ v v') m m'

theorem exact_pure {V V' : T t} {κ : Kind} {v v' : Val t} (h : ValRel σ ⟨V, κ⟩ ⟨V', κ⟩ v v') :
    M.Sim σ (fun v v' => ∃ z z', Rounding.exact.Ok V z ∧ Rounding.exact.Ok V' z' ∧
      (V = V' → z = z') ∧ ValRel σ ⟨z, κ⟩ ⟨z', κ⟩ v v') (return v) (return v') :=
  .pure ⟨V, V', rfl, rfl, id, h⟩

theorem pub_done {V : T t} {p p' : Pub (T t)} {sc : Bool} (h : IsPub V p) (h' : IsPub V p') :
    M.Sim σ (fun v v' => ∃ z z', Rounding.exact.Ok V z ∧ Rounding.exact.Ok V z' ∧
      (True → z = z') ∧ ValRel σ ⟨z, ⟨false, sc⟩⟩ ⟨z', ⟨false, sc⟩⟩ v v')
      (return ⟨.pub p, sc⟩) (return ⟨.pub p', sc⟩) :=
  .pure ⟨V, V, rfl, rfl, fun _ => rfl, .pub h h'⟩

theorem exact_bind {V V' : T t} {sc : Bool} {m m' : M (Shares (T t))}
    (h : M.Sim σ (Alike σ V V') m m') :
    M.Sim σ (fun v v' => ∃ z z', Rounding.exact.Ok V z ∧ Rounding.exact.Ok V' z' ∧
      (V = V' → z = z') ∧ ValRel σ ⟨z, ⟨true, sc⟩⟩ ⟨z', ⟨true, sc⟩⟩ v v')
      (do let z ← m; return ⟨.priv z, sc⟩) (do let z ← m'; return ⟨.priv z, sc⟩) :=
  .bind h fun _ _ h => .pure ⟨V, V', rfl, rfl, id, .priv h⟩

theorem round_bind {ρ : Rounding} {V V' : T t} {sc : Bool} {m m' : M (Shares (T t))}
    (h : M.Sim σ (fun o o' => ∃ z z', ρ.Ok V z ∧ ρ.Ok V' z' ∧ (V = V' → z = z') ∧
      Alike σ z z' o o') m m') :
    M.Sim σ (fun v v' => ∃ z z', ρ.Ok V z ∧ ρ.Ok V' z' ∧
      (V = V' → z = z') ∧ ValRel σ ⟨z, ⟨true, sc⟩⟩ ⟨z', ⟨true, sc⟩⟩ v v')
      (do let z ← m; return ⟨.priv z, sc⟩) (do let z ← m'; return ⟨.priv z, sc⟩) :=
  .bind h fun _ _ ⟨z, z', h1, h2, h3, h4⟩ => .pure ⟨z, z', h1, h2, h3, .priv h4⟩

theorem finish_sim {frac : ℕ} {sx sy : Bool} {V V' : T (.arith w n)}
    {m m' : M (Shares (T (.arith w n)))} (h : M.Sim σ (Alike σ V V') m m') :
    match (if (sx && sy) && decide (w < frac + frac + 2) then .error Err.valueError
      else .ok (⟨true, sx || sy⟩ : Kind) : Except Err Kind) with
    | .error er => finish frac sx sy m = .error er ∧ finish frac sx sy m' = .error er
    | .ok κ => ∃ k k', finish frac sx sy m = .ok k ∧ finish frac sx sy m' = .ok k' ∧
      M.Sim σ (fun v v' => ∃ z z',
        (if sx && sy then Rounding.by .heuristic frac else .exact).Ok V z ∧
        (if sx && sy then Rounding.by .heuristic frac else .exact).Ok V' z' ∧
        (V = V' → z = z') ∧ ValRel σ ⟨z, κ⟩ ⟨z', κ⟩ v v') k k' := by
  unfold finish
  cases hb : sx && sy
  · simp only [Bool.false_and, Bool.false_eq_true, if_false]
    exact ⟨_, _, rfl, rfl, exact_bind h⟩
  · by_cases hw : w < frac + frac + 2
    · have hp : heurPlan w frac frac = .error .valueError := by
        rw [heurPlan, if_neg (by omega)]
      simp [hw, hp]
    · have hp := heurPlan_ok (w := w) (scale := frac) (a := frac) (by omega)
      simp only [hw, decide_false, Bool.and_false, Bool.false_eq_true, if_false, if_true, hp]
      refine ⟨_, _, rfl, rfl, .bind h fun o o' ho => ?_⟩
      exact round_bind (heurRun_round (by omega) hp ho)

theorem lowBits_eq (k : ℕ) (x : BitVec w) : lowBits k x = BitVec.ofNat w (x.toNat % 2 ^ k) := by
  apply BitVec.eq_of_toNat_eq
  simp [lowBits]

theorem alift_lowBits (k : ℕ) (v : T (.arith w n)) :
    alift (lowBits k) v = fun i => keepBits (some k) (v i) := funext fun _ => lowBits_eq _ _

theorem spreadA_surj {m : ℕ} {r : Fin n → Fin m} (hr : Function.Injective r) :
    Function.Surjective (spreadA (w := w) r) := by
  intro v
  classical
  refine ⟨fun j => if h : ∃ i, r i = j then v h.choose else 0, ?_⟩
  funext i
  have hi : ∃ i', r i' = r i := ⟨i, rfl⟩
  simp only [spreadA]
  rw [dif_pos hi, hr hi.choose_spec]

theorem spreadB_surj {m : ℕ} {r : Fin n → Fin m} (hr : Function.Injective r) :
    Function.Surjective (spreadB (w := w) r) := by
  intro v
  classical
  refine ⟨fun j => if h : ∃ i, r i = j then v h.choose else 0, ?_⟩
  funext i
  have hi : ∃ i', r i' = r i := ⟨i, rfl⟩
  simp only [spreadB]
  rw [dif_pos hi, hr hi.choose_spec]

theorem bandBc_left {n₁ n₂ : ℕ} (p : Fin n → Fin n₁) (q : Fin n → Fin n₂) (a b : T (.bool w n₁))
    (c : T (.bool w n₂)) : bandBc p q (a + b) c = bandBc p q a c + bandBc p q b c :=
  band_add_left _ _ _

theorem bandBc_right {n₁ n₂ : ℕ} (p : Fin n → Fin n₁) (q : Fin n → Fin n₂) (a b : T (.bool w n₂))
    (c : T (.bool w n₁)) : bandBc p q c (a + b) = bandBc p q c a + bandBc p q c b :=
  band_add_right _ _ _

/-- Every operation meets its specification, and no server can tell two runs apart. -/
theorem Op.sim (frac : ℕ) (inp inp' : ∀ i, T (ι i)) {c c' : Env CVal Γ} {e e' : Env Val Γ}
    (h : EnvRel σ c c' e e') (o : Op ι Γ t) (hs : o.Sane)
    (hm : o.Masked c ∨ c = c' ∧ e = e') (ho : o.OpensSame c c') :
    OpSim σ frac inp inp' c c' o (o.exec frac inp e) (o.exec frac inp' e') := by
  cases o with
  | const v sc => exact ⟨_, _, rfl, rfl, exact_pure (.pub (fun _ => rfl) fun _ => rfl)⟩
  | input i sc => exact ⟨_, _, rfl, rfl, exact_bind (share_sim _ _ σ)⟩
  | add x y =>
    have hx := h _ x
    have hy := h _ y
    simp only [OpSim, Op.flow, Op.exec, Op.rounding, Op.exact]
    generalize c.get x = cx, c'.get x = cx', e.get x = ex, e'.get x = ex' at hx ⊢
    generalize c.get y = cy, c'.get y = cy', e.get y = ey, e'.get y = ey' at hy ⊢
    cases hx with
    | @pub v p p' sx hx hx' =>
      cases hy with
      | @pub u q q' sy hy hy' =>
        by_cases hf : sx = sy
        · subst hf
          simp only [beq_self_eq_true, Bool.or_true, if_true]
          exact ⟨_, _, rfl, rfl, pub_done (fun i => by rw [hx i, hy i]) (fun i => by rw [hx' i, hy' i])⟩
        · simp [hf]
      | @priv u u' q q' sy hy =>
        by_cases hf : sx = sy
        · subst hf
          simp only [beq_self_eq_true, Bool.or_true, if_true]
          refine ⟨_, _, rfl, rfl, exact_pure (.priv ?_)⟩
          have := hy.addPub hx hx'
          rwa [add_comm u, add_comm u'] at this
        · simp [hf]
    | @priv v v' p p' sx hx =>
      cases hy with
      | @pub u q q' sy hy hy' =>
        by_cases hf : sx = sy
        · subst hf
          simp only [beq_self_eq_true, Bool.or_true, if_true]
          exact ⟨_, _, rfl, rfl, exact_pure (.priv (hx.addPub hy hy'))⟩
        · simp [hf]
      | @priv u u' q q' sy hy =>
        simp only [Bool.and_self, Bool.true_or, if_true]
        exact ⟨_, _, rfl, rfl, exact_pure (.priv (hx.add hy))⟩
  | sub x y =>
    have hx := h _ x
    have hy := h _ y
    simp only [OpSim, Op.flow, Op.exec, Op.rounding, Op.exact]
    generalize c.get x = cx, c'.get x = cx', e.get x = ex, e'.get x = ex' at hx ⊢
    generalize c.get y = cy, c'.get y = cy', e.get y = ey, e'.get y = ey' at hy ⊢
    cases hx with
    | @pub v p p' sx hx hx' =>
      cases hy with
      | @pub u q q' sy hy hy' =>
        by_cases hf : sx = sy
        · subst hf
          simp only [beq_self_eq_true, Bool.or_true, if_true]
          exact ⟨_, _, rfl, rfl, pub_done (fun i => by rw [hx i, hy i]) (fun i => by rw [hx' i, hy' i])⟩
        · simp [hf]
      | @priv u u' q q' sy hy =>
        simp only [Bool.not_false, Bool.and_self, Bool.true_or, if_true]
        exact ⟨_, _, rfl, rfl, exact_pure (.priv (hy.pubSub hx hx'))⟩
    | @priv v v' p p' sx hx =>
      cases hy with
      | @pub u q q' sy hy hy' =>
        by_cases hf : sx = sy
        · subst hf
          simp only [beq_self_eq_true, Bool.or_true, if_true]
          exact ⟨_, _, rfl, rfl, exact_pure (.priv (hx.subPub hy hy'))⟩
        · simp [hf]
      | @priv u u' q q' sy hy =>
        by_cases hf : sx = sy
        · subst hf
          simp only [beq_self_eq_true, Bool.or_true, if_true]
          exact ⟨_, _, rfl, rfl, exact_pure (.priv (hx.sub hy))⟩
        · simp [hf]
  | lin pub g x =>
    have hx := h _ x
    simp only [OpSim, Op.flow, Op.exec, Op.rounding, Op.exact]
    generalize c.get x = cx, c'.get x = cx', e.get x = ex, e'.get x = ex' at hx ⊢
    cases hx with
    | @pub v p p' sx hx hx' =>
      cases pub
      · simp
      · simp only [Bool.or_true, if_true]
        exact ⟨_, _, rfl, rfl, pub_done (fun i => by rw [hx i]) (fun i => by rw [hx' i])⟩
    | @priv v v' p p' sx hx =>
      simp only [Bool.true_or, if_true]
      exact ⟨_, _, rfl, rfl, exact_pure (.priv (hx.map (f := g) (map_add g)))⟩
  | pubMap g x =>
    have hx := h _ x
    simp only [OpSim, Op.flow, Op.exec, Op.rounding, Op.exact]
    generalize c.get x = cx, c'.get x = cx', e.get x = ex, e'.get x = ex' at hx ⊢
    cases hx with
    | @pub v p p' sx hx hx' =>
      simp only [Bool.false_eq_true, if_false]
      exact ⟨_, _, rfl, rfl, pub_done (fun i => by rw [hx i]) (fun i => by rw [hx' i])⟩
    | @priv v v' p p' sx hx => simp
  | concat g x y =>
    have hx := h _ x
    have hy := h _ y
    simp only [OpSim, Op.flow, Op.exec, Op.rounding, Op.exact]
    generalize c.get x = cx, c'.get x = cx', e.get x = ex, e'.get x = ex' at hx ⊢
    generalize c.get y = cy, c'.get y = cy', e.get y = ey, e'.get y = ey' at hy ⊢
    cases hx with
    | @pub v p p' sx hx hx' =>
      cases hy with
      | @pub u q q' sy hy hy' =>
        by_cases hf : sx = sy
        · subst hf
          simp only [ne_eq, not_true_eq_false, if_false, if_true]
          exact ⟨_, _, rfl, rfl, pub_done (fun i => by rw [hx i, hy i]) (fun i => by rw [hx' i, hy' i])⟩
        · simp [hf]
      | @priv u u' q q' sy hy => simp
    | @priv v v' p p' sx hx =>
      cases hy with
      | @pub u q q' sy hy hy' => simp
      | @priv u u' q q' sy hy =>
        by_cases hf : sx = sy
        · subst hf
          simp only [ne_eq, not_true_eq_false, if_false, if_true]
          exact ⟨_, _, rfl, rfl, exact_pure (.priv (hx.map₂ (f := fun u v => g (u, v))
            (fun a b c d => by rw [← map_add]; rfl) hy))⟩
        · simp [hf]
  | @bilin w n₁ n₂ n k f m r x y =>
    have hx := h _ x
    have hy := h _ y
    replace hm : ((c.get x).kind.priv = true → (c.get y).kind.priv = true → Function.Injective r) ∨
        c.get x = c'.get x ∧ c.get y = c'.get y ∧ e.get x = e'.get x ∧ e.get y = e'.get y := by
      rcases hm with hm | ⟨rfl, rfl⟩
      · exact .inl hm
      · exact .inr ⟨rfl, rfl, rfl, rfl⟩
    simp only [OpSim, Op.flow, Op.exec, Op.rounding, Op.exact]
    have fl : ∀ a b c, f (a + b) c = f a c + f b c := fun a b c => by rw [map_add]; rfl
    have fr : ∀ a b c, f c (a + b) = f c a + f c b := fun a b c => map_add _ _ _
    generalize c.get x = cx, c'.get x = cx', e.get x = ex, e'.get x = ex' at hx hm ⊢
    generalize c.get y = cy, c'.get y = cy', e.get y = ey, e'.get y = ey' at hy hm ⊢
    cases hx with
    | @pub v p p' sx hx hx' =>
      cases hy with
      | @pub u q q' sy hy hy' =>
        by_cases hk : k = .mul
        · subst hk
          have hz : IsPub (f v u) fun i => f (p i) (q i) := fun i => by
            show f (p i) (q i) = f v u
            rw [hx i, hy i]
          have hz' : IsPub (f v u) fun i => f (p' i) (q' i) := fun i => by
            show f (p' i) (q' i) = f v u
            rw [hx' i, hy' i]
          simp only [Bool.or_self, Bool.false_eq_true, if_false, if_true]
          cases hb : sx && sy
          · simp only [Bool.false_eq_true, if_false]
            exact ⟨_, _, rfl, rfl, pub_done hz hz'⟩
          · simp only [if_true]
            refine ⟨_, _, rfl, rfl, .pure ?_⟩
            refine ⟨alift (·.sshiftRight frac) (f v u), alift (·.sshiftRight frac) (f v u),
              fun i => Bits.sar_eq _ _, fun i => Bits.sar_eq _ _, fun _ => rfl, .pub ?_ ?_⟩ <;>
            · intro i
              first
                | exact congrArg (alift (·.sshiftRight frac)) (hz i)
                | exact congrArg (alift (·.sshiftRight frac)) (hz' i)
        · simp [hk]
      | @priv u u' q q' sy hy =>
        simp only [Bool.or_true, if_true]
        exact finish_sim (.pure (hy.pubBilin (f := fun a b => f a b) fr hx hx'))
    | @priv v v' p p' sx hx =>
      cases hy with
      | @pub u q q' sy hy hy' =>
        simp only [Bool.true_or, if_true]
        exact finish_sim (.pure (hx.bilinPub (f := fun a b => f a b) fl hy hy'))
      | @priv u u' q q' sy hy =>
        simp only [Bool.true_or, if_true]
        rcases hm with hm | ⟨h1, h2, h3, h4⟩
        · exact finish_sim (bilin_sim (f := fun a b => f a b) fl fr (fun _ _ => rfl)
            (spreadA_surj (hm rfl rfl)) hx hy)
        · obtain ⟨rfl⟩ : v = v' := congrArg CVal.val h1
          obtain ⟨rfl⟩ : u = u' := congrArg CVal.val h2
          cases h3
          cases h4
          exact finish_sim ((M.Sim.refl_of_all (bilin_holds (f := fun a b => f a b) fl fr
            (fun _ _ => rfl) rfl hx.1 hy.1)).mono fun a b ⟨e, h⟩ => e ▸ h.alike σ)
  | xor x y =>
    have hx := h _ x
    have hy := h _ y
    simp only [OpSim, Op.flow, Op.exec, Op.rounding, Op.exact]
    generalize c.get x = cx, c'.get x = cx', e.get x = ex, e'.get x = ex' at hx ⊢
    generalize c.get y = cy, c'.get y = cy', e.get y = ey, e'.get y = ey' at hy ⊢
    cases hx with
    | @pub v p p' sx hx hx' =>
      cases hy with
      | @pub u q q' sy hy hy' =>
        by_cases hf : sx = sy
        · subst hf
          simp only [Bool.false_eq_true, if_false, if_true]
          exact ⟨_, _, rfl, rfl, pub_done (fun i => by rw [hx i, hy i]; rfl) (fun i => by rw [hx' i, hy' i]; rfl)⟩
        · simp [hf]
      | @priv u u' q q' sy hy =>
        simp only [Bool.false_eq_true, if_false, if_true]
        refine ⟨_, _, rfl, rfl, exact_pure (.priv ?_)⟩
        have := hy.xorPub hx hx'
        rwa [add_comm u, add_comm u'] at this
    | @priv v v' p p' sx hx =>
      cases hy with
      | @pub u q q' sy hy hy' =>
        simp only [if_true]
        exact ⟨_, _, rfl, rfl, exact_pure (.priv (hx.xorPub hy hy'))⟩
      | @priv u u' q q' sy hy =>
        simp only [if_true]
        exact ⟨_, _, rfl, rfl, exact_pure (.priv (hx.add hy))⟩
  | and p q x y =>
    have hx := h _ x
    have hy := h _ y
    replace hm : ((c.get x).kind.priv = true → (c.get y).kind.priv = true → Function.Injective p) ∨
        c.get x = c'.get x ∧ c.get y = c'.get y ∧ e.get x = e'.get x ∧ e.get y = e'.get y := by
      rcases hm with hm | ⟨rfl, rfl⟩
      · exact .inl hm
      · exact .inr ⟨rfl, rfl, rfl, rfl⟩
    simp only [OpSim, Op.flow, Op.exec, Op.rounding, Op.exact]
    generalize c.get x = cx, c'.get x = cx', e.get x = ex, e'.get x = ex' at hx hm ⊢
    generalize c.get y = cy, c'.get y = cy', e.get y = ey, e'.get y = ey' at hy hm ⊢
    cases hx with
    | @pub v a a' sx hx hx' =>
      cases hy with
      | @pub u b b' sy hy hy' => simp
      | @priv u u' b b' sy hy =>
        simp only [Bool.false_eq_true, if_false, if_true]
        exact ⟨_, _, rfl, rfl, exact_pure (.priv
          (hy.pubBilin (f := bandBc p q) (bandBc_right p q) hx hx'))⟩
    | @priv v v' a a' sx hx =>
      cases hy with
      | @pub u b b' sy hy hy' =>
        simp only [Bool.false_eq_true, if_false, if_true]
        exact ⟨_, _, rfl, rfl, exact_pure (.priv
          (hx.bilinPub (f := bandBc p q) (bandBc_left p q) hy hy'))⟩
      | @priv u u' b b' sy hy =>
        simp only [if_true]
        refine ⟨_, _, rfl, rfl, exact_bind (V := bandBc p q v u) (V' := bandBc p q v' u') ?_⟩
        rcases hm with hm | ⟨h1, h2, h3, h4⟩
        · exact bilin_sim (f := bandBc p q) (bandBc_left p q)
            (bandBc_right p q) (fun _ _ => rfl) (spreadB_surj (hm rfl rfl)) hx hy
        · obtain ⟨rfl⟩ : v = v' := congrArg CVal.val h1
          obtain ⟨rfl⟩ : u = u' := congrArg CVal.val h2
          cases h3
          cases h4
          exact (M.Sim.refl_of_all (bilin_holds (f := bandBc p q) (bandBc_left p q)
            (bandBc_right p q) (fun _ _ => rfl) rfl hx.1 hy.1)).mono fun a b ⟨e, h⟩ => e ▸ h.alike σ
  | or x y =>
    have hx := h _ x
    have hy := h _ y
    simp only [OpSim, Op.flow, Op.exec, Op.rounding, Op.exact]
    generalize c.get x = cx, c'.get x = cx', e.get x = ex, e'.get x = ex' at hx ⊢
    generalize c.get y = cy, c'.get y = cy', e.get y = ey, e'.get y = ey' at hy ⊢
    cases hx with
    | pub hx hx' => cases hy <;> simp
    | priv hx =>
      cases hy with
      | pub hy hy' => simp
      | priv hy =>
        simp only [Bool.and_self, if_true]
        exact ⟨_, _, rfl, rfl, exact_bind (bor2_sim hx hy)⟩
  | not x =>
    have hx := h _ x
    simp only [OpSim, Op.flow, Op.exec, Op.rounding, Op.exact]
    generalize c.get x = cx, c'.get x = cx', e.get x = ex, e'.get x = ex' at hx ⊢
    cases hx with
    | pub hx hx' => simp
    | priv hx =>
      simp only [if_true]
      exact ⟨_, _, rfl, rfl, exact_pure (.priv hx.bnot)⟩
  | a2b nBits x =>
    have hx := h _ x
    simp only [OpSim, Op.flow, Op.exec, Op.rounding, Op.exact]
    generalize c.get x = cx, c'.get x = cx', e.get x = ex, e'.get x = ex' at hx ⊢
    cases hx with
    | pub hx hx' => simp
    | priv hx =>
      simp only [if_true]
      cases nBits with
      | none =>
        obtain ⟨m, m', h1, h2, h3⟩ := a2b_none_sim hs hx
        rw [h1, h2]
        exact ⟨_, _, rfl, rfl, exact_bind h3⟩
      | some k =>
        obtain ⟨m, m', h1, h2, h3⟩ := a2b_some_sim hs.1 hs.2.1 hs.2.2 hx
        rw [h1, h2]
        refine ⟨_, _, rfl, rfl, exact_bind ?_⟩
        rw [alift_lowBits, alift_lowBits] at h3
        exact h3
  | b2a x =>
    have hx := h _ x
    simp only [OpSim, Op.flow, Op.exec, Op.rounding, Op.exact]
    generalize c.get x = cx, c'.get x = cx', e.get x = ex, e'.get x = ex' at hx ⊢
    cases hx with
    | pub hx hx' => simp
    | priv hx =>
      simp only [if_true]
      exact ⟨_, _, rfl, rfl, exact_bind (b2a_sim hs hx)⟩
  | b2aBits k x =>
    have hx := h _ x
    simp only [OpSim, Op.flow, Op.exec, Op.rounding, Op.exact]
    generalize c.get x = cx, c'.get x = cx', e.get x = ex, e'.get x = ex' at hx ⊢
    cases hx with
    | pub hx hx' => simp
    | priv hx =>
      simp only [if_true]
      have h3 := b2aBits_sim hx k hs
      rw [alift_lowBits, alift_lowBits] at h3
      exact ⟨_, _, rfl, rfl, exact_bind h3⟩
  | bitExtract i x =>
    have hx := h _ x
    simp only [OpSim, Op.flow, Op.exec, Op.rounding, Op.exact]
    generalize c.get x = cx, c'.get x = cx', e.get x = ex, e'.get x = ex' at hx ⊢
    cases hx with
    | pub hx hx' => simp
    | priv hx =>
      simp only [if_true]
      by_cases hi : i = 0
      · subst hi
        simp [Aby3.bitExtract]
      · obtain ⟨m, m', h1, h2, h3⟩ := bitExtract_sim (by omega) hs.2 hs.1 hx
        rw [h1, h2, if_neg hi]
        exact ⟨_, _, rfl, rfl, exact_bind h3⟩
  | bitExtractB i x =>
    have hx := h _ x
    simp only [OpSim, Op.flow, Op.exec, Op.rounding, Op.exact]
    generalize c.get x = cx, c'.get x = cx', e.get x = ex, e'.get x = ex' at hx ⊢
    cases hx with
    | pub hx hx' => simp
    | priv hx =>
      simp only [if_true]
      exact ⟨_, _, rfl, rfl, exact_pure (.priv (bitExtractB_alike hs hx))⟩
  | mulAb x b =>
    have hx := h _ x
    have hy := h _ b
    simp only [OpSim, Op.flow, Op.exec, Op.rounding, Op.exact]
    generalize c.get x = cx, c'.get x = cx', e.get x = ex, e'.get x = ex' at hx ⊢
    generalize c.get b = cy, c'.get b = cy', e.get b = ey, e'.get b = ey' at hy ⊢
    cases hy with
    | pub hy hy' => cases hx <;> simp
    | priv hy =>
      cases hx with
      | pub hx hx' =>
        simp only [if_true]
        exact ⟨_, _, rfl, rfl, exact_bind (mulAbPub_sim hx hx' hy)⟩
      | priv hx =>
        simp only [if_true]
        exact ⟨_, _, rfl, rfl, exact_bind (mulAb_sim hx hy)⟩
  | @trunc w n m a x =>
    have hx := h _ x
    simp only [OpSim, Op.flow, Op.exec, Op.rounding, Op.exact]
    generalize c.get x = cx, c'.get x = cx', e.get x = ex, e'.get x = ex' at hx ⊢
    cases hx with
    | @pub v p p' sx hx hx' =>
      cases m with
      | heuristic => simp
      | secureq8 => simp
      | loc =>
        simp only [Bool.false_eq_true, if_false, if_true]
        refine ⟨_, _, rfl, rfl, .pure ?_⟩
        refine ⟨alift (·.sshiftRight a) v, alift (·.sshiftRight a) v,
          fun i => Bits.sar_eq _ _, fun i => Bits.sar_eq _ _, fun _ => rfl, .pub ?_ ?_⟩ <;>
        · intro i
          first | rw [truncLocalPub, hx i] | rw [truncLocalPub, hx' i]
    | @priv v v' p p' sx hx =>
      cases m with
      | loc =>
        simp only [reduceCtorEq, false_and, if_false, if_true]
        exact ⟨_, _, rfl, rfl, round_bind (truncLocal_round a hx)⟩
      | secureq8 =>
        simp only [reduceCtorEq, false_and, if_false, if_true, true_and, truncMsb0Q8]
        by_cases hw : a + 1 ≤ w
        · rw [if_neg (by omega), if_pos hw, if_pos hw]
          exact ⟨_, _, rfl, rfl, round_bind (truncQ8_round hw hx)⟩
        · rw [if_pos (by omega), if_neg hw, if_neg hw]
          exact ⟨rfl, rfl⟩
      | heuristic =>
        simp only [reduceCtorEq, false_and, if_false, if_true, true_and, truncHeuristic]
        by_cases hw : (if sx = true then frac else 0) + a + 2 ≤ w
        · have hp := heurPlan_ok hw
          rw [if_neg (by omega), hp]
          exact ⟨_, _, rfl, rfl, round_bind (heurRun_round hw hp hx)⟩
        · have hp : heurPlan w (if sx = true then frac else 0) a = .error .valueError := by
            rw [heurPlan, if_neg hw]
          rw [if_pos (by omega), hp]
          exact ⟨rfl, rfl⟩
  | reveal x =>
    have hx := h _ x
    simp only [Op.OpensSame] at ho
    simp only [OpSim, Op.flow, Op.exec, Op.rounding, Op.exact]
    generalize c.get x = cx, c'.get x = cx', e.get x = ex, e'.get x = ex' at hx ho ⊢
    cases hx with
    | pub hx hx' => simp
    | priv hx =>
      simp only at ho
      subst ho
      simp only [if_true]
      exact ⟨_, _, rfl, rfl, .bind (reveal_sim hx) fun _ _ hp =>
        .pure ⟨_, _, rfl, rfl, fun _ => rfl, .pub hp.1 hp.2⟩⟩

theorem opensSame_self (c : Env CVal Γ) (o : Op ι Γ t) : o.OpensSame c c := by
  cases o <;> first | trivial | rfl

/-- Every operation meets its specification, whatever is drawn. -/
theorem Op.correct (frac : ℕ) (inp : ∀ i, T (ι i)) {c : Env CVal Γ} {e : Env Val Γ}
    (h : ∀ s (x : Var Γ s), Stands (c.get x) (e.get x)) (o : Op ι Γ t) (hs : o.Sane) :
    match o.flow frac c with
    | .error er => o.exec frac inp e = .error er
    | .ok κ => ∃ m, o.exec frac inp e = .ok m ∧
      M.All (fun v => ∃ z, (o.rounding frac c).Ok (o.exact inp c) z ∧ Stands ⟨z, κ⟩ v) m := by
  have := Op.sim (σ := 0) frac inp inp (fun s x => (h s x).rel 0) o hs (.inr ⟨rfl, rfl⟩)
    (opensSame_self c o)
  unfold OpSim at this
  split at this
  · exact this.1
  · obtain ⟨m, _, h1, h2, h3⟩ := this
    exact ⟨m, h1, h3.left fun v v' ⟨z, z', hz, _, _, hv⟩ => ⟨z, hz, hv.left⟩⟩

theorem Prog.correct (frac : ℕ) (inp : ∀ i, T (ι i)) (p : Prog ι Γ t) :
    ∀ {c : Env CVal Γ} {e : Env Val Γ}, (∀ s (x : Var Γ s), Stands (c.get x) (e.get x)) → p.Sane →
    M.All (fun r => match r with
      | .error er => p.Clear frac inp c (.error er)
      | .ok v => ∃ d, p.Clear frac inp c (.ok d) ∧ Stands d v) (p.run frac inp e) := by
  induction p with
  | ret x =>
    intro c e h _
    exact M.all_pure.2 ⟨_, rfl, h _ x⟩
  | @step Γ s t o k ih =>
    intro c e h hs
    have ho := Op.correct frac inp h o hs.1
    rw [Prog.run]
    simp only [Prog.Clear]
    cases hf : o.flow frac c with
    | error er =>
      rw [hf] at ho
      simp only at ho
      rw [ho]
      exact M.all_pure.2 rfl
    | ok κ =>
      rw [hf] at ho
      obtain ⟨m, h1, h2⟩ := ho
      rw [h1]
      refine M.All.bind h2 ?_
      rintro v ⟨z, hz, hv⟩
      have := ih (c := .cons ⟨z, κ⟩ c) (e := .cons v e) (by
        intro u x
        cases x with
        | here => exact hv
        | there x => exact h u x) hs.2
      refine this.mono ?_
      rintro (er | v') hr
      · exact ⟨z, hz, hr⟩
      · obtain ⟨d, hd, hs⟩ := hr
        exact ⟨d, ⟨z, hz, hd⟩, hs⟩

theorem Op.flow_congr (frac : ℕ) {c c' : Env CVal Γ}
    (h : ∀ s (x : Var Γ s), (c.get x).kind = (c'.get x).kind) (o : Op ι Γ t) :
    o.flow frac c = o.flow frac c' := by
  cases o <;> simp only [Op.flow, h]

theorem Prog.sim (frac : ℕ) (inp inp' : ∀ i, T (ι i)) (p : Prog ι Γ t) :
    ∀ {c c' : Env CVal Γ} {e e' : Env Val Γ}, EnvRel σ c c' e e' → p.Sane →
    p.Agree frac inp inp' c c' →
    M.Sim σ (fun r r' => match r, r' with
      | .error er, .error er' => er = er'
      | .ok v, .ok v' => ∃ d d', ValRel σ d d' v v'
      | _, _ => False) (p.run frac inp e) (p.run frac inp' e') := by
  induction p with
  | ret x =>
    intro c c' e e' h _ _
    exact .pure ⟨_, _, h _ x⟩
  | @step Γ s t o k ih =>
    intro c c' e e' h hs ha
    rw [Prog.run, Prog.run]
    simp only [Prog.Agree] at ha
    cases hf : o.flow frac c with
    | error er =>
      have h1 := Op.correct frac inp (fun s x => (h s x).left) o hs.1
      have h2 := Op.correct frac inp' (fun s x => (h s x).right) o hs.1
      rw [← Op.flow_congr frac (fun s x => (h s x).kind) o, hf] at h2
      rw [hf] at h1
      simp only at h1 h2
      rw [h1, h2]
      exact .pure rfl
    | ok κ =>
      rw [hf] at ha
      obtain ⟨hm, hop, hk⟩ := ha
      have ho := Op.sim frac inp inp' h o hs.1 (.inl hm) hop
      rw [OpSim, hf] at ho
      obtain ⟨m, m', h1, h2, h3⟩ := ho
      rw [h1, h2]
      refine .bind h3 ?_
      rintro v v' ⟨z, z', hz, hz', hzz, hv⟩
      exact ih (h.cons hv) hs.2 (hk z z' hz hz' hzz)

end Verif.Aby3
