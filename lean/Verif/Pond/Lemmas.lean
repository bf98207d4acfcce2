import Verif.Pond.Spec
import Mathlib.Tactic.Abel

/-! Helper lemmas for the Pond program theorems. -/

namespace Verif.Pond

open RandM

variable {S : Type} {T : S → Type} {Γ : List S} {α β : Type}

@[simp] theorem Exec.bind_def (m : Exec T Γ α) (f : α → Exec T Γ β) (st : St T Γ) :
    (m >>= f) st = (m st).bind fun
      | .ok (a, st') => f a st'
      | .error e => .pure (.error e) := rfl
@[simp] theorem Exec.pure_def (a : α) (st : St T Γ) :
    (pure a : Exec T Γ α) st = .pure (.ok (a, st)) := rfl
@[simp] theorem Exec.fail_def (e : Err) (st : St T Γ) :
    (Exec.fail e : Exec T Γ α) st = .pure (.error e) := rfl
@[simp] theorem Exec.lift_def (m : RandM T α) (st : St T Γ) :
    (Exec.lift m : Exec T Γ α) st = m.bind fun a => .pure (.ok (a, st)) := rfl
@[simp] theorem Exec.send_def (ms : List (Msg T)) (st : St T Γ) :
    (Exec.send ms : Exec T Γ Unit) st
      = .pure (.ok ((), { st with trace := st.trace ++ ms })) := rfl
@[simp] theorem Exec.read_def {s : S} (x : Var Γ s) (st : St T Γ) :
    (Exec.read x : Exec T Γ _) st = .pure (.ok (st.env.get x, st)) := rfl
theorem Exec.read_bind {s : S} (x : Var Γ s) (f : Slot (T s) → Exec T Γ β) (st : St T Γ) :
    (Exec.read x >>= f) st = f (st.env.get x) st := rfl
@[simp] theorem Exec.setCache_def {s : S} (x : Var Γ s) (m : Masked (T s)) (st : St T Γ) :
    (Exec.setCache x m : Exec T Γ _) st = .pure (.ok ((),
      { st with env := st.env.set x { st.env.get x with cache := some m } })) := rfl

variable [∀ s, AddCommGroup (T s)] {I : Type} {ι : I → S}

/-- Ghost register: cleartext value, kind and flag. -/
abbrev Ghost (T : S → Type) (s : S) : Type := T s × Kind × Bool

/-- A register agrees with its ghost. -/
structure SlotOK (s : S) (sl : Slot (T s)) (c : Ghost T s) : Prop where
  rep : Represents c.1 sl.val.body
  kind : sl.val.body.kind = c.2.1
  sc : sl.val.sc = c.2.2
  cache : ∀ m, sl.cache = some m → c.2.1 = .priv ∧ Represents c.1 (.masked m)

/-- values of the ghost -/
abbrev gval (g : Env (Ghost T) Γ) : Env (fun s => T s × Bool) Γ := g.map fun _ c => (c.1, c.2.2)
/-- types of the ghost -/
abbrev gty (g : Env (Ghost T) Γ) : Env (fun _ => Kind × Bool) Γ := g.map fun _ c => c.2

theorem share_ok {s : S} (v : T s) :
    (share (T := T) v).All fun p => p.x0 + p.x1 = v := by
  intro b r; cases b <;> simp

theorem dealerShare_ok {s : S} (v : T s) :
    (dealerShare (T := T) v).All fun p => p.x0 + p.x1 = v := by
  intro b r; cases b <;> simp

theorem maskPrivate_ok {s : S} (p : Priv (T s)) :
    (maskPrivate (T := T) p).All fun r => Represents (p.x0 + p.x1) (.masked r.1) := by
  intro a0 a1
  refine ⟨rfl, rfl, ?_, ?_⟩ <;> simp <;> abel

theorem mask_ok {s : S} (x : Var Γ s) (st : St T Γ) (g : Env (Ghost T) Γ)
    (h : Env.Rel SlotOK st.env g) :
    (mask x st).All fun r => match r with
      | .ok (m, st') => (g.get x).2.1 = .priv ∧ Represents (g.get x).1 (.masked m) ∧
          Env.Rel SlotOK st'.env g
      | .error e => (g.get x).2.1 ≠ .priv ∧ e = .type := by
  have hx := h.get x
  unfold mask
  simp only [Exec.bind_def, Exec.read_def, RandM.bind_pure]
  cases hc : (st.env.get x).cache with
  | some m =>
    obtain ⟨h1, h2⟩ := hx.cache m hc
    exact ⟨h1, h2, h⟩
  | none =>
    have hk := hx.kind
    have hr := hx.rep
    match hb : (st.env.get x).val.body with
    | .plain (.pub _ _) =>
      simp only [hb, Body.kind] at hk
      simp [← hk]
    | .masked _ =>
      simp only [hb, Body.kind] at hk
      simp [← hk]
    | .plain (.priv p) =>
      simp only [hb, Body.kind] at hk
      simp only [hb, Represents] at hr
      simp only [Exec.bind_def, Exec.lift_def, RandM.bind_assoc, RandM.bind_pure, all_bind]
      refine All.mono ?_ (maskPrivate_ok p)
      rintro ⟨m, ms⟩ hm
      rw [hr] at hm
      refine ⟨hk.symm, hm, ?_⟩
      apply h.set
      refine ⟨by simp only [hb, Represents, hr], by simp [hb, Body.kind, hk], hx.sc, ?_⟩
      rintro m' h'
      cases h'
      exact ⟨hk.symm, hm⟩

/-- Postcondition of an operation. -/
def OpPost (Tr : Bool → ∀ s, T s → T s → Prop) (inp : ∀ i, T (ι i)) {t : S}
    (g : Env (Ghost T) Γ) (o : Op T ι Γ t) : Except Err (Val (T t) × St T Γ) → Prop
  | .ok (v, st') => ∃ c : Ghost T t, o.Clear Tr inp (gval g) (c.1, c.2.2) ∧
      o.ty (gty g) = .ok c.2 ∧ SlotOK t ⟨v, none⟩ c ∧ Env.Rel SlotOK st'.env g
  | .error e => o.ty (gty g) = .error e

theorem slotOK_pub {s : S} {v v0 v1 : T s} {sc : Bool} (h0 : v0 = v) (h1 : v1 = v) :
    SlotOK s ⟨⟨.plain (.pub v0 v1), sc⟩, none⟩ (v, .pub, sc) :=
  ⟨⟨h0, h1⟩, rfl, rfl, by simp⟩

theorem slotOK_priv {s : S} {v : T s} {p : Priv (T s)} {sc : Bool} (h : p.x0 + p.x1 = v) :
    SlotOK s ⟨⟨.plain (.priv p), sc⟩, none⟩ (v, .priv, sc) :=
  ⟨h, rfl, rfl, by simp⟩

/-- The value and kind of a plain tensor. -/
theorem plain_cases {s : S} {sl : Slot (T s)} {c : Ghost T s} (h : SlotOK s sl c) :
    (∃ v0 v1, sl.val.body = .plain (.pub v0 v1) ∧ v0 = c.1 ∧ v1 = c.1 ∧ c.2.1 = .pub) ∨
    (∃ p, sl.val.body = .plain (.priv p) ∧ p.x0 + p.x1 = c.1 ∧ c.2.1 = .priv) ∨
    (∃ m, sl.val.body = .masked m ∧ Represents c.1 (.masked m) ∧ c.2.1 = .masked) := by
  have hr := h.rep
  have hk := h.kind
  match hb : sl.val.body with
  | .plain (.pub v0 v1) =>
    rw [hb] at hr hk
    exact .inl ⟨v0, v1, rfl, hr.1, hr.2, hk.symm⟩
  | .plain (.priv p) =>
    rw [hb] at hr hk
    exact .inr (.inl ⟨p, rfl, hr, hk.symm⟩)
  | .masked m =>
    rw [hb] at hr hk
    exact .inr (.inr ⟨m, rfl, hr, hk.symm⟩)

/-- After `unmask`: public with both copies right, or private with the right sum. -/
theorem unmask_cases {s : S} {sl : Slot (T s)} {c : Ghost T s} (h : SlotOK s sl c) :
    (unmask sl.val.body = .pub c.1 c.1 ∧ c.2.1 = .pub) ∨
    (∃ p, unmask sl.val.body = .priv p ∧ p.x0 + p.x1 = c.1 ∧ c.2.1 ≠ .pub) := by
  rcases plain_cases h with ⟨v0, v1, hb, rfl, h1, hk⟩ | ⟨p, hb, hp, hk⟩ | ⟨m, hb, hm, hk⟩
  · left; rw [hb, h1]; exact ⟨rfl, hk⟩
  · right; rw [hb]; exact ⟨p, rfl, hp, by simp [hk]⟩
  · right; rw [hb]; exact ⟨m.unmasked, rfl, hm.1, by simp [hk]⟩

/-- `finish` on a plain product. -/
theorem finish_ok {C : Cfg T} {Tr : Bool → ∀ s, T s → T s → Prop} (hC : C.Sound Tr) {t : S}
    (scx scy : Bool) (z : Plain (T t)) (v : T t) (hz : Represents v (.plain z)) (st : St T Γ) :
    (finish C scx scy z st).All fun r => ∃ (w : Val (T t)) (st' : St T Γ) (c : T t),
      r = .ok (w, st') ∧
      SlotOK t ⟨w, none⟩ (c, (Body.plain z).kind, (scx || scy)) ∧ st'.env = st.env ∧
      (if scx = true ∧ scy = true then Tr true t v c else c = v) := by
  unfold finish
  by_cases hs : scx = true ∧ scy = true
  · obtain ⟨rfl, rfl⟩ := hs
    simp only [Bool.and_self, if_true, Bool.or_self]
    cases z with
    | pub v0 v1 =>
      obtain ⟨rfl, rfl⟩ := hz
      exact ⟨_, _, _, rfl, slotOK_pub rfl rfl, rfl, by simp [hC.pub]⟩
    | priv p =>
      simp only [truncatePlain, Exec.bind_def, Exec.lift_def, RandM.bind_assoc, RandM.bind_pure, all_bind]
      refine All.mono ?_ (hC.priv _ t p)
      rintro ⟨q, ms⟩ hq
      have hz' : p.x0 + p.x1 = v := hz
      rw [hz'] at hq
      exact ⟨_, _, _, rfl, slotOK_priv rfl, rfl, by simp [hq]⟩
  · have hs' : (scx && scy) = false := by
      cases scx <;> cases scy <;> simp_all
    rw [if_neg (by simp [hs'])]
    cases z with
    | pub v0 v1 => exact ⟨_, _, v, rfl, slotOK_pub hz.1 hz.2, rfl, by rw [if_neg hs]⟩
    | priv p => exact ⟨_, _, v, rfl, slotOK_priv hz, rfl, by rw [if_neg hs]⟩

/-- Beaver multiplication. -/
theorem bilinMasked_ok {C : Cfg T} {Tr : Bool → ∀ s, T s → T s → Prop} (hC : C.Sound Tr) {s u t : S}
    (f : T s →+ T u →+ T t) (scx scy : Bool) (mx : Masked (T s)) (my : Masked (T u))
    (x : T s) (y : T u) (hx : Represents x (.masked mx)) (hy : Represents y (.masked my))
    (st : St T Γ) :
    (bilinMasked C f scx scy mx my st).All fun r => ∃ (w : Val (T t)) (st' : St T Γ) (c : T t),
      r = .ok (w, st') ∧
      SlotOK t ⟨w, none⟩ (c, .priv, (scx || scy)) ∧ st'.env = st.env ∧
      (if scx = true ∧ scy = true then Tr true t (f x y) c else c = f x y) := by
  unfold bilinMasked
  simp only [Exec.bind_def, Exec.lift_def, RandM.bind_assoc, RandM.bind_pure, all_bind]
  refine All.mono ?_ (dealerShare_ok (f mx.a my.a))
  rintro ab hab
  simp only [Exec.send_def, all_pure]
  obtain ⟨_, hx2, hx3, hx4⟩ := hx
  obtain ⟨_, hy2, hy3, hy4⟩ := hy
  have key : (ab.x0 + f mx.a0 my.alpha0 + f mx.alpha0 my.a0 + f mx.alpha0 my.alpha0)
      + (ab.x1 + f mx.a1 my.alpha1 + f mx.alpha1 my.a1) = f x y := by
    have e1 : x = mx.a + mx.alpha0 := by rw [hx3]; abel
    have e2 : y = my.a + my.alpha0 := by rw [hy3]; abel
    have e3 : mx.alpha1 = mx.alpha0 := by rw [hx3, hx4]
    have e4 : my.alpha1 = my.alpha0 := by rw [hy3, hy4]
    have e5 : ab.x0 = f mx.a my.a - ab.x1 := by rw [← hab]; abel
    rw [e1, e2, e3, e4, e5, ← hx2, ← hy2]
    simp only [map_add, AddMonoidHom.add_apply]
    abel
  refine All.mono ?_ (finish_ok hC scx scy (.priv ⟨_, _⟩) (f x y) key ⟨st.env, _⟩)
  rintro r hr
  exact hr

theorem squareMasked_ok {C : Cfg T} {Tr : Bool → ∀ s, T s → T s → Prop} (hC : C.Sound Tr) {s t : S}
    (f : T s →+ T s →+ T t) (hf : ∀ a b, f a b = f b a) (sc : Bool) (mx : Masked (T s))
    (x : T s) (hx : Represents x (.masked mx)) (st : St T Γ) :
    (squareMasked C f sc mx st).All fun r => ∃ (w : Val (T t)) (st' : St T Γ) (c : T t),
      r = .ok (w, st') ∧
      SlotOK t ⟨w, none⟩ (c, .priv, (sc || sc)) ∧ st'.env = st.env ∧
      (if sc = true ∧ sc = true then Tr true t (f x x) c else c = f x x) := by
  unfold squareMasked
  simp only [Exec.bind_def, Exec.lift_def, RandM.bind_assoc, RandM.bind_pure, all_bind]
  refine All.mono ?_ (dealerShare_ok (f mx.a mx.a))
  rintro ab hab
  simp only [Exec.send_def, all_pure]
  obtain ⟨_, hx2, hx3, hx4⟩ := hx
  have key : (ab.x0 + 2 • f mx.a0 mx.alpha0 + f mx.alpha0 mx.alpha0)
      + (ab.x1 + 2 • f mx.a1 mx.alpha1) = f x x := by
    have e1 : x = mx.a + mx.alpha0 := by rw [hx3]; abel
    have e3 : mx.alpha1 = mx.alpha0 := by rw [hx3, hx4]
    have e5 : ab.x0 = f mx.a mx.a - ab.x1 := by rw [← hab]; abel
    rw [e1, e3, e5, ← hx2]
    simp only [map_add, AddMonoidHom.add_apply]
    rw [hf mx.alpha0 mx.a0, hf mx.alpha0 mx.a1]
    abel
  refine All.mono ?_ (finish_ok hC sc sc (.priv ⟨_, _⟩) (f x x) key ⟨st.env, _⟩)
  rintro r hr
  exact hr

/-- Every operation meets its postcondition. -/
theorem op_ok {C : Cfg T} {Tr : Bool → ∀ s, T s → T s → Prop} (hC : C.Sound Tr) (inp : ∀ i, T (ι i))
    {t : S} (o : Op T ι Γ t) (st : St T Γ) (g : Env (Ghost T) Γ)
    (h : Env.Rel SlotOK st.env g) : (o.exec C inp st).All (OpPost Tr inp g o) := by
  cases o with
  | const v sc => exact ⟨(v, .pub, sc), rfl, rfl, slotOK_pub rfl rfl, h⟩
  | input i sc =>
    simp only [Op.exec, Exec.bind_def, Exec.lift_def, RandM.bind_assoc, RandM.bind_pure, all_bind]
    refine All.mono ?_ (share_ok (inp i))
    intro p hp
    exact ⟨(inp i, .priv, sc), rfl, rfl, slotOK_priv hp, h⟩
  | add x y =>
    have hx := h.get x
    have hy := h.get y
    simp only [Op.exec, Exec.bind_def, Exec.read_def, RandM.bind_pure, add, hx.sc, hy.sc]
    rcases unmask_cases hx with ⟨ex, kx⟩ | ⟨p, ex, ep, kx⟩ <;>
    rcases unmask_cases hy with ⟨ey, ky⟩ | ⟨q, ey, eq, ky⟩ <;> simp only [ex, ey]
    · split
      · rename_i hs
        exact ⟨((g.get x).1 + (g.get y).1, .pub, (g.get x).2.2), by simp [Op.Clear],
          by simp [Op.ty, kx, ky, hs, Kind.join], slotOK_pub rfl rfl, h⟩
      · rename_i hs
        simp [OpPost, Op.ty, kx, ky, hs]
    · split
      · rename_i hs
        exact ⟨((g.get x).1 + (g.get y).1, .priv, (g.get x).2.2), by simp [Op.Clear],
          by simp [Op.ty, kx, ky, hs, Kind.join], slotOK_priv (by rw [← eq]; simp only; abel), h⟩
      · rename_i hs
        simp [OpPost, Op.ty, kx, hs]
    · split
      · rename_i hs
        exact ⟨((g.get x).1 + (g.get y).1, .priv, (g.get x).2.2), by simp [Op.Clear],
          by simp [Op.ty, kx, ky, hs, Kind.join], slotOK_priv (by rw [← ep]; simp only; abel), h⟩
      · rename_i hs
        simp [OpPost, Op.ty, ky, hs]
    · exact ⟨((g.get x).1 + (g.get y).1, .priv, (g.get x).2.2), by simp [Op.Clear],
          by simp [Op.ty, kx, ky, Kind.join],
          slotOK_priv (by rw [← ep, ← eq]; simp only; abel), h⟩
  | sub x y =>
    have hx := h.get x
    have hy := h.get y
    simp only [Op.exec, Exec.bind_def, Exec.read_def, RandM.bind_pure, sub, hx.sc, hy.sc]
    split
    case isFalse hs => simp [OpPost, Op.ty, hs]
    rename_i hs
    rcases unmask_cases hx with ⟨ex, kx⟩ | ⟨p, ex, ep, kx⟩ <;>
    rcases unmask_cases hy with ⟨ey, ky⟩ | ⟨q, ey, eq, ky⟩ <;> simp only [ex, ey]
    · exact ⟨((g.get x).1 - (g.get y).1, .pub, (g.get x).2.2), by simp [Op.Clear],
          by simp [Op.ty, kx, ky, hs, Kind.join], slotOK_pub rfl rfl, h⟩
    · exact ⟨((g.get x).1 - (g.get y).1, .priv, (g.get x).2.2), by simp [Op.Clear],
          by simp [Op.ty, kx, ky, hs, Kind.join],
          slotOK_priv (by rw [← eq]; simp only; abel), h⟩
    · exact ⟨((g.get x).1 - (g.get y).1, .priv, (g.get x).2.2), by simp [Op.Clear],
          by simp [Op.ty, kx, ky, hs, Kind.join],
          slotOK_priv (by rw [← ep]; simp only; abel), h⟩
    · exact ⟨((g.get x).1 - (g.get y).1, .priv, (g.get x).2.2), by simp [Op.Clear],
          by simp [Op.ty, kx, ky, hs, Kind.join],
          slotOK_priv (by rw [← ep, ← eq]; simp only; abel), h⟩
  | lin k f x =>
    have hx := h.get x
    simp only [Op.exec, Exec.bind_def, Exec.read_def, RandM.bind_pure, lin, hx.sc]
    rcases plain_cases hx with ⟨v0, v1, hb, h0, h1, hk⟩ | ⟨p, hb, hp, hk⟩ | ⟨m, hb, hm, hk⟩ <;>
      simp only [hb]
    · exact ⟨(f (g.get x).1, .pub, (g.get x).2.2), by simp [Op.Clear],
        by simp [Op.ty, hk], slotOK_pub (by rw [h0]) (by rw [h1]), h⟩
    · exact ⟨(f (g.get x).1, .priv, (g.get x).2.2), by simp [Op.Clear],
        by simp [Op.ty, hk], slotOK_priv (by rw [← hp, map_add]), h⟩
    · obtain ⟨m1, m2, m3, m4⟩ := hm
      cases k with
      | keepMask =>
        refine ⟨(f (g.get x).1, .masked, (g.get x).2.2), by simp [Op.Clear],
          by simp [Op.ty, hk], ⟨⟨?_, ?_, ?_, ?_⟩, rfl, rfl, by simp⟩, h⟩
        · rw [← m1, map_add]
        · rw [← m2, map_add]
        · simp only [m3, map_sub]
        · simp only [m4, map_sub]
      | dropMask =>
        exact ⟨(f (g.get x).1, .priv, (g.get x).2.2), by simp [Op.Clear],
          by simp [Op.ty, hk], slotOK_priv (by rw [← m1, map_add]), h⟩
      | squeeze => simp [OpPost, Op.ty, hk]
  | concat f x y =>
    have hx := h.get x
    have hy := h.get y
    simp only [Op.exec, Exec.bind_def, Exec.read_def, RandM.bind_pure, concat, hx.sc, hy.sc]
    split
    case isFalse hs => simp [OpPost, Op.ty, hs]
    rename_i hs
    rcases plain_cases hx with ⟨v0, v1, hb, h0, h1, hk⟩ | ⟨p, hb, hp, hk⟩ | ⟨m, hb, hm, hk⟩ <;>
    rcases plain_cases hy with ⟨w0, w1, hb', h0', h1', hk'⟩ | ⟨p', hb', hp', hk'⟩ |
      ⟨m', hb', hm', hk'⟩ <;> simp only [hb, hb']
    · refine ⟨(f ((g.get x).1, (g.get y).1), .pub, (g.get x).2.2), by simp [Op.Clear],
        ?_, slotOK_pub (by rw [h0, h0']) (by rw [h1, h1']), h⟩
      simp [Op.ty, hk, hk', hs, Prod.ext_iff]
    · simp [OpPost, Op.ty, hk, hk', hs]
    · simp [OpPost, Op.ty, hk, hk', hs]
    · simp [OpPost, Op.ty, hk, hk', hs]
    · refine ⟨(f ((g.get x).1, (g.get y).1), .priv, (g.get x).2.2), by simp [Op.Clear],
        ?_, slotOK_priv (by rw [← hp, ← hp', ← map_add]; rfl), h⟩
      simp [Op.ty, hk, hk', hs, Prod.ext_iff]
    · simp [OpPost, Op.ty, hk, hk', hs]
    · simp [OpPost, Op.ty, hk, hk', hs]
    · simp [OpPost, Op.ty, hk, hk', hs]
    · obtain ⟨m1, m2, m3, m4⟩ := hm
      obtain ⟨n1, n2, n3, n4⟩ := hm'
      refine ⟨(f ((g.get x).1, (g.get y).1), .masked, (g.get x).2.2), by simp [Op.Clear],
          ?_, ⟨⟨?_, ?_, ?_, ?_⟩, rfl, rfl, by simp⟩, h⟩
      · simp [Op.ty, hk, hk', hs, Prod.ext_iff]
      · rw [← m1, ← n1, ← map_add]; rfl
      · rw [← m2, ← n2, ← map_add]; rfl
      · simp only [m3, n3, ← map_sub]; rfl
      · simp only [m4, n4, ← map_sub]; rfl
  | bilin k f x y =>
    have hx := h.get x
    have hy := h.get y
    have fin : ∀ (z : Plain (T t)) (κ : Kind), Represents (f (g.get x).1 (g.get y).1) (.plain z) →
        (Body.plain z).kind = κ →
        (Op.bilin k f x y : Op T ι Γ t).ty (gty g) = .ok (κ, (g.get x).2.2 || (g.get y).2.2) →
        ∀ st' : St T Γ, Env.Rel SlotOK st'.env g →
        (finish C (g.get x).2.2 (g.get y).2.2 z st').All
          (OpPost Tr inp g (.bilin k f x y)) := by
      intro z κ hz hκ hty st' hst
      refine All.mono ?_ (finish_ok hC _ _ z _ hz st')
      rintro _ ⟨w, st'', c, rfl, hw, he, hc⟩
      refine ⟨(c, κ, _), ⟨by simp, ?_⟩, hty, hκ ▸ hw, he ▸ hst⟩
      simpa using hc
    have finM : ∀ (mx : Masked _) (my : Masked _), Represents (g.get x).1 (.masked mx) →
        Represents (g.get y).1 (.masked my) →
        (Op.bilin k f x y : Op T ι Γ t).ty (gty g) = .ok (.priv, (g.get x).2.2 || (g.get y).2.2) →
        ∀ st' : St T Γ, Env.Rel SlotOK st'.env g →
        (bilinMasked C f (g.get x).2.2 (g.get y).2.2 mx my st').All
          (OpPost Tr inp g (.bilin k f x y)) := by
      intro mx my hmx hmy hty st' hst
      refine All.mono ?_ (bilinMasked_ok hC f _ _ mx my _ _ hmx hmy st')
      rintro _ ⟨w, st'', c, rfl, hw, he, hc⟩
      refine ⟨(c, .priv, _), ⟨by simp, ?_⟩, hty, hw, he ▸ hst⟩
      simpa using hc
    simp only [Op.exec, bilin, Exec.read_bind]
    rcases plain_cases hx with ⟨v0, v1, hb, h0, h1, hk⟩ | ⟨p, hb, hp, hk⟩ | ⟨m, hb, hm, hk⟩ <;>
    rcases plain_cases hy with ⟨w0, w1, hb', h0', h1', hk'⟩ | ⟨p', hb', hp', hk'⟩ |
      ⟨m', hb', hm', hk'⟩ <;> simp only [hb, hb', unmask, hx.sc, hy.sc]
    · refine fin (.pub _ _) .pub ⟨by rw [h0, h0'], by rw [h1, h1']⟩ rfl
        (by simp [Op.ty, hk, hk', Kind.join]) st h
    · split
      · rename_i hc; simp [OpPost, Op.ty, hk, hk', hc]
      · rename_i hc
        refine fin _ .priv ?_ rfl (by simp [Op.ty, hk, hk', hc, Kind.join]) st h
        simp only [Represents, h0, h1, ← hp', map_add]
    · split
      · rename_i hc; simp [OpPost, Op.ty, hk, hk', hc]
      · rename_i hc
        refine fin _ .priv ?_ rfl (by simp [Op.ty, hk, hk', hc, Kind.join]) st h
        simp only [Represents, h0, h1, ← hm'.1, map_add]
    · split
      · rename_i hc; simp [OpPost, Op.ty, hk, hk', hc]
      · rename_i hc
        refine fin _ .priv ?_ rfl (by simp [Op.ty, hk, hk', hc, Kind.join])
          { st with trace := st.trace ++ misplaced k f p.x1 w1 } h
        simp only [Represents, h0', h1', ← hp, map_add, AddMonoidHom.add_apply]
    · rw [Exec.bind_def, all_bind]
      refine All.mono ?_ (mask_ok x st g h)
      rintro (e | ⟨mx, st1⟩) h1
      · simp [hk] at h1
      · simp only [Exec.bind_def, all_bind]
        refine All.mono ?_ (mask_ok y st1 g h1.2.2)
        rintro (e | ⟨my, st2⟩) h2
        · simp [hk'] at h2
        · exact finM mx my h1.2.1 h2.2.1 (by simp [Op.ty, hk, hk', Kind.join]) st2 h2.2.2
    · rw [Exec.bind_def, all_bind]
      refine All.mono ?_ (mask_ok x st g h)
      rintro (e | ⟨mx, st1⟩) h1
      · simp [hk] at h1
      · exact finM mx m' h1.2.1 hm' (by simp [Op.ty, hk, hk', Kind.join]) st1 h1.2.2
    · split
      · rename_i hc; simp [OpPost, Op.ty, hk, hk', hc]
      · rename_i hc
        refine fin _ .priv ?_ rfl (by simp [Op.ty, hk, hk', hc, Kind.join])
          { st with trace := st.trace ++ misplaced k f m.unmasked.x1 w1 } h
        simp only [Represents, h0', h1', ← hm.1, map_add, AddMonoidHom.add_apply]
    · rw [Exec.bind_def, all_bind]
      refine All.mono ?_ (mask_ok y st g h)
      rintro (e | ⟨my, st1⟩) h1
      · simp [hk'] at h1
      · exact finM m my hm h1.2.1 (by simp [Op.ty, hk, hk', Kind.join]) st1 h1.2.2
    · exact finM m m' hm hm' (by simp [Op.ty, hk, hk', Kind.join]) st h
  | square f hf x =>
    have hx := h.get x
    have finM : ∀ (mx : Masked _), Represents (g.get x).1 (.masked mx) →
        (Op.square f hf x : Op T ι Γ t).ty (gty g) = .ok (.priv, (g.get x).2.2) →
        ∀ st' : St T Γ, Env.Rel SlotOK st'.env g →
        (squareMasked C f (g.get x).2.2 mx st').All (OpPost Tr inp g (.square f hf x)) := by
      intro mx hmx hty st' hst
      refine All.mono ?_ (squareMasked_ok hC f hf _ mx _ hmx st')
      rintro _ ⟨w, st'', c, rfl, hw, he, hc⟩
      refine ⟨(c, .priv, (g.get x).2.2), ⟨by simp, ?_⟩, hty, by simpa using hw, he ▸ hst⟩
      simpa using hc
    simp only [Op.exec, square, Exec.read_bind]
    rcases plain_cases hx with ⟨v0, v1, hb, h0, h1, hk⟩ | ⟨p, hb, hp, hk⟩ | ⟨m, hb, hm, hk⟩ <;>
      simp only [hb, hx.sc]
    · refine All.mono ?_ (finish_ok hC _ _ (.pub _ _) (f (g.get x).1 (g.get x).1)
        ⟨by rw [h0], by rw [h1]⟩ st)
      rintro _ ⟨w, st'', c, rfl, hw, he, hc⟩
      refine ⟨(c, .pub, (g.get x).2.2), ⟨by simp, ?_⟩, by simp [Op.ty, hk, Kind.join],
        by simpa [Body.kind] using hw, he ▸ h⟩
      simpa using hc
    · rw [Exec.bind_def, all_bind]
      refine All.mono ?_ (mask_ok x st g h)
      rintro (e | ⟨mx, st1⟩) h1
      · simp [hk] at h1
      · exact finM mx h1.2.1 (by simp [Op.ty, hk, Kind.join]) st1 h1.2.2
    · exact finM m hm (by simp [Op.ty, hk, Kind.join]) st h
  | mask x =>
    have hx := h.get x
    simp only [Op.exec, Exec.bind_def, Exec.read_def, RandM.bind_pure, all_bind]
    refine All.mono ?_ (mask_ok x st g h)
    rintro (e | ⟨mx, st1⟩) h1
    · simp [OpPost, Op.ty, h1.1, h1.2]
    · exact ⟨((g.get x).1, .masked, (g.get x).2.2), by simp [Op.Clear],
        by simp [Op.ty, h1.1], ⟨h1.2.1, rfl, hx.sc, by simp⟩, h1.2.2⟩
  | truncate x =>
    have hx := h.get x
    simp only [Op.exec, Exec.bind_def, Exec.read_def, RandM.bind_pure, truncate, hx.sc]
    rcases unmask_cases hx with ⟨ex, kx⟩ | ⟨p, ex, ep, kx⟩ <;> simp only [ex, truncatePlain]
    · exact ⟨(_, .pub, (g.get x).2.2), ⟨by simpa using hC.pub _ _ _, by simp⟩,
        by simp [Op.ty, kx, Kind.join], slotOK_pub rfl rfl, h⟩
    · simp only [Exec.bind_def, Exec.lift_def, RandM.bind_assoc, RandM.bind_pure, all_bind]
      refine All.mono ?_ (hC.priv _ t p)
      rintro ⟨q, ms⟩ hq
      rw [ep] at hq
      exact ⟨(_, .priv, (g.get x).2.2), ⟨by simpa using hq, by simp⟩,
        by simp [Op.ty, kx, Kind.join], slotOK_priv rfl, h⟩
  | reveal x =>
    have hx := h.get x
    simp only [Op.exec, Exec.bind_def, Exec.read_def, RandM.bind_pure, reveal, hx.sc]
    rcases unmask_cases hx with ⟨ex, kx⟩ | ⟨p, ex, ep, kx⟩ <;> simp only [ex]
    · simp [OpPost, Op.ty, kx]
    · exact ⟨((g.get x).1, .pub, (g.get x).2.2), by simp [Op.Clear],
        by simp [Op.ty, kx], slotOK_pub ep ep, h⟩

/-- Every program meets its specification. -/
theorem run_ok {C : Cfg T} {Tr : Bool → ∀ s, T s → T s → Prop} (hC : C.Sound Tr) (inp : ∀ i, T (ι i))
    {t : S} (p : Prog T ι Γ t) (st : St T Γ) (g : Env (Ghost T) Γ)
    (h : Env.Rel SlotOK st.env g) :
    (p.run C inp st).All fun r => match r with
      | .ok (v, _) => ∃ c : Ghost T t, p.Clear Tr inp (gval g) (c.1, c.2.2) ∧
          p.ty (gty g) = .ok c.2 ∧ Represents c.1 v.body ∧ v.body.kind = c.2.1 ∧ v.sc = c.2.2
      | .error e => p.ty (gty g) = .error e := by
  induction p with
  | ret x =>
    have hx := h.get x
    exact ⟨g.get x, by simp [Prog.Clear], by simp [Prog.ty], hx.rep, hx.kind, hx.sc⟩
  | step o k ih =>
    simp only [Prog.run, all_bind]
    refine All.mono ?_ (op_ok hC inp o st g h)
    rintro (e | ⟨v, st1⟩) h1
    · simp only [OpPost] at h1
      simp [Prog.ty, h1]
    · obtain ⟨c, hc1, hc2, hc3, hc4⟩ := h1
      refine All.mono ?_ (ih ⟨.cons ⟨v, none⟩ st1.env, st1.trace⟩ (.cons c g) ⟨hc3, hc4⟩)
      rintro (e | ⟨w, _⟩) h2
      · simp only [Prog.ty, hc2]; exact h2
      · obtain ⟨d, hd1, hd2, hd3⟩ := h2
        exact ⟨d, ⟨_, hc1, hd1⟩, by simp only [Prog.ty, hc2]; exact hd2, hd3⟩

/-- Without scaled values the cleartext semantics is the plain ring evaluation. -/
theorem clear_unscaled (Tr : Bool → ∀ s, T s → T s → Prop) (inp : ∀ i, T (ι i)) {t : S}
    (p : Prog T ι Γ t) (hp : p.Unscaled) (e : Env (fun s => T s × Bool) Γ)
    (he : ∀ s (x : Var Γ s), (e.get x).2 = false) (r : T t × Bool)
    (h : p.Clear Tr inp e r) : r.1 = p.clear inp (e.map fun _ c => c.1) := by
  induction p with
  | ret x => simp only [Prog.Clear] at h; simp [Prog.clear, h]
  | step o k ih =>
    obtain ⟨c, hc, hk⟩ := h
    obtain ⟨ho, hp'⟩ := hp
    have key : c.1 = o.clear inp (e.map fun _ c => c.1) ∧ c.2 = false := by
      cases o <;> simp_all [Op.Clear, Op.clear, Op.unscaled]
    have := ih hp' (.cons c e) (by
      intro s x
      cases x with
      | here => exact key.2
      | there x => exact he s x) r hk
    rw [this]
    simp only [Prog.clear, Env.map, key.1]

end Verif.Pond
