import Verif.Runtime.Context

/-!
# C47: protocol contexts nest

Specification: `Block.spec` runs the program with a stack: leaving a block restores what was active on
entry.
-/

namespace Verif.Runtime

variable {P : Type} [DecidableEq P]

/-- The active protocol if every block restores what was active on entry. -/
def Block.spec : Block P → Option P → Option P × Bool
  | .skip, c => (c, false)
  | .raise, c => (c, true)
  | .set p, _ => (p, false)
  | .seq a b, c =>
    match a.spec c with
    | (c', true) => (c', true)
    | (c', false) => b.spec c'
  | .within p body, c => (c, (body.spec (some p)).2)
  | .guard body, c => ((body.spec c).1, false)

/-- `p` is entered somewhere in the block. -/
def Block.Enters (p : P) : Block P → Prop
  | .skip => False
  | .raise => False
  | .set _ => False
  | .seq a b => a.Enters p ∨ b.Enters p
  | .within q body => p = q ∨ body.Enters p
  | .guard body => body.Enters p

/-- No protocol object is entered again inside its own block. -/
def Block.NoReentry : Block P → Prop
  | .skip => True
  | .raise => True
  | .set _ => True
  | .seq a b => a.NoReentry ∧ b.NoReentry
  | .within p body => ¬ body.Enters p ∧ body.NoReentry
  | .guard body => body.NoReentry

theorem last_exec (K : Classes P) (p : P) (b : Block P) (h : ¬ b.Enters p) (s : Scope P) :
    (b.exec K s).1.last p = s.last p := by
  induction b generalizing s with
  | skip => rfl
  | raise => rfl
  | set q => cases q <;> rfl
  | seq a b iha ihb =>
    simp only [Block.Enters, not_or] at h
    unfold Block.exec
    have := iha h.1 s
    cases he : a.exec K s with
    | mk s' e =>
      rw [he] at this
      cases e with
      | true => exact this
      | false => exact (ihb h.2 s').trans this
  | within q body ih =>
    simp only [Block.Enters, not_or] at h
    unfold Block.exec
    have := ih h.2 (enter K s q)
    cases he : body.exec K (enter K s q) with
    | mk s' e =>
      rw [he] at this
      have h2 : (enter K s q).last p = s.last p := by
        show Function.update s.last q (some s.current) p = s.last p
        rw [Function.update_of_ne h.1]
      simp only
      cases hx : exit K s' q with
      | none => exact this.trans h2
      | some s'' =>
        unfold exit at hx
        cases hl : s'.last q with
        | none => simp [hl] at hx
        | some c =>
          simp only [hl, Option.map_some, Option.some.injEq] at hx
          subst hx
          exact this.trans h2
  | guard body ih => exact ih h s

/-- **C47 (partial)**: for every program in which no protocol object is entered again inside its own
block, with exceptions and explicit switches anywhere, the active protocol is what the stack discipline
says, and the same exceptions propagate. In particular (`within_restores_partial`) a block restores what
was active on entry. Missing: re-entering the same object (`reenter_false`). -/
theorem contexts_nest_partial (K : Classes P) (b : Block P) (h : b.NoReentry) (s : Scope P) :
    ((b.exec K s).1.current, (b.exec K s).2) = b.spec s.current := by
  induction b generalizing s with
  | skip => rfl
  | raise => rfl
  | set q => cases q <;> rfl
  | seq a b iha ihb =>
    have ha := iha h.1 s
    unfold Block.exec Block.spec
    cases he : a.exec K s with
    | mk s' e =>
      rw [he] at ha
      rw [← ha]
      cases e with
      | true => rfl
      | false => exact ihb h.2 s'
  | within p body ih =>
    have hb := ih h.2 (enter K s p)
    have hl := last_exec K p body h.1 (enter K s p)
    have hl' : (enter K s p).last p = some s.current :=
      by simp [enter, setProtocol]
    have hc : (enter K s p).current = some p := rfl
    rw [hc] at hb
    unfold Block.exec Block.spec
    cases he : body.exec K (enter K s p) with
    | mk s' e =>
      rw [he] at hb hl
      simp only at hb hl
      rw [← hb]
      simp only [exit, hl, hl', Option.map_some]
      cases s.current <;> rfl
  | guard body ih =>
    have := ih h s
    unfold Block.exec Block.spec
    rw [← this]

/-- **C47 (partial)**: leaving `with p: body` restores the protocol that was active on entry, also if
the body raised, whatever the body switched to; `body` must not enter `p` itself. -/
theorem within_restores_partial (K : Classes P) (p : P) (body : Block P) (h : ¬ body.Enters p)
    (s : Scope P) : ((Block.within p body).exec K s).1.current = s.current := by
  have hl := last_exec K p body h (enter K s p)
  have hl' : (enter K s p).last p = some s.current :=
    by simp [enter, setProtocol]
  unfold Block.exec
  cases he : body.exec K (enter K s p) with
  | mk s' e =>
    rw [he] at hl
    simp only at hl
    simp only [exit, hl, hl', Option.map_some]
    cases s.current <;> rfl

/-- What a block restores, exactly: the protocol that was active when `p` was last entered. -/
theorem within_exact (K : Classes P) (p : P) (body : Block P) (s : Scope P) (c : Option P)
    (h : (body.exec K (enter K s p)).1.last p = some c) :
    ((Block.within p body).exec K s).1.current = c := by
  unfold Block.exec
  cases he : body.exec K (enter K s p) with
  | mk s' e =>
    rw [he] at h
    simp only at h
    simp only [exit, h, Option.map_some]
    cases c <;> rfl

/-- **C47 is false** for a protocol object entered inside its own block: afterwards it stays active,
whatever was active before. -/
theorem reenter_false (K : Classes P) (p : P) (s : Scope P) :
    ((Block.within p (.within p .skip)).exec K s).1.current = some p := by
  apply within_exact
  simp [Block.exec, exit, enter, setProtocol]

/-- The names follow the active protocol. -/
def Scope.Bound (K : Classes P) (s : Scope P) : Prop :=
  ∀ n ∈ K.allFuncs, s.globals n = match s.current with
    | none => some .stub
    | some p => if n ∈ K.methods p then some (.method p n) else some .stub

omit [DecidableEq P] in
theorem bound_set (K : Classes P) (s : Scope P) (p : Option P) : (setProtocol K s p).Bound K := by
  intro n hn
  cases p with
  | none => simp [setProtocol, hn]
  | some q => simp [setProtocol, hn]

/-- **C47, names**: at every point of every program (re-entrant or not) that has switched protocols at
least once, each protocol function of the package is the method of the active protocol, and raises
"not implemented" if the active protocol does not have it. -/
theorem names_follow (K : Classes P) (b : Block P) (s : Scope P) (h : s.Bound K) :
    (b.exec K s).1.Bound K := by
  induction b generalizing s with
  | skip => exact h
  | raise => exact h
  | set q => exact bound_set K s q
  | seq a b iha ihb =>
    unfold Block.exec
    have := iha s h
    cases he : a.exec K s with
    | mk s' e =>
      rw [he] at this
      cases e with
      | true => exact this
      | false => exact ihb s' this
  | within p body ih =>
    unfold Block.exec
    have := ih (enter K s p) (bound_set K _ _)
    cases he : body.exec K (enter K s p) with
    | mk s' e =>
      rw [he] at this
      simp only
      cases hx : exit K s' p with
      | none => exact this
      | some s'' =>
        unfold exit at hx
        cases hl : s'.last p with
        | none => simp [hl] at hx
        | some c =>
          simp only [hl, Option.map_some, Option.some.injEq] at hx
          subst hx
          exact bound_set K _ _
  | guard body ih => exact ih s h

omit [DecidableEq P] in
/-- After `tfe.set_config` no protocol is active and every protocol function raises. -/
theorem config_resets (K : Classes P) (s : Scope P) (n : String) (h : n ∈ K.allFuncs) :
    (setProtocol K s none).current = none ∧ (setProtocol K s none).globals n = some .stub := by
  simp [setProtocol, h]

/-- A method that only a user-defined protocol has stays bound to it after its block. -/
theorem stale_name_false (K : Classes P) (p : P) (n : String) (hn : n ∈ K.methods p)
    (ha : n ∉ K.allFuncs) (s : Scope P) (hc : s.current = none) :
    ((Block.within p .skip).exec K s).1.current = none ∧
      ((Block.within p .skip).exec K s).1.globals n = some (.method p n) := by
  simp [Block.exec, exit, enter, setProtocol, hc, hn, ha]

/-- Two protocol objects, of which the first misses `"relu"`. -/
def twoClasses : Classes Bool := ⟨fun b => if b then ["add", "relu"] else ["add"], ["add", "relu"]⟩

example :
    let s : Scope Bool := setProtocol twoClasses ⟨none, fun _ => none, fun _ => none⟩ (some true)
    let b : Block Bool := .within false (.seq (.guard (.within true .raise)) (.set none))
    b.NoReentry ∧ s.Bound twoClasses ∧ (b.exec twoClasses s).1.current = some true ∧
      (b.exec twoClasses s).1.globals "relu" = some (.method true "relu") ∧
      (enter twoClasses s false).globals "relu" = some .stub := by
  refine ⟨by simp [Block.NoReentry, Block.Enters], bound_set _ _ _, rfl, ?_, ?_⟩ <;>
    simp [Block.exec, exit, enter, setProtocol, twoClasses]

end Verif.Runtime
