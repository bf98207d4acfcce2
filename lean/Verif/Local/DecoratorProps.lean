import Verif.Local.Decorator
import Verif.Local.Props

/-!
# C96: decorated functions run at the player that was named, on the arguments of the call

`Names` and `Denotes` are the specification of which player is meant.
-/

namespace Verif.Local

open Verif

/-! ## Specification -/

/-- The player that is named for a call: in the decorator; else by the keyword `player_name` of the
call; else by the attribute `player_name` of the first argument, as of the object of a method. -/
inductive Names {A : Type} (dec : Ref) (args : List (PyArg A)) (kw : List (String × PyArg A)) :
    Ref → Prop
  | decorator (h : dec ≠ .none) : Names dec args kw dec
  | keyword (a : PyArg A) (h : dec = .none) (hk : ("player_name", a) ∈ kw) (ha : a.self ≠ .none) :
      Names dec args kw a.self
  | object (a : PyArg A) (rest : List (PyArg A)) (h : dec = .none)
      (hk : ∀ b, ("player_name", b) ∈ kw → b.self = .none) (e : args = a :: rest)
      (ha : a.attr ≠ .none) : Names dec args kw a.attr

/-- The name `s` belongs to player `i` in a list of players, and to no earlier one. -/
def FirstNamed (ps : List Runtime.Player) (s : String) (i : ℕ) : Prop :=
  (∃ p, ps[i]? = some p ∧ p.name = s) ∧ ∀ j < i, ∀ p, ps[j]? = some p → p.name ≠ s

/-- In configuration `c` the reference means player `i`, and leaves configuration `c'`: a `Player` is
itself; a name is the first player of that name, and a local configuration may add a player for a new
name. -/
inductive Denotes : Conf → Ref → ℕ → Conf → Prop
  | object (c : Conf) (i : ℕ) : Denotes c (.player i) i c
  | known (c : Conf) (s : String) (i : ℕ) (h : FirstNamed c.players s i) : Denotes c (.name s) i c
  | added (c : Runtime.LocalConfig) (s : String) (h : c.autoAdd = true)
      (hn : ∀ p ∈ c.players, p.name ≠ s) (p : Runtime.Player) (hp : p.name = s) :
      Denotes (.loc c) (.name s) c.players.length
        (.loc { c with players := c.players ++ [p] })

variable {A V ω R : Type}

/-! ## Lemmas -/

theorem find_kw {kw : List (String × PyArg A)} (hn : (kw.map (·.1)).Nodup) {a : PyArg A}
    (ha : ("player_name", a) ∈ kw) : kwPlayer kw = a.self := by
  induction kw with
  | nil => simp at ha
  | cons k kw ih =>
    rw [List.map_cons, List.nodup_cons] at hn
    by_cases h : k.1 = "player_name"
    · have : k = ("player_name", a) := by
        rcases List.mem_cons.1 ha with rfl | h'
        · rfl
        · exact absurd (List.mem_map.2 ⟨_, h', h.symm⟩) hn.1
      subst this
      simp [kwPlayer]
    · have ha' : ("player_name", a) ∈ kw := by
        rcases List.mem_cons.1 ha with rfl | h'
        · exact absurd rfl h
        · exact h'
      have := ih hn.2 ha'
      simpa [kwPlayer, List.find?_cons, h] using this

theorem kwPlayer_none {kw : List (String × PyArg A)}
    (h : ∀ b, ("player_name", b) ∈ kw → b.self = .none) : kwPlayer kw = .none := by
  unfold kwPlayer
  cases e : kw.find? (fun k => k.1 == "player_name") with
  | none => rfl
  | some k =>
    have h1 := List.mem_of_find?_eq_some e
    have h2 := List.find?_some e
    simp only [beq_iff_eq] at h2
    obtain ⟨n, b⟩ := k
    subst h2
    exact h b h1

theorem kwPlayer_mem {kw : List (String × PyArg A)} (h : kwPlayer kw ≠ .none) :
    ∃ a, ("player_name", a) ∈ kw ∧ a.self = kwPlayer kw := by
  unfold kwPlayer at h ⊢
  cases e : kw.find? (fun k => k.1 == "player_name") with
  | none => simp [e] at h
  | some k =>
    have h1 := List.mem_of_find?_eq_some e
    have h2 := List.find?_some e
    simp only [beq_iff_eq] at h2
    obtain ⟨n, b⟩ := k
    subst h2
    exact ⟨b, h1, rfl⟩

theorem resolve_of_names {dec r : Ref} {args : List (PyArg A)} {kw : List (String × PyArg A)}
    (hn : (kw.map (·.1)).Nodup) (h : Names dec args kw r) : resolve dec args kw = r ∧ r ≠ .none := by
  cases h with
  | decorator h => simp [resolve, h]
  | keyword a h hk ha => simp [resolve, h, find_kw hn hk, ha]
  | object a rest h hk e ha => subst e; simp [resolve, h, kwPlayer_none hk, ha]

theorem names_of_resolve {dec : Ref} {args : List (PyArg A)} {kw : List (String × PyArg A)}
    (hn : (kw.map (·.1)).Nodup) (h : resolve dec args kw ≠ .none) :
    Names dec args kw (resolve dec args kw) := by
  by_cases hd : dec = .none
  · by_cases hk : kwPlayer kw = .none
    · cases args with
      | nil => simp [resolve, hd, hk] at h
      | cons a rest =>
        have e : resolve dec (a :: rest) kw = a.attr := by simp [resolve, hd, hk]
        rw [e] at h ⊢
        exact .object a rest hd (fun b hb => by rw [← hk, find_kw hn hb]) rfl h
    · obtain ⟨a, ha, e⟩ := kwPlayer_mem hk
      have e' : resolve dec args kw = a.self := by simp [resolve, hd, hk, e]
      rw [e']
      exact .keyword a hd ha (by rw [e]; exact hk)
  · have e : resolve dec args kw = dec := by simp [resolve, hd]
    rw [e]
    exact .decorator hd

theorem findIdx_iff (ps : List Runtime.Player) (s : String) (i : ℕ) :
    ps.findIdx? (fun p => p.name == s) = some i ↔ FirstNamed ps s i := by
  rw [List.findIdx?_eq_some_iff_getElem]
  constructor
  · rintro ⟨h, h1, h2⟩
    refine ⟨⟨ps[i], List.getElem?_eq_getElem h, by simpa using h1⟩, fun j hj p hp => ?_⟩
    have := h2 j hj
    rw [List.getElem?_eq_getElem (by omega)] at hp
    cases hp
    simpa using this
  · rintro ⟨⟨p, h1, h2⟩, h3⟩
    obtain ⟨h, e⟩ := List.getElem?_eq_some_iff.1 h1
    refine ⟨h, by simp [e, h2], fun j hj => ?_⟩
    have := h3 j hj _ (List.getElem?_eq_getElem (by omega))
    simpa using this

theorem denotes_name {c c' : Conf} {s : String} {i : ℕ} (h : c.getPlayer s = (c', some i)) :
    Denotes c (.name s) i c' := by
  cases c with
  | rem c =>
    simp only [Conf.getPlayer, Prod.mk.injEq] at h
    obtain ⟨rfl, h⟩ := h
    exact .known _ _ _ ((findIdx_iff _ _ _).1 h)
  | loc c =>
    simp only [Conf.getPlayer, Runtime.LocalConfig.getPlayer] at h
    cases e : c.players.findIdx? (fun p => p.name == s) with
    | some j =>
      simp only [e, Prod.mk.injEq, Option.some.injEq] at h
      obtain ⟨rfl, rfl⟩ := h
      exact .known _ _ _ ((findIdx_iff _ _ _).1 e)
    | none =>
      by_cases ha : c.autoAdd = true
      · simp only [e, ha, if_true, Prod.mk.injEq, Option.some.injEq] at h
        obtain ⟨rfl, rfl⟩ := h
        refine .added c s ha (fun p hp => ?_) _ rfl
        have := List.findIdx?_eq_none_iff.1 e p hp
        simpa using this
      · simp [e, ha] at h

theorem getPlayer_none {c c' : Conf} {s : String} (h : c.getPlayer s = (c', none)) :
    c' = c ∧ (∀ p ∈ c.players, p.name ≠ s) := by
  cases c with
  | rem c =>
    simp only [Conf.getPlayer, Prod.mk.injEq] at h
    obtain ⟨rfl, h⟩ := h
    refine ⟨rfl, fun p hp => ?_⟩
    have := List.findIdx?_eq_none_iff.1 h p hp
    simpa using this
  | loc c =>
    simp only [Conf.getPlayer, Runtime.LocalConfig.getPlayer] at h
    cases e : c.players.findIdx? (fun p => p.name == s) with
    | some j => simp [e] at h
    | none =>
      by_cases ha : c.autoAdd = true
      · simp [e, ha] at h
      · simp only [e, ha, Prod.mk.injEq] at h
        refine ⟨by simpa using h.1.symm, fun p hp => ?_⟩
        have := List.findIdx?_eq_none_iff.1 e p hp
        simpa using this

/-! ## Theorems -/

/-- The three ways of writing the decorator — bare, with empty parentheses, with `None` — decorate alike,
and decorating never raises or computes anything. -/
theorem forms_agree (P : Proto A V ω R) (opts : List (String × ω)) (f : Func V) :
    ∃ d, localComputation P (.ref .none) opts = .decorator d ∧
      localComputation P (.func f) opts = .wrapped (d f) :=
  ⟨_, rfl, rfl⟩

/-- **C96, the player.** Every call of a decorated function for which a player is named, with options that
the protocol has: if the reference means a player, then `define_local_computation` is run at that player,
once, on the positional arguments in their order; otherwise the call raises and leaves the configuration
as it is. -/
theorem runs_at_named (P : Proto A V ω R) {dec r : Ref} {opts : List (String × ω)} (f : Func V)
    (c : Conf) {args : List (PyArg A)} {kw : List (String × PyArg A)} (hkw : (kw.map (·.1)).Nodup)
    (ho : ∀ o ∈ opts, o.1 ∈ P.known) (hr : Names dec args kw r) :
    (∃ i c', Denotes c r i c' ∧
      decorator P dec opts f c args kw =
        (c', P.body i (fun vs => f vs []) (args.map (·.val)) opts)) ∨
    ((r = .other ∨ ∃ s, r = .name s ∧ ∀ p ∈ c.players, p.name ≠ s) ∧
      decorator P dec opts f c args kw = (c, .error .assertion)) := by
  obtain ⟨e, hne⟩ := resolve_of_names hkw hr
  have hany : opts.any (fun o => decide (o.1 ∉ P.known)) = false := by
    rw [List.any_eq_false]
    intro o hm
    simpa using ho o hm
  rw [decorator, e, if_neg hne]
  unfold define
  rw [hany, if_neg (by simp)]
  cases r with
  | none => exact absurd rfl hne
  | other => exact .inr ⟨.inl rfl, rfl⟩
  | player i => exact .inl ⟨i, c, .object c i, rfl⟩
  | name s =>
    cases hg : c.getPlayer s with
    | mk c' o =>
      cases o with
      | some i => exact .inl ⟨i, c', denotes_name hg, by simp only [hg]⟩
      | none =>
        obtain ⟨rfl, h⟩ := getPlayer_none hg
        exact .inr ⟨.inr ⟨s, rfl, h⟩, by simp only [hg]⟩

/-- The function `f` under a decorator as it is written: `@local_computation`, which names no player, or
`@local_computation(r)`. -/
inductive Written (f : Func V) : DecArg V → Ref → Prop
  | bare : Written f (.func f) .none
  | called (r : Ref) : Written f (.ref r) r

/-- What the name of `f` is bound to after the definition: for `@local_computation` its result, for
`@local_computation(r)` its result applied to `f`. -/
def Decorated.bound (f : Func V) : Decorated A V R → Wrapped A R
  | .decorator d => d f
  | .wrapped g => g

/-- **C96, as written.** A decorated function, in either way of writing the decorator: every call for which
a player is named runs `define_local_computation` at that player, or raises if there is none; a call for
which none is named raises `ValueError`. -/
theorem written_runs_at_named (P : Proto A V ω R) {d : DecArg V} {dec : Ref}
    {opts : List (String × ω)} {f : Func V} (hw : Written f d dec) (c : Conf)
    {args : List (PyArg A)} {kw : List (String × PyArg A)} (hkw : (kw.map (·.1)).Nodup)
    (ho : ∀ o ∈ opts, o.1 ∈ P.known) :
    (∀ r, Names dec args kw r →
      (∃ i c', Denotes c r i c' ∧
        (localComputation P d opts).bound f c args kw =
          (c', P.body i (fun vs => f vs []) (args.map (·.val)) opts)) ∨
      ((r = .other ∨ ∃ s, r = .name s ∧ ∀ p ∈ c.players, p.name ≠ s) ∧
        (localComputation P d opts).bound f c args kw = (c, .error .assertion))) ∧
    ((¬ ∃ r, Names dec args kw r) →
      (localComputation P d opts).bound f c args kw = (c, .error .value)) := by
  have e : (localComputation P d opts).bound f = decorator P dec opts f := by
    cases hw <;> rfl
  rw [e]
  refine ⟨fun r hr => runs_at_named P f c hkw ho hr, fun h => ?_⟩
  by_cases hr : resolve dec args kw = .none
  · simp [decorator, hr]
  · exact absurd ⟨_, names_of_resolve hkw hr⟩ h

/-- `@local_computation("bob")` above a function names Bob whatever the call says. -/
example (f : Func V) (args : List (PyArg A)) (kw : List (String × PyArg A)) :
    Written f (.ref (.name "bob")) (.name "bob") ∧ Names (.name "bob") args kw (.name "bob") :=
  ⟨.called _, .decorator (by simp)⟩

/-- **C96, no player.** If no player is named, the call raises `ValueError`, before anything is computed and
with the configuration unchanged. (Otherwise `runs_at_named` or `unknown_option_raises` applies.) -/
theorem unnamed_raises (P : Proto A V ω R) (dec : Ref) (opts : List (String × ω)) (f : Func V)
    (c : Conf) (args : List (PyArg A)) (kw : List (String × PyArg A))
    (hkw : (kw.map (·.1)).Nodup) (h : ¬ ∃ r, Names dec args kw r) :
    decorator P dec opts f c args kw = (c, .error .value) := by
  by_cases hr : resolve dec args kw = .none
  · simp [decorator, hr]
  · exact absurd ⟨_, names_of_resolve hkw hr⟩ h

/-- The player that is named is unique. -/
theorem names_unique {dec r r' : Ref} {args : List (PyArg A)} {kw : List (String × PyArg A)}
    (hkw : (kw.map (·.1)).Nodup) (h : Names dec args kw r) (h' : Names dec args kw r') : r = r' := by
  rw [← (resolve_of_names hkw h).1, ← (resolve_of_names hkw h').1]

/-- Options that the protocol does not have raise `TypeError`, but only when the decorated function is
called. -/
theorem unknown_option_raises (P : Proto A V ω R) {dec r : Ref} {opts : List (String × ω)}
    (f : Func V) (c : Conf) {args : List (PyArg A)} {kw : List (String × PyArg A)}
    (hkw : (kw.map (·.1)).Nodup) {o : String × ω} (ho : o ∈ opts) (hu : o.1 ∉ P.known)
    (hr : Names dec args kw r) :
    decorator P dec opts f c args kw = (c, .error .type) := by
  obtain ⟨e, hne⟩ := resolve_of_names hkw hr
  have hany : opts.any (fun o => decide (o.1 ∉ P.known)) = true :=
    List.any_eq_true.2 ⟨o, ho, by simpa using hu⟩
  rw [decorator, e, if_neg hne]
  unfold define
  rw [if_pos hany]

/-- Keyword arguments other than `player_name` have no effect, whatever the function does with them. -/
theorem keywords_ignored (P : Proto A V ω R) (dec : Ref) (opts : List (String × ω)) (f g : Func V)
    (c : Conf) (args : List (PyArg A)) (kw kw' : List (String × PyArg A))
    (hk : kwPlayer kw = kwPlayer kw') (hfg : ∀ vs, f vs [] = g vs []) :
    decorator P dec opts f c args kw = decorator P dec opts g c args kw' := by
  have : (fun vs => f vs []) = fun vs => g vs [] := funext hfg
  have hr : resolve dec args kw = resolve dec args kw' := by
    unfold resolve
    rw [hk]
  unfold decorator
  rw [hr, this]

/-- **C96 (ABY3), in part.** Missing: calls with keyword arguments other than `player_name`
(`keywords_false`), and what C49 lacks.

The decorated function returns what the function makes of the true values of the arguments, shared as the
options of the decorator say, and the player that was named computes it. -/
theorem decorated_aby3_partial (w frac : ℕ) (servers : Fin 3 → ℕ) {dec r : Ref}
    {opts : List (String × Opt)} (f : Func Vec) {c : Conf} {args : List (PyArg Aby3.Arg)}
    {kw : List (String × PyArg Aby3.Arg)} (hkw : (kw.map (·.1)).Nodup)
    (ho : ∀ o ∈ opts, o.1 ∈ ["apply_scaling", "share_type", "name_scope", "factory"])
    (ht : tagOr opts ≠ .pub) (hr : Names dec args kw r)
    (hp : (∃ i, r = .player i) ∨ ∃ s, r = .name s ∧ ∃ p ∈ c.players, p.name = s)
    (hfit : ∀ a ∈ args, Aby3.Fits (tagOr opts) a.val) {vals vs : List Vec}
    (hargs : List.Forall₂ (Aby3.Truth frac) (args.map (·.val)) vals)
    (hvs : (f vals []).vecs? = some vs) :
    ∃ i c' m, Denotes c r i c' ∧
      decorator (aby3 w frac servers) dec opts f c args kw = (c', .ok m) ∧
      Aby3.defineLocal (widthOr opts w) frac (serverOf servers i) (fun vs => f vs [])
        (args.map (·.val)) (flagOr opts "apply_scaling" true) (tagOr opts) = .ok m ∧
      Verif.Aby3.M.All (fun x => SameForm (f vals []) x ∧
        List.Forall₂ (Aby3.Gives (widthOr opts w) frac (flagOr opts "apply_scaling" true)
          (tagOr opts)) vs x.toList) m := by
  rcases runs_at_named (aby3 w frac servers) (opts := opts) f c hkw ho hr with
    ⟨i, c', hd, e⟩ | ⟨h, -⟩
  · obtain ⟨m, hm, hall⟩ := Aby3.local_spec_partial (widthOr opts w) frac (serverOf servers i)
      (fun vs => f vs []) (flagOr opts "apply_scaling" true) ht
      (by simpa using hfit) hargs hvs
    exact ⟨i, c', m, hd, by rw [e]; exact congrArg (Prod.mk c') hm, hm, hall⟩
  · exfalso
    rcases h with rfl | ⟨s, rfl, h⟩
    · rcases hp with ⟨i, h⟩ | ⟨s, h, -⟩ <;> cases h
    · rcases hp with ⟨i, h'⟩ | ⟨s', h', p, hp, hs⟩
      · cases h'
      · cases h'
        exact h p hp hs

/-- **C96 (Pond), in part.** Missing: calls with keyword arguments other than `player_name`
(`keywords_ignored`), and `masked=True` (C49). -/
theorem decorated_pond_partial (F : Fixed.Factory) (fc : Fixed.Config) {dec r : Ref}
    {opts : List (String × Opt)} (f : Func Vec) {c : Conf} {args : List (PyArg (Pond.Arg F))}
    {kw : List (String × PyArg (Pond.Arg F))} (hkw : (kw.map (·.1)).Nodup)
    (ho : ∀ o ∈ opts, o.1 ∈ ["apply_scaling", "name_scope", "masked", "factory"])
    (hm : flagOr opts "masked" false = false) (hr : Names dec args kw r)
    (hp : (∃ i, r = .player i) ∨ ∃ s, r = .name s ∧ ∃ p ∈ c.players, p.name = s)
    {vals vs : List Vec} (hargs : List.Forall₂ (Pond.Truth fc) (args.map (·.val)) vals)
    (hvs : (f vals []).vecs? = some vs) :
    ∃ i c' m, Denotes c r i c' ∧
      decorator (pond F fc) dec opts f c args kw = (c', .ok m) ∧
      m.All fun x => SameForm (f vals []) x ∧
        List.Forall₂ (Pond.Gives fc (flagOr opts "apply_scaling" true)) vs x.toList := by
  rcases runs_at_named (pond F fc) (opts := opts) f c hkw ho hr with ⟨i, c', hd, e⟩ | ⟨h, -⟩
  · obtain ⟨m, hm', hall⟩ := Pond.local_spec_partial (F := F) fc (fun vs => f vs [])
      (flagOr opts "apply_scaling" true) hargs hvs
    refine ⟨i, c', m, hd, ?_, hall⟩
    rw [e]
    refine congrArg (Prod.mk c') ?_
    show Pond.defineLocal fc _ _ _ (flagOr opts "masked" false) = _
    rw [hm]
    exact hm'
  · exfalso
    rcases h with rfl | ⟨s, rfl, h⟩
    · rcases hp with ⟨i, h⟩ | ⟨s, h, -⟩ <;> cases h
    · rcases hp with ⟨i, h'⟩ | ⟨s', h', p, hp, hs⟩
      · cases h'
      · cases h'
        exact h p hp hs

/-- A program that cannot end does not exist. -/
theorem all_false {α : Type} : ∀ {m : RandM Verif.Aby3.T α}, ¬ m.All fun _ => False
  | .pure _, h => h
  | .sample s _, h => all_false (h (0 : Verif.Aby3.T s))
  | .coin _, h => all_false (h default)

/-! ## A concrete case, and the negation -/

/-- `def scaled(x, times=1): return x * times`. -/
def scaled : Func Vec := fun vs kw =>
  match vs with
  | [v] =>
    match kw.lookup "times" with
    | some t => .tensor ⟨v.n, fun i => v.val i * if h : 0 < t.n then t.val ⟨0, h⟩ else 1⟩ true
    | none => .tensor v true
  | _ => .other

/-- One plain argument with the value one. -/
def oneArg : PyArg Aby3.Arg := ⟨.plain ⟨1, fun _ => 1⟩, .other, .none⟩

/-- The keyword argument `times=3`. -/
def threeArg : PyArg Aby3.Arg := ⟨.plain ⟨1, fun _ => 3⟩, .other, .none⟩

/-- `player_name="bob"`. -/
def bobArg : PyArg Aby3.Arg := ⟨.backing, .name "bob", .none⟩

/-- Two players. -/
def twoPlayers : Conf := .loc (Runtime.LocalConfig.new ["alice", "bob"])

/-- The hypotheses of `decorated_aby3_partial` hold for `scaled(1, player_name="bob")` under a bare
decorator, and the player is the second one. -/
example : Names .none [oneArg] [("player_name", bobArg)] (.name "bob") ∧
    Denotes twoPlayers (.name "bob") 1 twoPlayers ∧
    (∃ p ∈ twoPlayers.players, p.name = "bob") ∧
    (∀ a ∈ [oneArg], Aby3.Fits (tagOr []) a.val) ∧
    List.Forall₂ (Aby3.Truth 4) ([oneArg].map (·.val)) [⟨1, fun _ => 1⟩] ∧
    (scaled [⟨1, fun _ => 1⟩] []).vecs? = some [⟨1, fun _ => 1⟩] := by
  refine ⟨.keyword bobArg rfl (by simp) (by simp [bobArg]), .known _ _ _ ?_, ?_, ?_, ?_, rfl⟩
  · refine ⟨⟨_, rfl, rfl⟩, fun j hj p hp => ?_⟩
    obtain rfl : j = 0 := by omega
    cases hp
    decide
  · exact ⟨_, by simp [twoPlayers, Conf.players, Runtime.LocalConfig.new,
      Runtime.LocalConfig.addPlayer]; exact .inr rfl, rfl⟩
  · simp [oneArg, Aby3.Fits]
  · exact .cons rfl .nil

/-- The object of a method names its player; the keyword of the call comes first. -/
example : Names .none [⟨Aby3.Arg.backing, .other, .name "alice"⟩] [] (.name "alice") ∧
    Names .none [⟨Aby3.Arg.backing, .other, .name "alice"⟩] [("player_name", bobArg)]
      (.name "bob") :=
  ⟨.object _ _ rfl (by simp) rfl (by simp),
    .keyword bobArg rfl (by simp) (by simp [bobArg])⟩

/-- **C96 is false for calls with keyword arguments.** The decorated function does not compute what the
function makes of the arguments of the call: `scaled(1, times=3, player_name="bob")` is a sharing
of 1, not of 3. -/
theorem keywords_false : ¬ ∀ (f : Func Vec) (args kw : List (PyArg Aby3.Arg)) (names : List String)
    (vals kwvals vs : List Vec), names.Nodup → "player_name" ∉ names → names.length = kw.length →
    List.Forall₂ (Aby3.Truth 4) (args.map (·.val)) vals →
    List.Forall₂ (Aby3.Truth 4) (kw.map (·.val)) kwvals →
    (f vals (names.zip kwvals)).vecs? = some vs →
    ∃ c' m, decorator (aby3 64 4 ![0, 1, 2]) .none [] f twoPlayers args
        (("player_name", bobArg) :: names.zip kw) = (c', .ok m) ∧
      Verif.Aby3.M.All (fun x => List.Forall₂ (Aby3.Gives 64 4 true .arithmetic) vs x.toList) m := by
  intro hall
  obtain ⟨c', m, e, hm⟩ := hall scaled [oneArg] [threeArg] ["times"] [⟨1, fun _ => 1⟩]
    [⟨1, fun _ => 3⟩] [⟨1, fun _ => 1 * 3⟩] (by simp) (by simp) rfl (.cons rfl .nil)
    (.cons rfl .nil) (by simp [scaled, Out.vecs?])
  obtain ⟨i, c'', m', -, e', -, hm'⟩ := decorated_aby3_partial 64 4 ![0, 1, 2] (dec := .none)
    (opts := []) (c := twoPlayers) (args := [oneArg])
    (kw := ("player_name", bobArg) :: ["times"].zip [threeArg]) (r := .name "bob") scaled
    (by simp) (by simp) (by simp [tagOr]) (.keyword bobArg rfl (by simp) (by simp [bobArg]))
    (.inr ⟨_, rfl, _, List.mem_of_getElem? (i := 1) rfl, rfl⟩) (by simp [oneArg, Aby3.Fits])
    (vals := [⟨1, fun _ => 1⟩]) (.cons rfl .nil) (vs := [⟨1, fun _ => 1⟩]) rfl
  rw [e] at e'
  cases e'
  refine all_false (RandM.All.mono ?_ (RandM.All.and hm hm'))
  rintro ⟨x, log⟩ ⟨h1, h3, h2⟩
  simp only at h1 h2 h3
  cases x with
  | nothing => simp [Res.toList] at h1
  | many xs => simp [scaled, SameForm] at h3
  | one x =>
    simp only [Res.toList, List.forall₂_cons] at h1 h2
    obtain ⟨u, hu, hu'⟩ := Aby3.local_reveals 64 4 (by norm_num) h1.1 (by norm_num) none
    obtain ⟨v, hv, hv'⟩ := Aby3.local_reveals 64 4 (by norm_num) h2.1 (by norm_num) none
    have e : Except.ok (ε := Err) (⟨1, u⟩ : Vec) = .ok ⟨1, v⟩ := hu.symm.trans hv
    cases e
    have a := (abs_lt.1 (hu' 0).1).1
    have b := (abs_lt.1 (hv' 0).1).2
    norm_num at a b
    linarith

end Verif.Local
