import Verif.Local.PublicInput
import Verif.Local.VariablesProps
import Verif.Runtime.ConfigProps

/-!
# C100: a public input reaches all servers
-/

namespace Verif.Local

open Verif

/-- If every tensor is taken, the results are what the helper makes of the inputs, in order. -/
theorem perInput_ok {A : Type} {helper : RetVal → Except Err A} {f : Vec → A}
    (hf : ∀ v, helper (.tensor v true) = .ok (f v)) {o : Out} {vs : List Vec} (ho : o.vecs? = some vs)
    (hn : o ≠ .nothing) : ∃ r, perInput helper o = .ok r ∧ SameForm o r ∧ r.toList = vs.map f := by
  cases o with
  | nothing => exact absurd rfl hn
  | other => cases ho
  | tensor v static =>
    cases static with
    | false => cases ho
    | true =>
      cases ho
      exact ⟨.one (f v), by simp [perInput, hf], trivial, rfl⟩
  | list rs =>
    have key : ∀ (rs : List RetVal) (vs : List Vec), rs.mapM RetVal.vec? = some vs →
        each helper rs = .ok (vs.map f) := by
      intro rs
      induction rs with
      | nil => intro vs h; cases h; rfl
      | cons r rs ih =>
        intro vs h
        rw [List.mapM_cons] at h
        cases hr : r.vec? with
        | none => rw [hr] at h; cases h
        | some v =>
          cases hrs : rs.mapM RetVal.vec? with
          | none => rw [hr, hrs] at h; cases h
          | some us =>
            rw [hr, hrs] at h
            cases h
            cases Pond.vec_some hr
            simp [each, hf, ih us hrs]
    exact ⟨.many (vs.map f), by simp [perInput, key rs vs ho], by
      simp [SameForm, mapM_length ho], rfl⟩

namespace Aby3
open Verif.Aby3

/-- **C100 (ABY3), in part.** In a local configuration, whatever players were added, a public input gives for
every tensor of the player a public tensor of its data (see `public_from_data`). Missing: remote
configurations (`remote_raises`). -/
theorem public_input_partial (names : List String) (job : String) (auto : Bool)
    (hist : List Runtime.LocalOp) {servers : Fin 3 → Runtime.Player} {player : Runtime.Player}
    (hs : ∀ i, servers i ∈ ((Runtime.LocalConfig.new names job auto).run hist).players)
    (hp : player ∈ ((Runtime.LocalConfig.new names job auto).run hist).players)
    (w frac : ℕ) (apply : Bool) {o : Out} {vs : List Vec} (ho : o.vecs? = some vs) (hn : o ≠ .nothing) :
    ∃ r, publicInput servers player w frac apply o = .ok r ∧ SameForm o r ∧
      r.toList = vs.map (constant w frac apply) := by
  refine perInput_ok (fun v => ?_) ho hn
  have : ∀ i, player.device = (servers i).device := fun i =>
    Runtime.local_devices_false names job auto hist _ _ hp (hs i)
  simp only [inputHelper, mkPublic, constant]
  rw [if_pos this]

/-- **C100 is false (ABY3).** In every remote configuration, whichever different players are the servers and
whoever gives the input, a public input of one tensor, or of a list that begins with one, raises
`AssertionError`. -/
theorem remote_raises (hostmap : List (String × String)) (job : String) (debug : Bool)
    {servers : Fin 3 → Runtime.Player} {pos : Fin 3 → ℕ} (player : Runtime.Player)
    (hs : ∀ i, (Runtime.RemoteConfig.new hostmap job debug).players[pos i]? = some (servers i))
    (hpos : pos 0 ≠ pos 1) (w frac : ℕ) (apply : Bool) (v : Vec) (static : Bool) (rest : List RetVal) :
    publicInput servers player w frac apply (.tensor v static) = .error .assertion ∧
    publicInput servers player w frac apply (.list (.tensor v static :: rest)) = .error .assertion := by
  have hne := (Runtime.remote_devices hostmap job debug _ _ _ _ (hs 0) (hs 1) hpos).1
  have h : inputHelper servers player w frac apply (.tensor v static) = .error .assertion := by
    cases static with
    | false => rfl
    | true =>
      have : ¬ ∀ i, player.device = (servers i).device := fun h => hne ((h 0).symm.trans (h 1))
      simp [inputHelper, mkPublic, this]
  simp [publicInput, perInput, each, h]

/-- The host map of the documentation: three servers and an owner of data. -/
def hosts : List (String × String) :=
  [("server0", "a:1"), ("server1", "b:1"), ("server2", "c:1"), ("owner", "d:1")]

/-- **C100 is false**: not every public input of a tensor is taken. -/
theorem public_input_false : ¬ ∀ (servers : Fin 3 → Runtime.Player) (player : Runtime.Player)
    (hostmap : List (String × String)),
    (∀ i, servers i ∈ (Runtime.RemoteConfig.new hostmap).players) →
    player ∈ (Runtime.RemoteConfig.new hostmap).players → ∀ (w frac : ℕ) (apply : Bool) (v : Vec),
    ∃ r, publicInput servers player w frac apply (.tensor v true) = .ok r := by
  intro h
  let servers : Fin 3 → Runtime.Player := ![⟨"server0", 0, ("tfe", 0), some "a:1"⟩,
    ⟨"server1", 1, ("tfe", 1), some "b:1"⟩, ⟨"server2", 2, ("tfe", 2), some "c:1"⟩]
  obtain ⟨r, e⟩ := h servers ⟨"owner", 3, ("tfe", 3), some "d:1"⟩ hosts
    (by intro i; fin_cases i <;> decide) (by decide) 64 0 true ⟨1, fun _ => 1⟩
  have := (remote_raises hosts "tfe" false (servers := servers) (pos := fun i => i.val)
    ⟨"owner", 3, ("tfe", 3), some "d:1"⟩ (by intro i; fin_cases i <;> rfl) (by decide) 64 0 true
    ⟨1, fun _ => 1⟩ true []).1
  rw [this] at e
  cases e

/-- A concrete case of `public_input_partial`: the default players. -/
example : ∀ n ∈ ["server0", "server1", "server2", "owner"], ∃ p ∈
    ((Runtime.LocalConfig.new ["server0", "server1", "server2"]).run [.get "owner"]).players, p.name = n := by
  decide

end Aby3

namespace Pond
open Verif.Pond

variable {F : Fixed.Factory}

/-- **C100 (Pond).** In every configuration a public input gives for every tensor of the player a public tensor
of its data (see `public_from_data`). -/
theorem public_input (server0 server1 : Runtime.Player) (c : Fixed.Config) (apply : Bool) {o : Out}
    {vs : List Vec} (ho : o.vecs? = some vs) (hn : o ≠ .nothing) :
    ∃ r, publicInput (F := F) server0 server1 c apply o = .ok r ∧ SameForm o r ∧
      r.toList = vs.map (constant c apply) :=
  perInput_ok (fun v => by simp [inputHelper, mkPublic, constant]) ho hn

/-- Functions that return nothing, other objects, or tensors whose shape is not known are refused. -/
theorem public_input_refused (server0 server1 : Runtime.Player) (c : Fixed.Config) (apply : Bool) (v : Vec) :
    publicInput (F := F) server0 server1 c apply .nothing = .error .type ∧
    publicInput (F := F) server0 server1 c apply .other = .error .type ∧
    publicInput (F := F) server0 server1 c apply (.tensor v false) = .error .assertion :=
  ⟨rfl, rfl, rfl⟩

/-- A concrete case: a list of two tensors. -/
example (u v : Vec) : (Out.list [.tensor u true, .tensor v true]).vecs? = some [u, v] := rfl

end Pond

end Verif.Local
