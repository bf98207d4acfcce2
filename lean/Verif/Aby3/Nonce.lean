import Mathlib.Data.Fin.Basic
import Mathlib.Data.List.Basic
import Mathlib.Algebra.Group.Fin.Basic

/-!
# Keys and nonces of ABY3

`tf_encrypted/protocol/aby3/aby3.py`. Every random value that two servers share is drawn by both of
them from a seed: a key that they hold both, plus a nonce (`sample_seeded_uniform(shape, key +
nonce)`). The model records each such draw: which server draws, with which key, at which nonce, and
for which value.
-/

namespace Verif.Aby3.Nonce

/-- A key: `seed_i` of `_setup_pairwise_randomness` (146-196) or of the two key sets of
`_setup_b2a_generator` (198-282). -/
inductive KeyId
  /-- pairwise key -/
  | pair (i : Fin 3)
  /-- key `i` of set `t` -/
  | b2a (t : Bool) (i : Fin 3)
deriving DecidableEq

/-- `pairwise_keys()[s][k]` (aby3.py:182-190). -/
def pairKey (s : Fin 3) (k : Fin 2) : KeyId :=
  match s, k with
  | 0, 0 => .pair 0
  | 0, 1 => .pair 1
  | 1, 0 => .pair 1
  | 1, 1 => .pair 2
  | 2, 0 => .pair 2
  | 2, 1 => .pair 0

/-- `b2a_keys_1[s][k]` (aby3.py:230-240) and `b2a_keys_2[s][k]` (aby3.py:267-277). -/
def b2aKey (t : Bool) (s k : Fin 3) : Option KeyId :=
  match t, s, k with
  | false, 2, 1 => none
  | true, 0, 2 => none
  | t, _, k => some (.b2a t k)

/-- A counter: `pairwise_nonces()[i]` or `b2a_nonce()`. -/
inductive Counter
  /-- pairwise -/
  | pair (i : Fin 3)
  /-- for `_gen_b2a_sharing` -/
  | b2a

/-- One draw by one server, for the value with serial number `value`. -/
structure Use where
  /-- who -/
  server : Fin 3
  /-- with which key -/
  key : KeyId
  /-- at which nonce -/
  nonce : ℕ
  /-- for which value; the servers that are to draw the same value have the same number here -/
  value : ℕ
deriving DecidableEq

/-- What an operation does with keys and counters. -/
inductive Step
  /-- the listed servers draw one common value with the listed keys at the counter's nonce -/
  | draw (holders : List (Fin 3 × KeyId)) (at_ : Counter)
  /-- `_update_pairwise_nonces` (aby3.py:118-119) -/
  | bump
  /-- `_update_b2a_nonce` (aby3.py:136-137) -/
  | bumpB2a

/-- The counters, and what has been drawn. -/
structure State where
  /-- `pairwise_nonces_` -/
  nonces : Fin 3 → ℕ
  /-- `b2a_nonce_` -/
  b2aNonce : ℕ
  /-- the draws so far -/
  log : List Use
  /-- the next serial number -/
  next : ℕ

/-- `reset` (aby3.py:99-106). -/
def State.init : State := ⟨fun _ => 0, 0, [], 0⟩

/-- The value of a counter. -/
def State.at_ (st : State) : Counter → ℕ
  | .pair i => st.nonces i
  | .b2a => st.b2aNonce

/-- Do one step. -/
def Step.run (st : State) : Step → State
  | .draw hs c => { st with
      log := st.log ++ hs.map fun h => ⟨h.1, h.2, st.at_ c, st.next⟩
      next := st.next + 1 }
  | .bump => { st with nonces := fun i => st.nonces i + 1 }
  | .bumpB2a => { st with b2aNonce := st.b2aNonce + 1 }

/-- The six draws of `_gen_zero_sharing` (aby3.py:949-982) and `_gen_random_sharing` (aby3.py:985-1018):
`f00`/`f21`, `f01`/`f10`, `f11`/`f20`. -/
def sharingSteps : List Step :=
  [.draw [(0, pairKey 0 0), (2, pairKey 2 1)] (.pair 2),
   .draw [(0, pairKey 0 1), (1, pairKey 1 0)] (.pair 0),
   .draw [(1, pairKey 1 1), (2, pairKey 2 0)] (.pair 1),
   .bump]

/-- The draws of the two transfers of `__mul_ab_routine` (aby3.py:4048-4078), after its zero sharing. -/
def otSteps (idx0 : Fin 3) : List Step :=
  [.draw [(idx0, pairKey idx0 0), (idx0 + 2, pairKey (idx0 + 2) 1)] (.pair (idx0 + 2)),
   .draw [(idx0, pairKey idx0 1), (idx0 + 1, pairKey (idx0 + 1) 0)] (.pair idx0),
   .bump]

/-- The servers that hold key `k` of set `t`. -/
def b2aHolders (t : Bool) (k : Fin 3) : List (Fin 3 × KeyId) :=
  (List.finRange 3).filterMap fun s => (b2aKey t s k).map fun key => (s, key)

/-- `_gen_b2a_sharing` (aby3.py:1022-1067). -/
def b2aSteps (t : Bool) : List Step :=
  [.draw (b2aHolders t 0) .b2a, .draw (b2aHolders t 1) .b2a, .draw (b2aHolders t 2) .b2a, .bumpB2a]

/-- The operations that draw. All others (products, conversions, comparisons, ...) call these. -/
inductive Op
  /-- `_gen_zero_sharing`: products, `and`, matrix products, convolutions, conversions -/
  | zeroSharing
  /-- `_gen_random_sharing`: `mul_trunc2` -/
  | randomSharing
  /-- `__mul_ab_routine` (aby3.py:4023-4080) with this sender -/
  | mulAb (sender : Fin 3)
  /-- `_gen_b2a_sharing` with the first or the second key set -/
  | b2aSharing (t : Bool)
  /-- `_truncate_local_private` (aby3.py:2711-2761) -/
  | truncLocal
  /-- `_truncate_msb0_secureq8_private` (aby3.py:2848-2950) -/
  | truncSecureQ8
  /-- `_truncate_msb0_cheetah_private` (aby3.py:2764-2845) -/
  | truncCheetah
deriving DecidableEq

/-- What each of them draws. `_truncate_msb0_cheetah_private` draws at the current nonces (2801-2824)
and calls `b2a_single` (2834), that is `__mul_ab_routine` from server 2, without an update. -/
def Op.steps : Op → List Step
  | .zeroSharing => sharingSteps
  | .randomSharing => sharingSteps
  | .mulAb i => sharingSteps ++ otSteps i
  | .b2aSharing t => b2aSteps t
  | .truncLocal => [.draw [(2, pairKey 2 0), (1, pairKey 1 1)] (.pair 1), .bump]
  | .truncSecureQ8 =>
    [.draw [(2, pairKey 2 1), (0, pairKey 0 0)] (.pair 2),
     .draw [(2, pairKey 2 0), (1, pairKey 1 1)] (.pair 1), .bump]
  | .truncCheetah =>
    [.draw [(0, pairKey 0 0), (2, pairKey 2 1)] (.pair 2),
     .draw [(0, pairKey 0 1), (1, pairKey 1 0)] (.pair 0)] ++ sharingSteps ++ otSteps 2

/-- Run an operation eagerly. -/
def Op.run (st : State) (o : Op) : State := o.steps.foldl Step.run st

/-- A function compiled with `tfe.function` (protocol.py:165-192), or the body of a graph-mode
`while_loop` (aby3.py:3682-3741): the Python code runs once, when it is traced; the nonces, being
Python numbers, become constants of the graph, and every later call runs the graph again. -/
structure Fn where
  /-- the operations of the body -/
  body : List Op
  /-- the draws of the graph, once it is traced -/
  graph : Option (List Use)

/-- A session. -/
structure Session where
  /-- keys, counters and draws -/
  st : State
  /-- the compiled functions -/
  fns : List Fn

/-- What a user does. -/
inductive Cmd
  /-- run an operation eagerly -/
  | op (o : Op)
  /-- define a compiled function -/
  | define_ (body : List Op)
  /-- call the function defined as number `i` -/
  | call (i : ℕ)

/-- Run a graph again: the same keys and nonces, new values. -/
def replay (st : State) (g : List Use) : State :=
  { st with
    log := st.log ++ g.map fun u => { u with value := st.next + u.value }
    next := st.next + (g.map (·.value + 1)).sum }

/-- One command. -/
def Cmd.run (s : Session) : Cmd → Session
  | .op o => { s with st := o.run s.st }
  | .define_ body => { s with fns := s.fns ++ [⟨body, none⟩] }
  | .call i =>
    match s.fns[i]? with
    | none => s
    | some f =>
      match f.graph with
      | some g => { s with st := replay s.st g }
      | none =>
        let st := f.body.foldl Op.run s.st
        ⟨st, s.fns.set i ⟨f.body, some (st.log.drop s.st.log.length)⟩⟩

/-- A history. -/
def runAll (cs : List Cmd) : Session := cs.foldl Cmd.run ⟨State.init, []⟩

/-- `key + nonce` (e.g. aby3.py:954): the nonce is added to every word of the key. With the
secure-random module a key has eight 32-bit words (`SecureSeed`, /repo/operations/secure_random),
without it two 64-bit words (aby3.py:160). -/
def seed {n w : ℕ} (key : Fin n → BitVec w) (nonce : ℕ) : Fin n → BitVec w :=
  fun i => key i + BitVec.ofNat w nonce

end Verif.Aby3.Nonce
