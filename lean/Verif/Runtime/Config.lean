import Mathlib.Data.List.Basic
import Mathlib.Data.List.Nodup

/-!
# Players

Models `tf_encrypted/config.py` (84-228) and `player/player.py`.

A player object has no `__eq__`, so it is its identity; a configuration never removes players, so the
identity is the position in the configuration. The device string is the pair of job name and task.
File contents are the value that `json.dump` writes and `json.load(object_pairs_hook=OrderedDict)` reads
(the standard library is trusted to round-trip ordered string maps).
-/

namespace Verif.Runtime

/-- `Player` (player/player.py:5-20). -/
structure Player where
  name : String
  index : ℕ
  /-- `/job:{job}/replica:0/task:{task}/device:CPU:0` -/
  device : String × ℕ
  host : Option String
  deriving DecidableEq

/-- `LocalConfig` (config.py:99-113). -/
structure LocalConfig where
  job : String
  autoAdd : Bool
  players : List Player

/-- `add_player` (config.py:115-124): the new configuration and the position of the new player. -/
def LocalConfig.addPlayer (c : LocalConfig) (name : String) : LocalConfig × ℕ :=
  ({ c with players := c.players ++ [⟨name, c.players.length, (c.job, 0), none⟩] }, c.players.length)

/-- `LocalConfig(player_names, job_name, auto_add_unknown_players)` (config.py:99-113). -/
def LocalConfig.new (names : List String) (job : String := "localhost") (autoAdd : Bool := true) :
    LocalConfig :=
  names.foldl (fun c n => (c.addPlayer n).1) ⟨job, autoAdd, []⟩

/-- `get_player` by name (config.py:136-142): the first player of that name. -/
def LocalConfig.getPlayer (c : LocalConfig) (name : String) : LocalConfig × Option ℕ :=
  match c.players.findIdx? (fun p => p.name == name) with
  | some i => (c, some i)
  | none => if c.autoAdd then ((c.addPlayer name).1, some (c.addPlayer name).2) else (c, none)

/-- `get_player` of a player object (config.py:131-134); `none` is the assertion. -/
def LocalConfig.getKnown (c : LocalConfig) (id : ℕ) : Option ℕ :=
  if id < c.players.length then some id else none

/-- `get_players` (config.py:144-148): positions, in configuration order. -/
def LocalConfig.getPlayers (c : LocalConfig) (names : List String) : List Player :=
  c.players.filter fun p => p.name ∈ names

/-- What a program does to a local configuration. -/
inductive LocalOp
  | add (name : String)
  | get (name : String)

/-- One operation. -/
def LocalConfig.step (c : LocalConfig) : LocalOp → LocalConfig
  | .add n => (c.addPlayer n).1
  | .get n => (c.getPlayer n).1

/-- A history. -/
def LocalConfig.run (c : LocalConfig) (h : List LocalOp) : LocalConfig := h.foldl LocalConfig.step c

/-- `RemoteConfig` (config.py:159-181): the players in the order of the host map. -/
structure RemoteConfig where
  job : String
  debug : Bool
  players : List Player

/-- Number the entries of a host map from `i` on (`enumerate`). -/
def remotePlayers (job : String) : ℕ → List (String × String) → List Player
  | _, [] => []
  | i, (name, host) :: l => ⟨name, i, (job, i), some host⟩ :: remotePlayers job (i + 1) l

/-- `RemoteConfig(hostmap, job_name, debug_mode)` (config.py:159-181). A host map is a dictionary: its
names are distinct. -/
def RemoteConfig.new (hostmap : List (String × String)) (job : String := "tfe")
    (debug : Bool := false) : RemoteConfig :=
  ⟨job, debug, remotePlayers job 0 hostmap⟩

/-- `hostmap` (config.py:201-205); every player of a remote configuration has a host. -/
def RemoteConfig.hostmap (c : RemoteConfig) : List (String × String) :=
  c.players.map fun p => (p.name, p.host.getD "")

/-- `hosts` (config.py:207-209). -/
def RemoteConfig.hosts (c : RemoteConfig) : List String := c.players.map fun p => p.host.getD ""

/-- `save` (config.py:193-199): what the file holds. -/
def RemoteConfig.save (c : RemoteConfig) : List (String × String) := c.hostmap

/-- `load` (config.py:183-191). -/
def RemoteConfig.load (file : List (String × String)) : RemoteConfig := RemoteConfig.new file

/-- `get_player` by name (config.py:221-222). -/
def RemoteConfig.getPlayer (c : RemoteConfig) (name : String) : Option Player :=
  c.players.find? fun p => p.name == name

/-- `get_players` (config.py:224-228). -/
def RemoteConfig.getPlayers (c : RemoteConfig) (names : List String) : List Player :=
  c.players.filter fun p => p.name ∈ names

/-- `start_server` (config.py:230-249): the task index given to TensorFlow, and the cluster's host
list; `none` is the assertion. -/
def RemoteConfig.startServer (c : RemoteConfig) (name : String) : Option (ℕ × List String) :=
  (c.getPlayer name).map fun p => (p.index, c.hosts)

end Verif.Runtime
