import Verif.Runtime.Config

/-!
# C54: player configuration
-/

namespace Verif.Runtime

/-! ## Local configurations -/

/-- Players are numbered by position and keep their place. -/
def LocalConfig.Numbered (c : LocalConfig) : Prop :=
  ∀ (i : ℕ) (p : Player), c.players[i]? = some p → p.index = i ∧ p.device = (c.job, 0)

theorem add_prefix (c : LocalConfig) (n : String) : c.players <+: (c.addPlayer n).1.players :=
  List.prefix_append _ _

theorem step_prefix (c : LocalConfig) (o : LocalOp) :
    c.players <+: (c.step o).players ∧ (c.step o).job = c.job ∧ (c.step o).autoAdd = c.autoAdd := by
  cases o with
  | add n => exact ⟨add_prefix c n, rfl, rfl⟩
  | get n =>
    unfold LocalConfig.step LocalConfig.getPlayer
    simp only
    split
    · exact ⟨List.prefix_rfl, rfl, rfl⟩
    · split
      · exact ⟨add_prefix c n, rfl, rfl⟩
      · exact ⟨List.prefix_rfl, rfl, rfl⟩

theorem run_prefix (c : LocalConfig) (h : List LocalOp) :
    c.players <+: (c.run h).players ∧ (c.run h).job = c.job ∧ (c.run h).autoAdd = c.autoAdd := by
  induction h generalizing c with
  | nil => exact ⟨List.prefix_rfl, rfl, rfl⟩
  | cons o h ih =>
    obtain ⟨a, b, d⟩ := step_prefix c o
    obtain ⟨a', b', d'⟩ := ih (c.step o)
    exact ⟨a.trans a', b'.trans b, d'.trans d⟩

theorem findIdx_prefix {l l' : List Player} (hp : l <+: l') {f : Player → Bool} {i : ℕ}
    (h : l.findIdx? f = some i) : l'.findIdx? f = some i := by
  obtain ⟨t, rfl⟩ := hp
  rw [List.findIdx?_append, h]
  rfl

theorem get_some (c : LocalConfig) (n : String) (i : ℕ) (h : (c.getPlayer n).2 = some i) :
    (c.getPlayer n).1.players.findIdx? (fun p => p.name == n) = some i := by
  unfold LocalConfig.getPlayer at *
  cases hf : c.players.findIdx? (fun p => p.name == n) with
  | some j => simp only [hf] at h ⊢; rw [← h]
  | none =>
    simp only [hf] at h ⊢
    split at h
    · rename_i ha
      simp only [Option.some.injEq] at h
      subst h
      simp [LocalConfig.addPlayer, ha, List.findIdx?_append, hf]
    · simp at h

/-- **C54, lookups are stable**: once looking a name up returned a player, every later lookup of that
name returns the same player, whatever was added or looked up in between. -/
theorem local_lookup_stable (c : LocalConfig) (n : String) (i : ℕ) (h : (c.getPlayer n).2 = some i)
    (hist : List LocalOp) : (((c.getPlayer n).1.run hist).getPlayer n).2 = some i := by
  have := findIdx_prefix (run_prefix (c.getPlayer n).1 hist).1 (get_some c n i h)
  generalize (c.getPlayer n).1.run hist = c' at this ⊢
  rw [LocalConfig.getPlayer, this]

/-- **C54, lookups are right**: a lookup returns a player of that name; with automatic addition it
always returns one, without it it returns one exactly if there is one. -/
theorem local_lookup (c : LocalConfig) (n : String) :
    (∀ i, (c.getPlayer n).2 = some i →
      ∃ p, (c.getPlayer n).1.players[i]? = some p ∧ p.name = n ∧
        (c.getPlayer n).1.getKnown i = some i) ∧
      ((c.getPlayer n).2 = none ↔ c.autoAdd = false ∧ ∀ p ∈ c.players, p.name ≠ n) := by
  constructor
  · intro i h
    have := get_some c n i h
    rw [List.findIdx?_eq_some_iff_getElem] at this
    obtain ⟨hi, hn, _⟩ := this
    exact ⟨_, List.getElem?_eq_getElem hi, by simpa using hn, by simp [LocalConfig.getKnown, hi]⟩
  · unfold LocalConfig.getPlayer
    cases hf : c.players.findIdx? (fun p => p.name == n) with
    | some j =>
      simp only [reduceCtorEq, false_iff, not_and, not_forall]
      intro _
      rw [List.findIdx?_eq_some_iff_getElem] at hf
      obtain ⟨hi, hn, _⟩ := hf
      exact ⟨_, List.getElem_mem hi, by simpa using hn⟩
    | none =>
      rw [List.findIdx?_eq_none_iff] at hf
      have : ∀ p ∈ c.players, p.name ≠ n := fun p hp => by simpa using hf p hp
      cases c.autoAdd <;> simp
      exact this

theorem numbered_add (c : LocalConfig) (n : String) (h : c.Numbered) : (c.addPlayer n).1.Numbered := by
  intro i p hp
  simp only [LocalConfig.addPlayer] at hp ⊢
  by_cases hi : i < c.players.length
  · rw [List.getElem?_append_left hi] at hp
    exact h i p hp
  · rw [List.getElem?_append_right (by omega)] at hp
    have h0 : i - c.players.length = 0 := by
      by_contra hne
      rw [List.getElem?_eq_none (by simp; omega)] at hp
      simp at hp
    rw [h0] at hp
    simp only [List.getElem?_cons_zero, Option.some.injEq] at hp
    subst hp
    exact ⟨by simp only; omega, rfl⟩

theorem numbered_run (c : LocalConfig) (h : c.Numbered) (hist : List LocalOp) :
    (c.run hist).Numbered := by
  induction hist generalizing c with
  | nil => exact h
  | cons o l ih =>
    apply ih
    cases o with
    | add n => exact numbered_add c n h
    | get n =>
      unfold LocalConfig.step LocalConfig.getPlayer
      simp only
      split
      · exact h
      · split
        · exact numbered_add c n h
        · exact h

theorem new_eq_run (names : List String) (job : String) (auto : Bool) :
    LocalConfig.new names job auto = (⟨job, auto, []⟩ : LocalConfig).run (names.map .add) := by
  unfold LocalConfig.new LocalConfig.run
  rw [List.foldl_map]
  rfl

/-- **C54, indices**: in every reachable configuration player `i` has index `i`, so indices are
distinct. -/
theorem local_indices (names : List String) (job : String) (auto : Bool) (hist : List LocalOp)
    (i : ℕ) (p : Player) (h : ((LocalConfig.new names job auto).run hist).players[i]? = some p) :
    p.index = i := by
  rw [new_eq_run] at h
  have h0 : (⟨job, auto, []⟩ : LocalConfig).Numbered := by intro i p hp; simp at hp
  exact (numbered_run _ (numbered_run _ h0 _) hist i p h).1

/-- **C54, names**: names stay distinct as long as players are added by lookup only. -/
theorem local_names (c : LocalConfig) (h : (c.players.map Player.name).Nodup) (ns : List String) :
    ((c.run (ns.map .get)).players.map Player.name).Nodup := by
  induction ns generalizing c with
  | nil => exact h
  | cons n ns ih =>
    refine ih (c.step (.get n)) ?_
    unfold LocalConfig.step LocalConfig.getPlayer
    simp only
    cases hf : c.players.findIdx? (fun p => p.name == n) with
    | some j => exact h
    | none =>
      simp only
      split
      · rw [List.findIdx?_eq_none_iff] at hf
        simp only [LocalConfig.addPlayer, List.map_append, List.map_cons, List.map_nil]
        rw [List.nodup_append]
        refine ⟨h, by simp, ?_⟩
        intro a ha b hb
        simp only [List.mem_singleton] at hb
        obtain ⟨p, hp, rfl⟩ := List.mem_map.1 ha
        rw [hb]
        simpa using hf p hp
      · exact h

/-- **C54 is false**: a configuration accepts the same name twice, and the second player of that name
cannot be looked up. -/
theorem duplicate_names_false (n : String) :
    let c := LocalConfig.new [n, n]
    c.players.length = 2 ∧ (c.getPlayer n).2 = some 0 ∧
      ∀ m, (c.getPlayer m).2 ≠ some 1 := by
  intro c
  have hc : c.players = [⟨n, 0, ("localhost", 0), none⟩, ⟨n, 1, ("localhost", 0), none⟩] := rfl
  refine ⟨by rw [hc]; rfl, ?_, ?_⟩
  · simp [LocalConfig.getPlayer, hc, List.findIdx?_cons]
  · intro m
    by_cases h : n = m
    · simp [LocalConfig.getPlayer, hc, List.findIdx?_cons, h]
    · have : c.autoAdd = true := rfl
      simp [LocalConfig.getPlayer, hc, List.findIdx?_cons, h, this, LocalConfig.addPlayer]

/-- **C54 is false**: all local players are placed on the same device. -/
theorem local_devices_false (names : List String) (job : String) (auto : Bool) (hist : List LocalOp)
    (p q : Player) (hp : p ∈ ((LocalConfig.new names job auto).run hist).players)
    (hq : q ∈ ((LocalConfig.new names job auto).run hist).players) : p.device = q.device := by
  have h0 : (⟨job, auto, []⟩ : LocalConfig).Numbered := by intro i p hp; simp at hp
  have hn : ((LocalConfig.new names job auto).run hist).Numbered := by
    rw [new_eq_run]
    exact numbered_run _ (numbered_run _ h0 _) hist
  obtain ⟨i, hi⟩ := List.getElem?_of_mem hp
  obtain ⟨j, hj⟩ := List.getElem?_of_mem hq
  rw [(hn i p hi).2, (hn j q hj).2]

/-- `get_players` returns the named players in configuration order, and silently leaves out unknown
names. -/
theorem local_get_players (c : LocalConfig) (names : List String) :
    (c.getPlayers names).Sublist c.players ∧
      ∀ p, p ∈ c.getPlayers names ↔ p ∈ c.players ∧ p.name ∈ names := by
  refine ⟨List.filter_sublist, fun p => ?_⟩
  simp [LocalConfig.getPlayers]

example : (((LocalConfig.new ["server0", "server1"]).run [.get "alice", .get "server1"]).getPlayer
    "alice").2 = some 2 := by decide

/-! ## Remote configurations -/

theorem remote_get (job : String) (k : ℕ) (l : List (String × String)) (i : ℕ) :
    (remotePlayers job k l)[i]? = l[i]?.map fun nh => ⟨nh.1, k + i, (job, k + i), some nh.2⟩ := by
  induction l generalizing k i with
  | nil => simp [remotePlayers]
  | cons a l ih =>
    obtain ⟨n, h⟩ := a
    cases i with
    | zero => simp [remotePlayers]
    | succ i =>
      simp only [remotePlayers, List.getElem?_cons_succ, ih]
      congr 2
      funext nh
      rw [show k + 1 + i = k + (i + 1) by omega]

theorem remote_names (job : String) (k : ℕ) (l : List (String × String)) :
    (remotePlayers job k l).map Player.name = l.map Prod.fst := by
  induction l generalizing k with
  | nil => rfl
  | cons a l ih => obtain ⟨n, h⟩ := a; simp [remotePlayers, ih]

theorem remote_map (job : String) (k : ℕ) (l : List (String × String)) :
    ((remotePlayers job k l).map fun p => (p.name, p.host.getD "")) = l := by
  induction l generalizing k with
  | nil => rfl
  | cons a l ih => obtain ⟨n, h⟩ := a; simp [remotePlayers, ih]

/-- **C54, remote players**: the player at position `i` of the host map has that name, host, index `i`
and its own task, so indices and devices are distinct. -/
theorem remote_players (hostmap : List (String × String)) (job : String) (debug : Bool) (i : ℕ)
    (n h : String) (hi : hostmap[i]? = some (n, h)) :
    (RemoteConfig.new hostmap job debug).players[i]? = some ⟨n, i, (job, i), some h⟩ := by
  simp [RemoteConfig.new, remote_get, hi]

/-- **C54, remote devices are distinct.** -/
theorem remote_devices (hostmap : List (String × String)) (job : String) (debug : Bool) (i j : ℕ)
    (p q : Player) (hp : (RemoteConfig.new hostmap job debug).players[i]? = some p)
    (hq : (RemoteConfig.new hostmap job debug).players[j]? = some q) (hij : i ≠ j) :
    p.device ≠ q.device ∧ p.index ≠ q.index := by
  simp only [RemoteConfig.new, remote_get, Option.map_eq_some_iff] at hp hq
  obtain ⟨a, _, rfl⟩ := hp
  obtain ⟨b, _, rfl⟩ := hq
  simp [hij]

/-- **C54, remote lookups**: a name of the host map is looked up to its own player, every time; an
unknown name gives `None`. -/
theorem remote_lookup (hostmap : List (String × String)) (hd : (hostmap.map Prod.fst).Nodup)
    (job : String) (debug : Bool) (i : ℕ) (n h : String) (hi : hostmap[i]? = some (n, h)) :
    (RemoteConfig.new hostmap job debug).getPlayer n = some ⟨n, i, (job, i), some h⟩ ∧
      (RemoteConfig.new hostmap job debug).startServer n = some (i, hostmap.map Prod.snd) := by
  have hg : (RemoteConfig.new hostmap job debug).getPlayer n = some ⟨n, i, (job, i), some h⟩ := by
    have hp := remote_players hostmap job debug i n h hi
    have hnd : ((RemoteConfig.new hostmap job debug).players.map Player.name).Nodup := by
      rw [RemoteConfig.new, remote_names]; exact hd
    unfold RemoteConfig.getPlayer
    rw [List.find?_eq_some_iff_getElem]
    refine ⟨by simp, i, ?_⟩
    obtain ⟨hlt, he⟩ := List.getElem?_eq_some_iff.1 hp
    refine ⟨hlt, he, fun j hj => ?_⟩
    simp only [Bool.not_eq_eq_eq_not, Bool.not_true, beq_eq_false_iff_ne, ne_eq]
    intro heq
    have := (List.Nodup.getElem_inj_iff hnd (i := j) (j := i) (hi := by simpa using Nat.lt_trans hj hlt)
      (hj := by simpa using hlt)).1 (by simp [he, heq])
    omega
  refine ⟨hg, ?_⟩
  unfold RemoteConfig.startServer
  rw [hg]
  simp only [Option.map_some, Option.some.injEq, Prod.mk.injEq, true_and]
  have := congrArg (List.map Prod.snd) (remote_map job 0 hostmap)
  rw [List.map_map] at this
  exact this

theorem remote_unknown (hostmap : List (String × String)) (job : String) (debug : Bool) (n : String)
    (hn : n ∉ hostmap.map Prod.fst) : (RemoteConfig.new hostmap job debug).getPlayer n = none := by
  unfold RemoteConfig.getPlayer
  rw [List.find?_eq_none]
  intro p hp
  have : p.name ∈ (RemoteConfig.new hostmap job debug).players.map Player.name :=
    List.mem_map_of_mem hp
  rw [RemoteConfig.new, remote_names] at this
  simp only [beq_iff_eq]
  rintro rfl
  exact hn this

/-- **C54, save and load**: loading what was saved gives the same host map, in the same order, and the
same names, indices and hosts. -/
theorem save_load (hostmap : List (String × String)) (job : String) (debug : Bool) :
    let c := RemoteConfig.new hostmap job debug
    c.hostmap = hostmap ∧ (RemoteConfig.load c.save).hostmap = hostmap ∧
      (job = "tfe" → (RemoteConfig.load c.save).players = c.players) := by
  have h : ∀ job debug, (RemoteConfig.new hostmap job debug).hostmap = hostmap := fun job debug =>
    remote_map job 0 hostmap
  refine ⟨h _ _, ?_, ?_⟩
  · rw [RemoteConfig.load, RemoteConfig.save, h, h]
  · intro hj
    rw [RemoteConfig.load, RemoteConfig.save, h, hj]
    rfl

/-- The job name and the debug mode are not saved: players of another job are on other devices after
loading. -/
theorem load_loses_job_false : ∃ (hostmap : List (String × String)) (job : String),
    let c := RemoteConfig.new hostmap job true
    (RemoteConfig.load c.save).players ≠ c.players ∧ (RemoteConfig.load c.save).debug ≠ c.debug :=
  ⟨[("server0", "10.0.0.1")], "other", by decide⟩

example : (RemoteConfig.new [("server0", "h0:1"), ("server1", "h1:1")]).getPlayer "server1" =
    some ⟨"server1", 1, ("tfe", 1), some "h1:1"⟩ := by decide

end Verif.Runtime
