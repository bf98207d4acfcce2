import Verif.Aby3.Nonce
import Mathlib.Data.Fintype.Basic
import Mathlib.Data.Fintype.Defs
import Mathlib.Tactic.FinCases
import Mathlib.Tactic.Ring

/-!
# Are nonces fresh?

C33: over any history no (key, nonce) pair serves two different draws. That is false in two ways
(`cheetah_reuses_false`, `compiled_twice_reuses_false`); it holds for every history that avoids both
(`nonces_fresh_partial`).
-/

namespace Verif.Aby3.Nonce

/-- The property: two uses of the same key at the same nonce are the same value, drawn by two
different servers. -/
def Fresh (log : List Use) : Prop :=
  log.Pairwise fun u v => u.key = v.key → u.nonce = v.nonce → u.value = v.value ∧ u.server ≠ v.server

/-- The servers that are to draw a common value hold the same key: for every draw of every operation,
all holders listed use one key. -/
theorem holders_agree (o : Op) : ∀ s ∈ o.steps, ∀ hs c, s = .draw hs c →
    ∀ a ∈ hs, ∀ b ∈ hs, a.2 = b.2 := by
  intro s hs l c h
  subst h
  cases o with
  | mulAb i => fin_cases i <;> simp [Op.steps, sharingSteps, otSteps] at hs <;>
      rcases hs with h | h | h | h | h <;> obtain ⟨rfl, rfl⟩ := h <;> decide
  | b2aSharing t => cases t <;> simp [Op.steps, b2aSteps] at hs <;>
      rcases hs with h | h | h <;> obtain ⟨rfl, rfl⟩ := h <;> decide
  | truncLocal => simp [Op.steps] at hs; obtain ⟨rfl, rfl⟩ := hs; decide
  | truncSecureQ8 =>
    simp [Op.steps] at hs; rcases hs with h | h <;> obtain ⟨rfl, rfl⟩ := h <;> decide
  | truncCheetah => simp [Op.steps, sharingSteps, otSteps] at hs
                    rcases hs with h | h | h | h | h | h | h <;> obtain ⟨rfl, rfl⟩ := h <;> decide
  | zeroSharing | randomSharing => simp [Op.steps, sharingSteps] at hs
                                   rcases hs with h | h | h <;> obtain ⟨rfl, rfl⟩ := h <;> decide

/-- The bound a counter puts on the nonces that its keys have been used with. -/
def bound (N B : ℕ) : KeyId → ℕ
  | .pair _ => N
  | .b2a _ _ => B

/-- What every operation keeps. -/
structure Inv (st : State) (N B : ℕ) : Prop where
  nonces : ∀ i, st.nonces i = N
  b2a : st.b2aNonce = B
  fresh : Fresh st.log
  below : ∀ u ∈ st.log, u.nonce < bound N B u.key

/-- Fresh draws stay fresh when draws at unused nonces are appended. -/
theorem Fresh.append {N B : ℕ} {a b : List Use} (ha : Fresh a) (hb : Fresh b)
    (la : ∀ u ∈ a, u.nonce < bound N B u.key) (lb : ∀ u ∈ b, bound N B u.key ≤ u.nonce) :
    Fresh (a ++ b) := by
  refine List.pairwise_append.2 ⟨ha, hb, fun u hu v hv hk hn => ?_⟩
  have h1 := la u hu
  have h2 := lb v hv
  rw [hk, hn] at h1
  omega

/-- Every operation except `truncate_msb0` with "cheetah" keeps the invariant. -/
theorem Op.inv (o : Op) {st : State} {N B : ℕ} (h : Inv st N B) (ho : o ≠ .truncCheetah) :
    ∃ N' B', Inv (o.run st) N' B' := by
  obtain ⟨hn, hb, hf, hl⟩ := h
  have key : ∀ (U : List Use) (N' B' : ℕ) (st' : State), st'.log = st.log ++ U → N ≤ N' → B ≤ B' →
      (∀ i, st'.nonces i = N') → st'.b2aNonce = B' → Fresh U →
      (∀ u ∈ U, bound N B u.key ≤ u.nonce ∧ u.nonce < bound N' B' u.key) → Inv st' N' B' := by
    intro U N' B' st' e h1 h2 h3 h4 h5 h6
    refine ⟨h3, h4, ?_, ?_⟩
    · rw [e]; exact hf.append h5 hl fun u hu => (h6 u hu).1
    · rw [e]
      intro u hu
      rcases List.mem_append.1 hu with hu | hu
      · refine (hl u hu).trans_le ?_
        cases u.key <;> simpa [bound]
      · exact (h6 u hu).2
  cases o with
  | truncCheetah => exact absurd rfl ho
  | zeroSharing | randomSharing =>
    refine ⟨N + 1, B, key _ _ _ _ (by
      simp only [Op.run, Op.steps, sharingSteps, List.foldl, Step.run, List.append_assoc]
      rfl) (by omega) le_rfl (fun i => ?_) hb ?_ ?_⟩
    · simp [Op.run, Op.steps, sharingSteps, Step.run, hn]
    · simp [Fresh, pairKey, State.at_, hn]
    · simp [pairKey, State.at_, hn, bound]
  | truncLocal =>
    refine ⟨N + 1, B, key _ _ _ _ (by
      simp only [Op.run, Op.steps, List.foldl, Step.run, List.append_assoc]
      rfl) (by omega) le_rfl (fun i => ?_) hb ?_ ?_⟩
    · simp [Op.run, Op.steps, Step.run, hn]
    · simp [Fresh, pairKey, State.at_, hn]
    · simp [pairKey, State.at_, hn, bound]
  | truncSecureQ8 =>
    refine ⟨N + 1, B, key _ _ _ _ (by
      simp only [Op.run, Op.steps, List.foldl, Step.run, List.append_assoc]
      rfl) (by omega) le_rfl (fun i => ?_) hb ?_ ?_⟩
    · simp [Op.run, Op.steps, Step.run, hn]
    · simp [Fresh, pairKey, State.at_, hn]
    · simp [pairKey, State.at_, hn, bound]
  | mulAb i =>
    refine ⟨N + 2, B, key _ _ _ _ (by
      simp only [Op.run, Op.steps, sharingSteps, otSteps, List.foldl, Step.run, List.append_assoc,
        List.cons_append, List.nil_append]
      rfl) (by omega) le_rfl (fun i => ?_) hb ?_ ?_⟩
    · simp [Op.run, Op.steps, sharingSteps, otSteps, Step.run, hn]
    · fin_cases i <;> simp [Fresh, pairKey, State.at_, hn]
    · fin_cases i <;> simp [pairKey, State.at_, hn, bound]
  | b2aSharing t =>
    refine ⟨N, B + 1, key _ _ _ _ (by
      simp only [Op.run, Op.steps, b2aSteps, List.foldl, Step.run, List.append_assoc]
      rfl) le_rfl (by omega) (fun i => ?_) ?_ ?_ ?_⟩
    · simp [Op.run, Op.steps, b2aSteps, Step.run, hn]
    · simp [Op.run, Op.steps, b2aSteps, Step.run, hb]
    · cases t <;> simp [Fresh, b2aHolders, List.finRange, b2aKey, State.at_, hb]
    · cases t <;> simp [b2aHolders, List.finRange, b2aKey, State.at_, hb, bound]

/-- A list of such operations keeps the invariant. -/
theorem ops_inv {st : State} {N B : ℕ} (h : Inv st N B) (os : List Op) (ho : .truncCheetah ∉ os) :
    ∃ N' B', Inv (os.foldl Op.run st) N' B' := by
  induction os generalizing st N B with
  | nil => exact ⟨N, B, h⟩
  | cons o os ih =>
    simp only [List.mem_cons, not_or] at ho
    obtain ⟨N', B', h'⟩ := o.inv h (fun e => ho.1 e.symm)
    exact ih h' ho.2


/-- The functions that a history calls. -/
def calls (cs : List Cmd) : List ℕ := cs.filterMap fun | .call i => some i | _ => none

/-- The history does not truncate with "cheetah", directly or in a compiled function. -/
def NoCheetah (cs : List Cmd) : Prop :=
  ∀ c ∈ cs, match c with
    | .op o => o ≠ .truncCheetah
    | .define_ body => .truncCheetah ∉ body
    | .call _ => True

theorem session_inv {s : Session} {N B : ℕ} (h : Inv s.st N B)
    (hb : ∀ f ∈ s.fns, .truncCheetah ∉ f.body) (cs : List Cmd)
    (ht : ∀ i ∈ calls cs, ∀ f, s.fns[i]? = some f → f.graph = none)
    (hc : NoCheetah cs) (hd : (calls cs).Nodup) :
    Fresh (cs.foldl Cmd.run s).st.log := by
  induction cs generalizing s N B with
  | nil => exact h.fresh
  | cons c cs ih =>
    have hc' : NoCheetah cs := fun d hd => hc d (List.mem_cons_of_mem _ hd)
    have h0 := hc c List.mem_cons_self
    cases c with
    | op o =>
      obtain ⟨N', B', h'⟩ := o.inv h h0
      exact ih h' hb ht hc' hd
    | define_ body =>
      refine ih (s := (Cmd.define_ body).run s) h ?_ ?_ hc' hd
      · intro f hf
        rcases List.mem_append.1 hf with hf | hf
        · exact hb f hf
        · rw [List.mem_singleton.1 hf]; exact h0
      · intro i hi f hf
        simp only [Cmd.run, List.getElem?_append] at hf
        split_ifs at hf with hlt
        · exact ht i hi f hf
        · rcases Nat.eq_zero_or_pos (i - s.fns.length) with h0 | h0
          · rw [h0] at hf; simp at hf; rw [← hf]
          · rw [List.getElem?_eq_none (by simp only [List.length_singleton]; omega)] at hf; cases hf
    | call i =>
      have hm : calls (.call i :: cs) = i :: calls cs := rfl
      rw [hm] at ht hd
      obtain ⟨hni, hd⟩ := List.nodup_cons.1 hd
      cases hf : s.fns[i]? with
      | none =>
        have e : (Cmd.call i).run s = s := by simp [Cmd.run, hf]
        rw [List.foldl_cons, e]
        exact ih h hb (fun j hj => ht j (List.mem_cons_of_mem _ hj)) hc' hd
      | some f =>
        have hg := ht i List.mem_cons_self f hf
        obtain ⟨N', B', h'⟩ := ops_inv h f.body (hb f (List.mem_of_getElem? hf))
        have e : (Cmd.call i).run s = ⟨f.body.foldl Op.run s.st, s.fns.set i
            ⟨f.body, some ((f.body.foldl Op.run s.st).log.drop s.st.log.length)⟩⟩ := by
          simp [Cmd.run, hf, hg]
        rw [List.foldl_cons, e]
        refine ih h' ?_ ?_ hc' hd
        · intro f' hf'
          rcases List.mem_or_eq_of_mem_set hf' with h1 | h1
          · exact hb f' h1
          · rw [h1]; exact hb f (List.mem_of_getElem? hf)
        · intro j hj f' hf'
          have hne : i ≠ j := fun e => hni (e ▸ hj)
          rw [List.getElem?_set_ne hne] at hf'
          exact ht j (List.mem_cons_of_mem _ hj) f' hf'

/-- **C33, partial.** Over every history of eager operations and compiled functions, as long as no
truncation uses "cheetah" and no compiled function is called twice, no (key, nonce) pair serves two
different draws. -/
theorem nonces_fresh_partial (cs : List Cmd) (hc : NoCheetah cs) (hd : (calls cs).Nodup) :
    Fresh (runAll cs).st.log :=
  session_inv (s := ⟨State.init, []⟩) (N := 0) (B := 0) ⟨fun _ => rfl, rfl, List.Pairwise.nil, fun _ h => by cases h⟩
    (fun _ h => by cases h) cs (fun _ _ _ h => by cases h) hc hd

example : NoCheetah [.op (.mulAb 2), .define_ [.zeroSharing, .b2aSharing true], .op .truncSecureQ8,
      .call 0] ∧
    (calls [.op (.mulAb 2), .define_ [.zeroSharing, .b2aSharing true], .op .truncSecureQ8,
      .call 0]).Nodup ∧
    (runAll [.op (.mulAb 2), .define_ [.zeroSharing, .b2aSharing true], .op .truncSecureQ8,
      .call 0]).st.log.length = 28 := by
  refine ⟨?_, by decide, by decide⟩
  intro c hc
  fin_cases hc <;> decide

/-- The serial numbers given out so far. -/
def Numbered (st : State) : Prop := ∀ u ∈ st.log, u.value < st.next

theorem Step.numbered {st : State} (h : Numbered st) (s : Step) : Numbered (s.run st) := by
  cases s with
  | draw hs c =>
    intro u hu
    simp only [Step.run, List.mem_append, List.mem_map] at hu ⊢
    rcases hu with hu | ⟨a, _, rfl⟩
    · have := h u hu; omega
    · simp
  | bump => exact h
  | bumpB2a => exact h

theorem steps_numbered {st : State} (h : Numbered st) (l : List Step) :
    Numbered (l.foldl Step.run st) := by
  induction l generalizing st with
  | nil => exact h
  | cons s l ih => exact ih (s.numbered h)

theorem ops_numbered {st : State} (h : Numbered st) (l : List Op) :
    Numbered (l.foldl Op.run st) := by
  induction l generalizing st with
  | nil => exact h
  | cons s l ih => exact ih (steps_numbered h _)

/-- Steps only add draws. -/
theorem steps_log (st : State) (l : List Step) : ∃ U, (l.foldl Step.run st).log = st.log ++ U := by
  induction l generalizing st with
  | nil => exact ⟨[], by simp⟩
  | cons s l ih =>
    obtain ⟨U, hU⟩ := ih (s.run st)
    cases s with
    | draw hs c => exact ⟨_, by rw [List.foldl_cons, hU]; simp only [Step.run, List.append_assoc]; rfl⟩
    | bump => exact ⟨U, hU⟩
    | bumpB2a => exact ⟨U, hU⟩

theorem ops_log (st : State) (l : List Op) : ∃ U, (l.foldl Op.run st).log = st.log ++ U := by
  induction l generalizing st with
  | nil => exact ⟨[], by simp⟩
  | cons o l ih =>
    obtain ⟨U, hU⟩ := steps_log st o.steps
    obtain ⟨V, hV⟩ := ih (o.run st)
    exact ⟨U ++ V, by rw [List.foldl_cons, hV, Op.run, hU, List.append_assoc]⟩

/-- Every operation draws. -/
theorem Op.draws (o : Op) (st : State) : ∃ u U, (o.run st).log = st.log ++ u :: U := by
  cases o with
  | b2aSharing t => cases t <;> exact ⟨_, _, by
      simp only [Op.run, Op.steps, b2aSteps, List.foldl, Step.run, List.append_assoc]; rfl⟩
  | _ => exact ⟨_, _, by
      simp only [Op.run, Op.steps, sharingSteps, otSteps, List.foldl, Step.run, List.append_assoc,
        List.cons_append, List.nil_append, List.map_cons]; rfl⟩

theorem le_sum_of_mem {n : ℕ} {l : List ℕ} (h : n ∈ l) : n ≤ l.sum := by
  induction l with
  | nil => cases h
  | cons a l ih =>
    rw [List.sum_cons]
    rcases List.mem_cons.1 h with h | h
    · omega
    · have := ih h; omega

/-- The commands keep serial numbers. -/
theorem Cmd.numbered {s : Session} (h : Numbered s.st) (c : Cmd) : Numbered (c.run s).st := by
  cases c with
  | op o => exact steps_numbered h _
  | define_ b => exact h
  | call i =>
    simp only [Cmd.run]
    split
    · exact h
    · split
      · rename_i g _
        intro u hu
        simp only [replay, List.mem_append, List.mem_map] at hu ⊢
        rcases hu with hu | ⟨a, ha, rfl⟩
        · have := h u hu; omega
        · have := le_sum_of_mem (List.mem_map_of_mem (f := fun u : Use => u.value + 1) ha)
          simp only
          omega
      · exact ops_numbered h _

theorem runAll_numbered (cs : List Cmd) : Numbered (runAll cs).st := by
  suffices ∀ s : Session, Numbered s.st → Numbered (cs.foldl Cmd.run s).st from
    this _ fun _ h => by cases h
  induction cs with
  | nil => exact fun _ h => h
  | cons c cs ih => exact fun s h => ih _ (c.numbered h)

/-- **C33 is false of "cheetah" truncation.** After every history, one more `truncate_msb0` with
"cheetah" uses a key twice at one nonce: the mask of its transfer is drawn again as a mask of the zero
sharing inside `b2a_single`. -/
theorem cheetah_reuses_false (cs : List Cmd) :
    ¬ Fresh (runAll (cs ++ [.op .truncCheetah])).st.log := by
  intro h
  simp only [runAll, List.foldl_append, List.foldl_cons, List.foldl_nil, Cmd.run, Op.run, Op.steps,
    sharingSteps, otSteps, List.cons_append, List.nil_append, Step.run, Fresh, List.append_assoc] at h
  rw [List.pairwise_append] at h
  have h2 := h.2.1
  simp [pairKey, State.at_] at h2

/-- **C33 is false of compiled functions.** Whatever the history, and whatever the compiled function
computes, if it uses any randomness then calling it a second time uses the keys at the same nonces
again. -/
theorem compiled_twice_reuses_false (cs : List Cmd) (body : List Op) (hb : body ≠ []) :
    ¬ Fresh (runAll (cs ++ [.define_ body, .call (runAll cs).fns.length,
      .call (runAll cs).fns.length])).st.log := by
  generalize hs : runAll cs = s
  have hnum : Numbered s.st := hs ▸ runAll_numbered cs
  obtain ⟨o, os, rfl⟩ := List.exists_cons_of_ne_nil hb
  obtain ⟨u, U, hU⟩ := o.draws s.st
  obtain ⟨V, hV⟩ := ops_log (o.run s.st) os
  have hlog : ((o :: os).foldl Op.run s.st).log = s.st.log ++ (u :: U ++ V) := by
    rw [List.foldl_cons, hV, hU, List.append_assoc]
  have hn' : Numbered ((o :: os).foldl Op.run s.st) := ops_numbered hnum _
  have e : (runAll (cs ++ [.define_ (o :: os), .call s.fns.length, .call s.fns.length])).st
      = replay ((o :: os).foldl Op.run s.st) (u :: U ++ V) := by
    have hr : runAll (cs ++ [.define_ (o :: os), .call s.fns.length, .call s.fns.length])
        = [Cmd.define_ (o :: os), .call s.fns.length, .call s.fns.length].foldl Cmd.run s := by
      rw [← hs]; simp only [runAll, List.foldl_append]
    rw [hr]
    have h1 : (Cmd.call s.fns.length).run ((Cmd.define_ (o :: os)).run s)
        = ⟨(o :: os).foldl Op.run s.st, s.fns ++ [⟨o :: os, some (u :: U ++ V)⟩]⟩ := by
      simp only [Cmd.run, List.getElem?_append_right le_rfl, Nat.sub_self, List.getElem?_cons_zero]
      rw [hlog, List.drop_left]
      simp
    rw [List.foldl_cons, List.foldl_cons, h1]
    simp [Cmd.run]
  rw [e, replay]
  intro h
  simp only at h
  have hu : u ∈ ((o :: os).foldl Op.run s.st).log := by rw [hlog]; simp
  have h1 := (List.pairwise_append.1 h).2.2 u hu
    { u with value := ((o :: os).foldl Op.run s.st).next + u.value }
    (List.mem_map.2 ⟨u, by simp, rfl⟩) rfl rfl
  have h2 := hn' u hu
  simp only at h1
  omega

/-- The smallest case: one product, compiled and called twice. -/
example : ¬ Fresh (runAll [.define_ [.zeroSharing], .call 0, .call 0]).st.log :=
  compiled_twice_reuses_false [] [.zeroSharing] (by simp)

/-- Different nonces give different seeds: with one key of `w`-bit words, `key + nonce` repeats only
after `2^w` operations. -/
theorem seed_injective {k w : ℕ} (hk : 0 < k) (key : Fin k → BitVec w) {m n : ℕ} (hm : m < 2 ^ w)
    (hn : n < 2 ^ w) (h : seed key m = seed key n) : m = n := by
  have h1 := BitVec.add_right_inj (key ⟨0, hk⟩) |>.1 (congrFun h ⟨0, hk⟩)
  have h2 := congrArg BitVec.toNat h1
  rwa [BitVec.toNat_ofNat, BitVec.toNat_ofNat, Nat.mod_eq_of_lt hm, Nat.mod_eq_of_lt hn] at h2

/-- After `2^w` operations it does repeat: after `2^32` with the secure-random module. -/
theorem seed_wraps_false {k w : ℕ} (key : Fin k → BitVec w) (n : ℕ) :
    seed key (n + 2 ^ w) = seed key n := by
  funext i
  unfold seed
  congr 1
  apply BitVec.eq_of_toNat_eq
  rw [BitVec.toNat_ofNat, BitVec.toNat_ofNat, Nat.add_mod_right]

example : seed (fun _ : Fin 8 => 5#32) 3 = fun _ => 8#32 := by decide

end Verif.Aby3.Nonce
