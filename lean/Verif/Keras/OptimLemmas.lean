import Verif.Keras.Optim
import Mathlib.Data.List.Basic
import Mathlib.Tactic.Ring
import Mathlib.Tactic.Linarith

/-! # Lemmas: what a history of calls does to one weight -/

namespace Verif.Keras

variable {T S P : Type}

/-- The gradients a history brings for the `i`-th weight of layer `k`, in order. -/
def gradsOf (h : List (ℕ × List T)) (k i : ℕ) : List T :=
  h.filterMap fun c => if c.1 = k then c.2[i]? else none

theorem updateAll_get (upd : ℕ → T → S → T → T × S) : ∀ (ws : List T) (ss : List S) (gs : List T)
    (t : ℕ), (updateAll upd t ws ss gs).2 = .done → ws.length = ss.length →
    (updateAll upd t ws ss gs).1.1.length = ws.length ∧
    (updateAll upd t ws ss gs).1.2.length = ss.length ∧ ws.length ≤ gs.length ∧
    ∀ i w s, ws[i]? = some w → ss[i]? = some s → ∃ g, gs[i]? = some g ∧
      (updateAll upd t ws ss gs).1.1[i]? = some (upd (t + i) w s g).1 ∧
      (updateAll upd t ws ss gs).1.2[i]? = some (upd (t + i) w s g).2
  | [], [], gs, t, _, _ => by simp [updateAll]
  | [], _ :: _, _, _, _, h => by simp at h
  | _ :: _, [], _, _, _, h => by simp at h
  | w :: ws, s :: ss, [], t, h, _ => by simp [updateAll] at h
  | w :: ws, s :: ss, g :: gs, t, h, hl => by
      simp only [updateAll] at h ⊢
      obtain ⟨h1, h2, h4, h3⟩ := updateAll_get upd ws ss gs (t + 1) h (by simpa using hl)
      refine ⟨by simp [h1], by simp [h2], by simpa using h4, ?_⟩
      intro i
      cases i with
      | zero => intro w' s' e1 e2; simp at e1 e2; subst e1 e2; exact ⟨g, by simp⟩
      | succ i =>
          intro w' s' e1 e2
          obtain ⟨g', e, a, b⟩ := h3 i w' s' (by simpa using e1) (by simpa using e2)
          refine ⟨g', by simpa using e, ?_, ?_⟩
          · simpa [Nat.add_assoc, Nat.add_comm 1 i] using a
          · simpa [Nat.add_assoc, Nat.add_comm 1 i] using b

theorem updateAll_done (upd : ℕ → T → S → T → T × S) : ∀ (ws : List T) (ss : List S) (gs : List T)
    (t : ℕ), ws.length = ss.length → ws.length ≤ gs.length → (updateAll upd t ws ss gs).2 = .done
  | [], _, _, _, _, _ => rfl
  | _ :: _, [], _, _, h, _ => by simp at h
  | _ :: _, _ :: _, [], _, _, h => by simp at h
  | w :: ws, s :: ss, g :: gs, t, h1, h2 => by
      simp only [updateAll]
      exact updateAll_done upd ws ss gs (t + 1) (by simpa using h1) (by simpa using h2)

theorem updateAll_short (upd : ℕ → T → S → T → T × S) : ∀ (ws : List T) (ss : List S) (gs : List T)
    (t : ℕ), ws.length = ss.length → gs.length < ws.length →
    (updateAll upd t ws ss gs).2 = .missingGradient
  | [], _, _, _, _, h => by simp at h
  | _ :: _, [], _, _, h, _ => by simp at h
  | _ :: _, _ :: _, [], _, _, _ => rfl
  | w :: ws, s :: ss, g :: gs, t, h1, h2 => by
      simp only [updateAll]
      exact updateAll_short upd ws ss gs (t + 1) (by simpa using h1) (by simpa using h2)

/-- An invariant of one weight, its slot and its layer's scalars, kept by every update whatever the
clock, holds after every history that finishes. -/
theorem run_inv (pre : ℕ → P → P) (upd : ℕ → P → T → S → T → T × S) (k i : ℕ)
    (I : List T → T → S → Prop) (Q : ℕ → P → Prop)
    (hQ : ∀ n t p, Q n p → Q (n + 1) (pre t p))
    (hI : ∀ gs t p w s g, Q (gs.length + 1) p → I gs w s →
      I (gs ++ [g]) (upd t p w s g).1 (upd t p w s g).2) :
    ∀ (h : List (ℕ × List T)) (o : Opt T S P) (gs : List T) (ss : List S) (p : P) (w : T) (s : S),
      (o.run pre upd h).2 = .done → o.slots k = some (ss, p) → ss.length = (o.weights k).length →
      (o.weights k)[i]? = some w → ss[i]? = some s → I gs w s → Q gs.length p →
      ∃ ss' p' w' s', (o.run pre upd h).1.slots k = some (ss', p') ∧
        ss'.length = ((o.run pre upd h).1.weights k).length ∧
        ((o.run pre upd h).1.weights k)[i]? = some w' ∧ ss'[i]? = some s' ∧
        I (gs ++ gradsOf h k i) w' s' ∧ Q (gs ++ gradsOf h k i).length p'
  | [], o, gs, ss, p, w, s, _, hs, hl, hw, hs', hi, hq =>
      ⟨ss, p, w, s, hs, hl, hw, hs', by simpa [gradsOf] using hi, by simpa [gradsOf] using hq⟩
  | (j, g) :: h, o, gs, ss, p, w, s, hd, hs, hl, hw, hs', hi, hq => by
      rw [Opt.run] at hd ⊢
      rcases he : o.apply pre upd j g with ⟨o', e⟩
      rw [he] at hd
      cases e with
      | unknownLayer => simp at hd
      | missingGradient => simp at hd
      | done =>
      simp only at hd ⊢
      by_cases hj : j = k
      · subst hj
        simp only [Opt.apply, hs, Prod.mk.injEq] at he
        obtain ⟨ho, hdone⟩ := he
        obtain ⟨l1, l2, _, get⟩ := updateAll_get _ _ _ _ _ hdone hl.symm
        obtain ⟨g', hg, a, b⟩ := get i w s hw hs'
        have q1 := congrArg (fun o => o.slots j) ho
        have q2 := congrArg (fun o => o.weights j) ho
        simp only [Function.update_self] at q1 q2
        have := run_inv pre upd j i I Q hQ hI h o' (gs ++ [g']) _ _ _ _ hd q1.symm
          (by rw [← q2, l1, l2, hl]) (by rw [← q2]; exact a) b
          (hI gs _ _ w s g' (hQ _ _ _ hq) hi) (by simpa using hQ _ _ _ hq)
        have eg : gradsOf ((j, g) :: h) j i = g' :: gradsOf h j i := by
          simp [gradsOf, List.filterMap_cons, hg]
        rw [eg]
        simpa using this
      · have eg : gradsOf ((j, g) :: h) k i = gradsOf h k i := by
          simp [gradsOf, List.filterMap_cons, hj]
        rw [eg]
        have hw' : o'.weights k = o.weights k ∧ o'.slots k = o.slots k := by
          simp only [Opt.apply] at he
          split at he
          · simp at he
          · simp only [Prod.mk.injEq] at he
            rw [← he.1]
            simp [Function.update_of_ne (Ne.symm hj)]
        exact run_inv pre upd k i I Q hQ hI h o' gs ss p w s hd (hw'.2 ▸ hs) (hw'.1 ▸ hl)
          (hw'.1 ▸ hw) hs' hi hq

/-- Every call names a compiled layer and brings a gradient for each of its weights. -/
def Supplied (o : Opt T S P) (h : List (ℕ × List T)) : Prop :=
  ∀ c ∈ h, (o.slots c.1).isSome ∧ (o.weights c.1).length ≤ c.2.length

/-- Each compiled layer has one slot per weight. -/
def Matched (o : Opt T S P) : Prop :=
  ∀ k ss p, o.slots k = some (ss, p) → ss.length = (o.weights k).length

theorem apply_keeps (pre : ℕ → P → P) (upd : ℕ → P → T → S → T → T × S) (o : Opt T S P)
    (hm : Matched o) (k : ℕ) (g : List T) (hk : (o.slots k).isSome)
    (hg : (o.weights k).length ≤ g.length) :
    (o.apply pre upd k g).2 = .done ∧ Matched (o.apply pre upd k g).1 ∧
      ∀ j, ((o.apply pre upd k g).1.slots j).isSome = (o.slots j).isSome ∧
        ((o.apply pre upd k g).1.weights j).length = (o.weights j).length := by
  obtain ⟨⟨ss, p⟩, hs⟩ := Option.isSome_iff_exists.1 hk
  have hl := hm k ss p hs
  have hd := updateAll_done (fun t => upd t (pre o.clock p)) (o.weights k) ss g (o.clock + 1) hl.symm hg
  obtain ⟨l1, l2, _, _⟩ := updateAll_get _ _ _ _ _ hd hl.symm
  simp only [Opt.apply, hs]
  refine ⟨hd, ?_, ?_⟩
  · intro j ss' p' hj
    by_cases e : j = k
    · subst e
      simp only [Function.update_self, Option.some.injEq, Prod.mk.injEq] at hj ⊢
      rw [← hj.1, l1, l2, hl]
    · simp only [Function.update_of_ne e] at hj ⊢
      exact hm j ss' p' hj
  · intro j
    by_cases e : j = k
    · subst e; simp [hs, l1]
    · simp [Function.update_of_ne e]

theorem run_done (pre : ℕ → P → P) (upd : ℕ → P → T → S → T → T × S) :
    ∀ (h : List (ℕ × List T)) (o : Opt T S P), Matched o → Supplied o h →
      (o.run pre upd h).2 = .done
  | [], _, _, _ => rfl
  | (k, g) :: h, o, hm, hs => by
      obtain ⟨hk, hg⟩ := hs (k, g) (by simp)
      obtain ⟨h1, h2, h3⟩ := apply_keeps pre upd o hm k g hk hg
      rw [Opt.run]
      rcases he : o.apply pre upd k g with ⟨o', e⟩
      rw [he] at h1 h2 h3
      simp only at h1 h2 h3
      subst h1
      refine run_done pre upd h o' h2 fun c hc => ?_
      rw [(h3 c.1).1, (h3 c.1).2]
      exact hs c (by simp [hc])

theorem compile_matched (s0 : S) (p0 : P) (o : Opt T S P) (layers : List ℕ) (hm : Matched o) :
    Matched (o.compile s0 p0 layers) := by
  intro k ss p h
  simp only [Opt.compile] at h ⊢
  split at h
  · simp only [Option.some.injEq, Prod.mk.injEq] at h
    rw [← h.1]; simp
  · exact hm k ss p h

end Verif.Keras
