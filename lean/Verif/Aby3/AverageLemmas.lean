import Verif.Aby3.Average
import Verif.Aby3.InvSqrtProps

/-!
# Both runs of a division and of an average
-/

namespace Verif.Aby3

open Verif

variable {w n : ℕ} {σ : Fin 3}

attribute [local irreducible] M.All M.Sim

theorem log2?_eq {y : ℚ} {a : ℤ} (h : log2? y = some a) : y = 2 ^ a := by
  unfold log2? at h
  split at h
  · rename_i hc
    cases h
    rw [zpow_natCast]
    have := Rat.num_div_den y
    rw [hc.1, Nat.cast_one, div_one] at this
    rw [← this]
    conv_lhs => rw [hc.2]
    push_cast
    rfl
  · split at h
    · rename_i hc
      cases h
      rw [zpow_neg, zpow_natCast]
      have := Rat.num_div_den y
      rw [hc.1, Int.cast_one, one_div] at this
      have e : (y.den : ℚ) = 2 ^ Nat.log 2 y.den := by exact_mod_cast hc.2
      rw [← e]
      exact this.symm
    · cases h

theorem log2?_natCast (k : ℕ) : log2? (k : ℚ) = some (Nat.log 2 k : ℤ) ∨
    (log2? (k : ℚ) = none ∧ ∀ a, k ≠ 2 ^ a) ∨ k = 0 := by
  have hiff : ((k : ℚ).den = 1 ∧ (k : ℚ).num = 2 ^ Nat.log 2 (k : ℚ).num.toNat) ↔ k = 2 ^ Nat.log 2 k := by
    rw [Rat.den_natCast, Rat.num_natCast, Int.toNat_natCast]
    constructor
    · rintro ⟨-, h⟩
      exact_mod_cast h
    · intro h
      exact ⟨rfl, by exact_mod_cast h⟩
  unfold log2?
  by_cases h : k = 2 ^ Nat.log 2 k
  · left
    rw [if_pos (hiff.2 h), Rat.num_natCast, Int.toNat_natCast]
  · right
    by_cases h0 : k = 0
    · exact .inr h0
    left
    have hne : ∀ a, k ≠ 2 ^ a := by
      rintro a rfl
      rw [Nat.log_pow (by norm_num)] at h
      exact h rfl
    rw [if_neg (fun hc => h (hiff.1 hc)), if_neg]
    · exact ⟨rfl, hne⟩
    · rintro ⟨h1, -⟩
      rw [Rat.num_natCast] at h1
      exact hne 0 (by exact_mod_cast h1)

/-- What a division does to one word. -/
def DivVal (frac : ℕ) (plan : DivPlan w) (x z : BitVec w) : Prop :=
  match plan with
  | .same => z = x
  | .right a _ => TruncOk .heuristic a x z
  | .left a => z = x <<< a
  | .times none c => z = x * c
  | .times (some _) c => TruncOk .heuristic frac (x * c) z

theorem divRun_sim {frac : ℕ} {sc : Bool} {y : ℚ} {plan : DivPlan w}
    (hp : divPlan w frac sc y = .ok plan) {x x' : T (.arith w n)} {X X' : Shares (T (.arith w n))}
    (hx : Alike σ x x' X X') :
    M.Sim σ (fun o o' => ∃ z z' : T (.arith w n), (∀ i, DivVal frac plan (x i) (z i)) ∧
      (∀ i, DivVal frac plan (x' i) (z' i)) ∧ (x = x' → z = z') ∧ Alike σ z z' o o') (divRun frac plan X)
      (divRun frac plan X') := by
  unfold divPlan at hp
  split at hp
  · cases hp
  split at hp
  · cases hp
    exact .pure ⟨x, x', fun _ => rfl, fun _ => rfl, id, hx⟩
  · split at hp
    · cases hp
    · rename_i p hpl
      cases hp
      refine (heurRun_round (heurPlan_bound hpl) hpl hx).mono ?_
      rintro o o' ⟨z, z', hz, hz', he, ho⟩
      exact ⟨z, z', hz, hz', he, ho⟩
  · cases hp
    exact .pure ⟨_, _, fun _ => rfl, fun _ => rfl, fun h => by rw [h], hx.map (f := alift (· <<< _)) fun a b => by
      funext i
      exact BitVec.shiftLeft_add_distrib⟩
  · split at hp
    · cases hp
    · rename_i pl hpl
      cases hp
      set c := constWord w (if sc = true then frac else 0) (1 / y) with hc
      have key := hx.bilinPub (u := .arith w n) (t := .arith w n) (f := fun u v => emul id id u v)
        (fun a b c => by rw [map_add]; rfl) (c := fun _ => c) (y := fun _ _ => c) (y' := fun _ _ => c)
        (fun _ => rfl) (fun _ => rfl)
      refine (mulRound_sim hpl key).mono ?_
      rintro o o' ⟨z, z', hz, hz', he, ho⟩
      refine ⟨z, z', fun i => ?_, fun i => ?_, fun h => he (by rw [h]), ho⟩
      all_goals
        unfold mulPlan at hpl
        unfold mulRounding at hz hz'
        cases hs : (sc && sc) with
        | false =>
          rw [hs] at hpl hz hz'
          simp only [Bool.false_eq_true, if_false, Except.ok.injEq] at hpl hz hz'
          subst hpl
          first
            | (have : z = _ := hz; subst this; rfl)
            | (have : z' = _ := hz'; subst this; rfl)
        | true =>
          rw [hs] at hpl hz hz'
          simp only [if_true] at hpl hz hz'
          split at hpl
          · cases hpl
          · simp only [Except.ok.injEq] at hpl
            subst hpl
            first
              | exact hz i
              | exact hz' i

/-- Lists of tensors of two runs. -/
inductive AlikeAll (σ : Fin 3) {s : Srt} : List (T s) → List (T s) → List (Shares (T s)) →
    List (Shares (T s)) → Prop
  | nil : AlikeAll σ [] [] [] []
  | cons {v v' vs vs' x x' xs xs'} : Alike σ v v' x x' → AlikeAll σ vs vs' xs xs' →
      AlikeAll σ (v :: vs) (v' :: vs') (x :: xs) (x' :: xs')

theorem shareAll_sim {s : Srt} (vs vs' : List (T s)) (h : vs.length = vs'.length) :
    M.Sim σ (AlikeAll σ vs vs') (shareAll vs) (shareAll vs') := by
  induction vs generalizing vs' with
  | nil =>
    obtain rfl : vs' = [] := List.length_eq_zero_iff.1 h.symm
    exact .pure .nil
  | cons v vs ih =>
    cases vs' with
    | nil => cases h
    | cons v' vs' =>
      refine .bind (share_sim v v' σ) fun x x' hx => ?_
      refine .bind (ih vs' (by simpa using h)) fun xs xs' hxs => ?_
      exact .pure (.cons hx hxs)

theorem addN_alike {s : Srt} {v v' : T s} {x x' : Shares (T s)} {vs vs' : List (T s)}
    {xs xs' : List (Shares (T s))} (h : Alike σ v v' x x') (hs : AlikeAll σ vs vs' xs xs') :
    Alike σ (vs.foldl (· + ·) v) (vs'.foldl (· + ·) v') (addN x xs) (addN x' xs') := by
  induction hs generalizing v v' x x' with
  | nil => exact h
  | cons hx _ ih => exact ih (h.add hx)

/-- What an average does to the entries at one place. -/
theorem average_sim {frac : ℕ} {v v' : T (.arith w n)} {vs vs' : List (T (.arith w n))}
    (hl : vs.length = vs'.length) {plan : DivPlan w}
    (hp : divPlan w frac true ((vs.length + 1 : ℕ) : ℚ) = .ok plan) :
    ∃ p p', average frac (v :: vs) = .ok p ∧ average frac (v' :: vs') = .ok p' ∧
      M.Sim σ (fun o o' => ∃ z z' : T (.arith w n),
        (∀ i, DivVal frac plan (vs.foldl (· + ·) v i) (z i)) ∧
        (∀ i, DivVal frac plan (vs'.foldl (· + ·) v' i) (z' i)) ∧
        (vs.foldl (· + ·) v = vs'.foldl (· + ·) v' → z = z') ∧ Alike σ z z' o o') p p' := by
  have hp' : divPlan w frac true ((vs'.length + 1 : ℕ) : ℚ) = .ok plan := by rw [← hl]; exact hp
  refine ⟨do
      let x ← share v
      let xs ← shareAll vs
      divRun frac plan (addN x xs), do
      let x ← share v'
      let xs ← shareAll vs'
      divRun frac plan (addN x xs), ?_, ?_, ?_⟩
  · show (match divPlan w frac true ((vs.length + 1 : ℕ) : ℚ) with
      | .error e => Except.error e
      | .ok plan => _) = _
    rw [hp]
  · show (match divPlan w frac true ((vs'.length + 1 : ℕ) : ℚ) with
      | .error e => Except.error e
      | .ok plan => _) = _
    rw [hp']
  · refine .bind (share_sim v v' σ) fun x x' hx => ?_
    refine .bind (shareAll_sim vs vs' hl) fun xs xs' hxs => ?_
    exact divRun_sim hp (addN_alike hx hxs)

end Verif.Aby3
