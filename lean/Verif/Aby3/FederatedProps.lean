import Verif.Aby3.Federated
import Mathlib.Algebra.Order.BigOperators.Group.List
import Mathlib.Algebra.BigOperators.Intervals
import Mathlib.Tactic.FinCases

/-!
# C89: federated learning with secure aggregation

For every number of rounds, owners and weights, all gradients, sharings and draws.
-/

namespace Verif.Aby3

open Verif

variable {w n : ℕ}

attribute [local irreducible] M.All M.Sim

theorem sum_abs_le {G : ℚ} (l : List (Grad n)) (θ : Fin n → ℚ) (i : Fin n) (h : ∀ g ∈ l, ∀ θ i, |g θ i| ≤ G) :
    (l.map fun g => |g θ i|).sum ≤ l.length * G := by
  induction l with
  | nil => simp
  | cons g l ih =>
    have h1 := h g (by simp) θ i
    have h2 := ih fun g hg => h g (by simp [hg])
    simp only [List.map_cons, List.sum_cons, List.length_cons]
    push_cast
    linarith

theorem fedRound_ok {frac : ℕ} {lr : ℚ} {owners : List (Grad n)} (h : owners ≠ []) {θ : Fin n → ℚ}
    {p : M (Shares (T (.arith w n)))} (hp : average frac (shared w frac owners θ) = .ok p) :
    fedRound w frac lr owners θ =
      (do let z ← p; return .ok fun i => θ i - real frac (reconstruct z none i) * lr) := by
  cases owners with
  | nil => exact absurd rfl h
  | cons g gs =>
    unfold fedRound
    dsimp only
    rw [hp]

theorem fedRound_error {frac : ℕ} {lr : ℚ} {owners : List (Grad n)} (h : owners ≠ []) {θ : Fin n → ℚ}
    {e : Err} (hp : average frac (shared w frac owners θ) = .error e) :
    fedRound w frac lr owners θ = (return .error e) := by
  cases owners with
  | nil => exact absurd rfl h
  | cons g gs =>
    unfold fedRound
    dsimp only
    rw [hp]

/-- One round: the weights move along the average gradient, off by at most `2 + k G` units. -/
theorem fedRound_close {frac k : ℕ} (hw : 2 * frac + 2 ≤ w) {lr G : ℚ} {owners : List (Grad n)}
    (hk : owners.length = k) (hk0 : 0 < k) (hm : (k : ℚ) * 2 ^ (frac + 2) ≤ 2 ^ w)
    (hG : ∀ g ∈ owners, ∀ θ i, |g θ i| ≤ G) (h1 : (k : ℚ) * G * 2 ^ frac < 2 ^ (w - 2))
    (h2 : G * (2 ^ frac * 2 ^ frac) < 2 ^ (w - 2)) (θ : Fin n → ℚ) :
    M.All (fun r => ∃ e : Fin n → ℚ, (∀ i, |e i| ≤ (2 + k * G) / 2 ^ frac) ∧
      r = .ok fun i => θ i - lr * (meanGrad owners θ i + e i)) (fedRound w frac lr owners θ) := by
  have hkq : (0 : ℚ) < k := by exact_mod_cast hk0
  have hN : (0 : ℚ) < 2 ^ frac := by positivity
  have hs : ∀ i, ((owners.map fun g => g θ).map fun q => |q i|).sum ≤ k * G := by
    intro i
    have := sum_abs_le owners θ i hG
    rw [hk] at this
    rw [List.map_map]
    exact this
  have hl : (owners.map fun g => g θ).length = k := by rw [List.length_map, hk]
  obtain ⟨p, e, hp⟩ := average_close (n := n) hw (owners.map fun g => g θ) (by
      intro h
      rw [h] at hl
      simp at hl
      omega) (by rw [hl]; exact hm)
    (fun i => lt_of_le_of_lt (mul_le_mul_of_nonneg_right (hs i) hN.le) h1)
    (fun i => by
      rw [hl]
      refine lt_of_le_of_lt (mul_le_mul_of_nonneg_right ?_ (by positivity)) h2
      rw [div_le_iff₀ hkq]
      linarith [hs i])
  have e' : average frac (shared w frac owners θ) = .ok p := by
    rw [← e]
    unfold shared
    rw [List.map_map]
    rfl
  rw [fedRound_ok (by rintro rfl; simp at hk; omega) e']
  refine M.All.bind hp fun o ho => M.all_pure.2 ?_
  obtain ⟨z, hz, hb⟩ := ho
  refine ⟨fun i => real frac (z i) - meanGrad owners θ i, fun i => ?_, ?_⟩
  · have := (hb i).1
    rw [hl, List.map_map] at this
    refine le_trans (b := (2 + ((owners.map fun g => g θ).map fun q => |q i|).sum) / 2 ^ frac) ?_ ?_
    · unfold meanGrad
      rw [hk]
      exact this
    · exact div_le_div_of_nonneg_right (by linarith [hs i]) hN.le
  · rw [hz.reconstruct]
    congr 1
    funext i
    ring

/-- **C89** (accuracy). With at least one owner of data in every round, gradients bounded by `G` and
enough bits, nothing is raised and, whatever is drawn, the weights after any number of rounds are the
result of gradient descent along the average gradients, where every entry is off by at most `2 + k G`
units. -/
theorem federated_descends {frac k : ℕ} (hw : 2 * frac + 2 ≤ w) {lr G : ℚ} {rounds : List (List (Grad n))}
    (hk : ∀ r ∈ rounds, r.length = k) (hk0 : 0 < k) (hm : (k : ℚ) * 2 ^ (frac + 2) ≤ 2 ^ w)
    (hG : Bounded G rounds) (h1 : (k : ℚ) * G * 2 ^ frac < 2 ^ (w - 2))
    (h2 : G * (2 ^ frac * 2 ^ frac) < 2 ^ (w - 2)) (θ : Fin n → ℚ) :
    M.All (fun r => ∃ θ', r = .ok θ' ∧ Descends lr ((2 + k * G) / 2 ^ frac) rounds θ θ')
      (fedTrain w frac lr rounds θ) := by
  induction rounds generalizing θ with
  | nil => exact M.all_pure.2 ⟨θ, rfl, rfl⟩
  | cons r rs ih =>
    refine M.All.bind (fedRound_close (lr := lr) hw (hk r (by simp)) hk0 hm (hG r (by simp)) h1 h2 θ) ?_
    rintro _ ⟨e, he, rfl⟩
    refine M.All.mono (ih (fun r hr => hk r (by simp [hr])) (fun r hr => hG r (by simp [hr])) _) ?_
    rintro _ ⟨θ', rfl, hd⟩
    exact ⟨θ', rfl, e, he, hd⟩

/-- The averages of smooth gradients are smooth. -/
theorem mean_smooth {L d : ℚ} {r : List (Grad n)} (hr : r ≠ [])
    (h : ∀ g ∈ r, ∀ θ θ' d, (∀ j, |θ j - θ' j| ≤ d) → ∀ i, |g θ i - g θ' i| ≤ L * d) {θ θ' : Fin n → ℚ}
    (hd : ∀ j, |θ j - θ' j| ≤ d) (i : Fin n) : |meanGrad r θ i - meanGrad r θ' i| ≤ L * d := by
  have hl : (0 : ℚ) < r.length := by exact_mod_cast List.length_pos_iff.2 hr
  have hs : |(r.map fun g => g θ i).sum - (r.map fun g => g θ' i).sum| ≤ r.length * (L * d) := by
    clear hl hr
    induction r with
    | nil => simp
    | cons g r ih =>
      have g1 := h g (by simp) θ θ' d hd i
      have g2 := ih fun g hg => h g (by simp [hg])
      simp only [List.map_cons, List.sum_cons, List.length_cons]
      have : g θ i + (r.map fun g => g θ i).sum - (g θ' i + (r.map fun g => g θ' i).sum) =
        (g θ i - g θ' i) + ((r.map fun g => g θ i).sum - (r.map fun g => g θ' i).sum) := by ring
      rw [this]
      refine (abs_add_le _ _).trans ?_
      push_cast
      linarith
  unfold meanGrad
  rw [← sub_div, abs_div, abs_of_pos hl, div_le_iff₀ hl]
  linarith

/-- Noisy descent stays close to exact descent. -/
theorem descends_close {lr ε L : ℚ} (hlr : 0 ≤ lr) {rounds : List (List (Grad n))}
    (hne : ∀ r ∈ rounds, r ≠ []) (hS : Smooth L rounds) :
    ∀ {θ θ₀ θ' : Fin n → ℚ} {d : ℚ}, Descends lr ε rounds θ θ' → (∀ i, |θ i - θ₀ i| ≤ d) →
      ∀ i, |θ' i - descend lr rounds θ₀ i| ≤
        (1 + lr * L) ^ rounds.length * d + lr * ε * ∑ t ∈ Finset.range rounds.length, (1 + lr * L) ^ t := by
  induction rounds with
  | nil =>
    intro θ θ₀ θ' d h hd i
    obtain rfl : θ' = θ := h
    simpa [descend] using hd i
  | cons r rs ih =>
    rintro θ θ₀ θ' d ⟨e, he, h⟩ hd i
    have step : ∀ i, |(θ i - lr * (meanGrad r θ i + e i)) - (θ₀ i - lr * meanGrad r θ₀ i)| ≤
        (1 + lr * L) * d + lr * ε := by
      intro i
      have e1 : (θ i - lr * (meanGrad r θ i + e i)) - (θ₀ i - lr * meanGrad r θ₀ i) =
          (θ i - θ₀ i) + (-(lr * (meanGrad r θ i - meanGrad r θ₀ i)) + -(lr * e i)) := by ring
      rw [e1]
      have a1 := mean_smooth (hne r (by simp)) (hS r (by simp)) hd i
      have a2 : |-(lr * (meanGrad r θ i - meanGrad r θ₀ i))| ≤ lr * (L * d) := by
        rw [abs_neg, abs_mul, abs_of_nonneg hlr]
        exact mul_le_mul_of_nonneg_left a1 hlr
      have a3 : |-(lr * e i)| ≤ lr * ε := by
        rw [abs_neg, abs_mul, abs_of_nonneg hlr]
        exact mul_le_mul_of_nonneg_left (he i) hlr
      refine (abs_add_le _ _).trans ?_
      have := (abs_add_le (-(lr * (meanGrad r θ i - meanGrad r θ₀ i))) (-(lr * e i)))
      linarith [hd i]
    refine (ih (fun r hr => hne r (by simp [hr])) (fun r hr => hS r (by simp [hr])) h step i).trans
      (le_of_eq ?_)
    rw [List.length_cons, Finset.sum_range_succ, pow_succ]
    ring

/-- **C89** (accuracy over many rounds). If the gradients are also smooth, the weights after `T` rounds
differ from those of exact gradient descent by at most `lr ε Σ_{t<T} (1 + lr L)^t` with
`ε = (2 + k G)` units. -/
theorem federated_close {frac k : ℕ} (hw : 2 * frac + 2 ≤ w) {lr G L : ℚ} (hlr : 0 ≤ lr)
    {rounds : List (List (Grad n))}
    (hk : ∀ r ∈ rounds, r.length = k) (hk0 : 0 < k) (hm : (k : ℚ) * 2 ^ (frac + 2) ≤ 2 ^ w)
    (hG : Bounded G rounds) (hS : Smooth L rounds) (h1 : (k : ℚ) * G * 2 ^ frac < 2 ^ (w - 2))
    (h2 : G * (2 ^ frac * 2 ^ frac) < 2 ^ (w - 2)) (θ : Fin n → ℚ) :
    M.All (fun r => ∃ θ', r = .ok θ' ∧ ∀ i, |θ' i - descend lr rounds θ i| ≤
      lr * ((2 + k * G) / 2 ^ frac) * ∑ t ∈ Finset.range rounds.length, (1 + lr * L) ^ t)
      (fedTrain w frac lr rounds θ) := by
  refine M.All.mono (federated_descends hw hk hk0 hm hG h1 h2 θ) ?_
  rintro _ ⟨θ', rfl, hd⟩
  refine ⟨θ', rfl, fun i => ?_⟩
  have := descends_close hlr (fun r hr e => by
    have := hk r hr
    rw [e] at this
    simp at this
    omega) hS (θ₀ := θ) (d := 0) hd (by simp) i
  simpa using this

/-- Three owners with constant gradients 1, 2 and 3 and two weights, 64 bits of which 16 are
fractional, ten rounds: the hypotheses hold. -/
example : M.All (fun r => ∃ θ' : Fin 2 → ℚ, r = .ok θ' ∧ ∀ i, |θ' i - descend (1 / 10)
      (List.replicate 10 [fun _ _ => 1, fun _ _ => 2, fun _ _ => 3]) (fun _ => 0) i| ≤
      1 / 10 * ((2 + (3 : ℕ) * 3) / 2 ^ 16) * ∑ t ∈ Finset.range 10, (1 + 1 / 10 * 0) ^ t)
    (fedTrain 64 16 (1 / 10) (List.replicate 10 [fun _ _ => 1, fun _ _ => 2, fun _ _ => 3]) fun _ => 0) := by
  have := federated_close (w := 64) (n := 2) (frac := 16) (k := 3) (G := 3) (L := 0) (lr := 1 / 10) (by norm_num)
    (by norm_num) (rounds := List.replicate 10 [fun _ _ => 1, fun _ _ => 2, fun _ _ => 3])
    (fun r hr => by rw [List.eq_of_mem_replicate hr]; rfl) (by norm_num) (by norm_num)
    (fun r hr g hg θ i => by
      rw [List.eq_of_mem_replicate hr] at hg
      simp only [List.mem_cons, List.not_mem_nil, or_false] at hg
      rcases hg with rfl | rfl | rfl <;> norm_num)
    (fun r hr g hg θ θ' d hd i => by
      rw [List.eq_of_mem_replicate hr] at hg
      simp only [List.mem_cons, List.not_mem_nil, or_false] at hg
      rcases hg with rfl | rfl | rfl <;> norm_num)
    (by norm_num) (by norm_num) (fun _ => 0)
  simpa using this

/-- Without owners of data the training changes nothing (and raises nothing). -/
theorem federated_nobody (frac t : ℕ) (lr : ℚ) (θ : Fin n → ℚ) :
    M.All (fun r => r = .ok θ) (fedTrain w frac lr (List.replicate t []) θ) := by
  induction t with
  | zero => exact M.all_pure.2 rfl
  | succ t ih =>
    rw [List.replicate_succ]
    refine M.All.bind (P := fun r : Except Err (Fin n → ℚ) => r = .ok θ) (M.all_pure.2 rfl) ?_
    rintro _ rfl
    exact ih

/-! ## Secrecy -/

/-- Two sharings of the same value that agree at one server are the same. -/
theorem alike_eq {σ : Fin 3} {z : T (.arith w n)} {o o' : Shares (T (.arith w n))}
    (h : Alike σ z z o o') : o = o' := by
  obtain ⟨⟨hc, hs⟩, ⟨hc', hs'⟩, he⟩ := h
  have c0 : (o 0).2 = (o 1).1 := hc 0
  have c1 : (o 1).2 = (o 2).1 := hc 1
  have c2 : (o 2).2 = (o 0).1 := hc 2
  have c0' : (o' 0).2 = (o' 1).1 := hc' 0
  have c1' : (o' 1).2 = (o' 2).1 := hc' 1
  have c2' : (o' 2).2 = (o' 0).1 := hc' 2
  have key : (o 0).1 = (o' 0).1 ∧ (o 1).1 = (o' 1).1 ∧ (o 2).1 = (o' 2).1 := by
    have hss := hs.trans hs'.symm
    fin_cases σ
    · have a : (o 0).1 = (o' 0).1 := congrArg Prod.fst he
      have b : (o 1).1 = (o' 1).1 := by rw [← c0, ← c0']; exact congrArg Prod.snd he
      rw [a, b] at hss
      exact ⟨a, b, add_left_cancel hss⟩
    · have a : (o 1).1 = (o' 1).1 := congrArg Prod.fst he
      have b : (o 2).1 = (o' 2).1 := by rw [← c1, ← c1']; exact congrArg Prod.snd he
      rw [a, b] at hss
      exact ⟨add_right_cancel (add_right_cancel hss), a, b⟩
    · have a : (o 2).1 = (o' 2).1 := congrArg Prod.fst he
      have b : (o 0).1 = (o' 0).1 := by rw [← c2, ← c2']; exact congrArg Prod.snd he
      rw [a, b] at hss
      exact ⟨b, add_left_cancel (add_right_cancel hss), a⟩
  obtain ⟨k0, k1, k2⟩ := key
  funext i
  fin_cases i
  · exact Prod.ext k0 (by show (o 0).2 = (o' 0).2; rw [c0, c0', k1])
  · exact Prod.ext k1 (by show (o 1).2 = (o' 1).2; rw [c1, c1', k2])
  · exact Prod.ext k2 (by show (o 2).2 = (o' 2).2; rw [c2, c2', k0])

/-- Both runs of an average are possible or none. -/
theorem average_both {frac : ℕ} (σ : Fin 3) {vs vs' : List (T (.arith w n))}
    (hl : vs.length = vs'.length) :
    (∃ e, average frac vs = .error e ∧ average frac vs' = .error e) ∨
    ∃ p p', average frac vs = .ok p ∧ average frac vs' = .ok p' ∧
      M.Sim σ (fun o o' => vs.sum = vs'.sum → o = o') p p' := by
  cases vs with
  | nil =>
    obtain rfl : vs' = [] := List.length_eq_zero_iff.1 hl.symm
    exact .inl ⟨_, rfl, rfl⟩
  | cons v vs =>
    cases vs' with
    | nil => cases hl
    | cons v' vs' =>
      have hl : vs.length = vs'.length := by simpa using hl
      cases hd : divPlan w frac true ((vs.length + 1 : ℕ) : ℚ) with
      | error e =>
        left
        refine ⟨e, ?_, ?_⟩
        · show (match divPlan w frac true ((vs.length + 1 : ℕ) : ℚ) with
            | .error e => Except.error e
            | .ok plan => _) = _
          rw [hd]
        · show (match divPlan w frac true ((vs'.length + 1 : ℕ) : ℚ) with
            | .error e => Except.error e
            | .ok plan => _) = _
          rw [← hl, hd]
      | ok plan =>
        right
        obtain ⟨p, p', e, e', hs⟩ := average_sim (σ := σ) (v := v) (v' := v') (vs := vs) (vs' := vs') hl hd
        refine ⟨p, p', e, e', hs.mono ?_⟩
        rintro o o' ⟨z, z', -, -, hz, ho⟩ hsum
        have fs : ∀ (v : T (.arith w n)) (vs : List (T (.arith w n))),
            vs.foldl (· + ·) v = (v :: vs).sum := by
          intro v vs
          rw [List.sum_eq_foldl, List.foldl_cons, zero_add]
        have hzz := hz (by rw [fs, fs]; exact hsum)
        subst hzz
        exact alike_eq ho

/-- Two runs of a round: the same messages, and the same result if the weights and the sums agree. -/
theorem fedRound_both {frac : ℕ} (σ : Fin 3) (lr : ℚ) {r r' : List (Grad n)} (hl : r.length = r'.length)
    (θ θ' : Fin n → ℚ) :
    M.Sim σ (fun a a' => (∃ e, a = .error e ∧ a' = .error e) ∨ ∃ b b', a = .ok b ∧ a' = .ok b' ∧
        (θ = θ' → (shared w frac r θ).sum = (shared w frac r' θ').sum → b = b'))
      (fedRound w frac lr r θ) (fedRound w frac lr r' θ') := by
  by_cases hr : r = []
  · subst hr
    obtain rfl : r' = [] := List.length_eq_zero_iff.1 hl.symm
    exact .pure (.inr ⟨_, _, rfl, rfl, fun h _ => h⟩)
  have hr' : r' ≠ [] := by
    rintro rfl
    exact hr (List.length_eq_zero_iff.1 hl)
  rcases average_both (frac := frac) σ (vs := shared w frac r θ) (vs' := shared w frac r' θ')
    (by simp [shared, hl]) with ⟨e, e1, e2⟩ | ⟨p, p', e1, e2, hs⟩
  · rw [fedRound_error hr e1, fedRound_error hr' e2]
    exact .pure (.inl ⟨e, rfl, rfl⟩)
  · rw [fedRound_ok hr e1, fedRound_ok hr' e2]
    refine M.Sim.bind hs fun o o' ho => .pure (.inr ⟨_, _, rfl, rfl, fun hθ hsum => ?_⟩)
    rw [ho hsum, hθ]

/-- **C89** (secrecy, servers). What a server sees of the whole training depends only on the number of
rounds and owners: neither on the gradients nor on the weights. -/
theorem federated_secrecy {frac : ℕ} (σ : Fin 3) (lr : ℚ) {rounds rounds' : List (List (Grad n))}
    (hl : rounds.map List.length = rounds'.map List.length) (θ θ' : Fin n → ℚ) :
    M.view σ (fedTrain w frac lr rounds θ) = M.view σ (fedTrain w frac lr rounds' θ') := by
  suffices h : M.Sim σ (fun _ _ => True) (fedTrain w frac lr rounds θ) (fedTrain w frac lr rounds' θ') from
    h.dist_eq
  induction rounds generalizing rounds' θ θ' with
  | nil =>
    obtain rfl : rounds' = [] := by simpa using hl
    exact .pure trivial
  | cons r rs ih =>
    cases rounds' with
    | nil => cases hl
    | cons r' rs' =>
      simp only [List.map_cons, List.cons.injEq] at hl
      refine M.Sim.bind (fedRound_both σ lr hl.1 θ θ') ?_
      rintro a a' (⟨e, rfl, rfl⟩ | ⟨b, b', rfl, rfl, -⟩)
      · exact .pure trivial
      · exact ih hl.2 b b'

/-- **C89** (secrecy, owner of the model). Everything that the owner of the model receives in a round,
the three shares of the average, depends only on the sum of the encoded gradients and the number of
owners, not on the single gradients. -/
theorem aggregate_hides {frac : ℕ} {owners owners' : List (Grad n)} {θ θ' : Fin n → ℚ}
    (hl : owners.length = owners'.length)
    (hsum : (shared w frac owners θ).sum = (shared w frac owners' θ').sum)
    {p p' : M (Shares (T (.arith w n)))} (h : average frac (shared w frac owners θ) = .ok p)
    (h' : average frac (shared w frac owners' θ') = .ok p') :
    (RandM.dist p).map Prod.fst = (RandM.dist p').map Prod.fst := by
  rcases average_both (frac := frac) 0 (vs := shared w frac owners θ) (vs' := shared w frac owners' θ')
    (by simp [shared, hl]) with ⟨e, e1, -⟩ | ⟨q, q', e1, e2, hs⟩
  · rw [e1] at h
    cases h
  · rw [e1] at h
    rw [e2] at h'
    cases h
    cases h'
    unfold M.Sim at hs
    exact RandM.Coupled.dist_map_eq hs _ _ fun _ _ hr => hr.1 hsum

/-- **C89** (secrecy, owner of the model, all rounds). If in every round the encoded gradients of the
owners have the same sum at all weights, the distribution of the trained weights is the same. -/
theorem federated_result {frac : ℕ} (lr : ℚ) {rounds rounds' : List (List (Grad n))}
    (h : List.Forall₂ (fun r r' => r.length = r'.length ∧
      ∀ θ, (shared w frac r θ).sum = (shared w frac r' θ).sum) rounds rounds') (θ : Fin n → ℚ) :
    (RandM.dist (fedTrain w frac lr rounds θ)).map Prod.fst =
      (RandM.dist (fedTrain w frac lr rounds' θ)).map Prod.fst := by
  have hs : M.Sim 0 (fun a a' => a = a') (fedTrain w frac lr rounds θ) (fedTrain w frac lr rounds' θ) := by
    induction h generalizing θ with
    | nil => exact .pure rfl
    | cons hr _ ih =>
      refine M.Sim.bind (fedRound_both 0 lr hr.1 θ θ) ?_
      rintro a a' (⟨e, rfl, rfl⟩ | ⟨b, b', rfl, rfl, hb⟩)
      · exact .pure rfl
      · obtain rfl := hb rfl (hr.2 θ)
        exact ih b
  unfold M.Sim at hs
  exact RandM.Coupled.dist_map_eq hs _ _ fun _ _ hr => hr.1

/-- Two owners may exchange their gradients without the owner of the model noticing. -/
example (frac : ℕ) (g g' : Grad n) (lr : ℚ) (θ : Fin n → ℚ) :
    (RandM.dist (fedTrain w frac lr [[g, g'], [g, g']] θ)).map Prod.fst =
      (RandM.dist (fedTrain w frac lr [[g', g], [g, g']] θ)).map Prod.fst := by
  have h : ∀ θ, (shared w frac [g, g'] θ).sum = (shared w frac [g', g] θ).sum := by
    intro θ
    simp only [shared, List.map_cons, List.map_nil, List.sum_cons, List.sum_nil, add_zero]
    exact add_comm _ _
  exact federated_result (rounds := [[g, g'], [g, g']]) (rounds' := [[g', g], [g, g']]) lr
    (.cons ⟨rfl, h⟩ (.cons ⟨rfl, fun _ => rfl⟩ .nil)) θ

end Verif.Aby3
