import Verif.Aby3.PolyLemmas

/-!
# Lemmas: polynomials and the choice of a piece
-/

namespace Verif.Aby3

open Verif

variable {w n : ℕ} {σ : Fin 3}

/-! ## Polynomials -/

/-- A possible value of the term of degree `i`. -/
def TermVal (frac : ℕ) (sc : Bool) (x : T (.arith w n)) (i : ℕ) (t : T (.arith w n)) :
    Coeff w → Prop
  | .zero => False
  | .int c => ∃ y, ProdVal frac sc (List.replicate i x) y ∧ t = fun k => c * y k
  | .word c => ∃ y, ProdVal frac sc (List.replicate i x) y ∧
      (mulRounding frac sc sc).Ok (fun k => y k * c : T (.arith w n)) t
  | .shift a => ∃ y, ProdVal frac sc (List.replicate i x) y ∧ ∀ k, TruncOk .heuristic a (y k) (t k)

/-- A possible value of the polynomial with coefficients `cs` from degree `i` on, plus `acc`. -/
inductive PolyVal (frac : ℕ) (sc : Bool) (x : T (.arith w n)) :
    ℕ → List (Coeff w) → T (.arith w n) → T (.arith w n) → Prop
  | nil (i : ℕ) (acc : T (.arith w n)) : PolyVal frac sc x i [] acc acc
  | skip {i : ℕ} {cs : List (Coeff w)} {acc z : T (.arith w n)}
      (h : PolyVal frac sc x (i + 1) cs acc z) : PolyVal frac sc x i (.zero :: cs) acc z
  | term {i : ℕ} {c : Coeff w} {cs : List (Coeff w)} {acc t z : T (.arith w n)}
      (ht : TermVal frac sc x i t c) (h : PolyVal frac sc x (i + 1) cs (t + acc) z) :
      PolyVal frac sc x i (c :: cs) acc z

attribute [local irreducible] M.All M.Sim

theorem term_sim {frac : ℕ} {sc : Bool} {i : ℕ} (hi : 0 < i) {c : Coeff w} {x x' : T (.arith w n)}
    {X X' : Shares (T (.arith w n))} (hx : Alike σ x x' X X')
    {m m' : M (Shares (T (.arith w n)))} (hm : term frac sc X i c = .ok (some m))
    (hm' : term frac sc X' i c = .ok (some m')) :
    M.Sim σ (fun o o' => ∃ t t', TermVal frac sc x i t c ∧ TermVal frac sc x' i t' c ∧
      Alike σ t t' o o') m m' := by
  cases c with
  | zero => cases hm
  | int c =>
    simp only [term] at hm hm'
    split at hm
    · cases hm
    · rename_i y hy
      split at hm'
      · cases hm'
      · rename_i y' hy'
        simp only [Except.ok.injEq, Option.some.injEq] at hm hm'
        subst hm hm'
        refine M.Sim.bind (pow_products hi hx hy hy') ?_
        rintro z z' ⟨v, v', hv, hv', hz⟩
        refine .pure ⟨_, _, ⟨v, hv, rfl⟩, ⟨v', hv', rfl⟩, ?_⟩
        exact hz.pubBilin (u := .arith w n) (f := fun u v => emul id id u v)
          (fun a b c => by rw [map_add]) (c := fun _ => c) (fun _ => rfl) (fun _ => rfl)
  | word c =>
    simp only [term] at hm hm'
    split at hm
    · cases hm
    · cases hm
    · rename_i y plan hy hp
      split at hm'
      · cases hm'
      · cases hm'
      · rename_i y' plan' hy' hp'
        rw [hp] at hp'
        cases hp'
        simp only [Except.ok.injEq, Option.some.injEq] at hm hm'
        subst hm hm'
        refine M.Sim.bind (pow_products hi hx hy hy') ?_
        rintro z z' ⟨v, v', hv, hv', hz⟩
        have key := hz.bilinPub (u := .arith w n) (t := .arith w n) (f := fun u v => emul id id u v)
          (fun a b c => by rw [map_add]; rfl) (c := fun _ => c) (y := fun _ _ => c) (y' := fun _ _ => c)
          (fun _ => rfl) (fun _ => rfl)
        refine (mulRound_sim hp key).mono ?_
        rintro o o' ⟨t, t', h1, h2, -, h⟩
        exact ⟨t, t', ⟨v, hv, h1⟩, ⟨v', hv', h2⟩, h⟩
  | shift a =>
    simp only [term] at hm hm'
    split at hm
    · cases hm
    · cases hm
    · rename_i y plan hy hp
      split at hm'
      · cases hm'
      · cases hm'
      · rename_i y' plan' hy' hp'
        rw [hp] at hp'
        cases hp'
        simp only [Except.ok.injEq, Option.some.injEq] at hm hm'
        subst hm hm'
        refine M.Sim.bind (pow_products hi hx hy hy') ?_
        rintro z z' ⟨v, v', hv, hv', hz⟩
        refine (heurRun_round (heurPlan_bound hp) hp hz).mono ?_
        rintro o o' ⟨t, t', h1, h2, -, h⟩
        exact ⟨t, t', ⟨v, hv, h1⟩, ⟨v', hv', h2⟩, h⟩

/-- Whether a term is left out depends on the coefficient only. -/
theorem term_none {frac : ℕ} {sc : Bool} {i : ℕ} {c : Coeff w} {X : Shares (T (.arith w n))}
    (h : term frac sc X i c = .ok none) : c = .zero := by
  cases c with
  | zero => rfl
  | int c => simp only [term] at h; split at h <;> cases h
  | word c => simp only [term] at h; split at h <;> cases h
  | shift a => simp only [term] at h; split at h <;> cases h

theorem term_some {frac : ℕ} {sc : Bool} {i : ℕ} {c : Coeff w} {X : Shares (T (.arith w n))}
    {m : M (Shares (T (.arith w n)))} (h : term frac sc X i c = .ok (some m)) : c ≠ .zero := by
  rintro rfl
  cases h

theorem termList_sim {frac : ℕ} {sc : Bool} {x x' : T (.arith w n)}
    {X X' : Shares (T (.arith w n))} (hx : Alike σ x x' X X') :
    ∀ (cs : List (Coeff w)) (i : ℕ) (_ : 0 < i) (l l' : List (M (Shares (T (.arith w n))))),
      termList frac sc X i cs = .ok l → termList frac sc X' i cs = .ok l' →
      ∀ (a a' : T (.arith w n)) (A A' : Body (.arith w n)), BRel σ a a' A A' →
        M.Sim σ (fun o o' => ∃ z z', PolyVal frac sc x i cs a z ∧ PolyVal frac sc x' i cs a' z' ∧
          BRel σ z z' o o') (sumTerms l A) (sumTerms l' A') := by
  intro cs
  induction cs with
  | nil =>
    intro i hi l l' hl hl' a a' A A' hA
    simp only [termList, Except.ok.injEq] at hl hl'
    subst hl hl'
    exact .pure ⟨a, a', .nil _ _, .nil _ _, hA⟩
  | cons c cs ih =>
    intro i hi l l' hl hl' a a' A A' hA
    simp only [termList] at hl hl'
    split at hl
    · cases hl
    · cases hl
    · rename_i l₁ h1 h2
      have hc := term_none h1
      subst hc
      simp only [Except.ok.injEq] at hl
      subst hl
      split at hl'
      · cases hl'
      · cases hl'
      · rename_i l₂ h3 h4
        simp only [Except.ok.injEq] at hl'
        subst hl'
        refine (ih (i + 1) (by omega) _ _ h2 h4 a a' A A' hA).mono ?_
        rintro o o' ⟨z, z', hz, hz', h⟩
        exact ⟨z, z', .skip hz, .skip hz', h⟩
      · rename_i m l₂ h3 h4
        exact absurd rfl (term_some h3)
    · rename_i m l₁ h1 h2
      simp only [Except.ok.injEq] at hl
      subst hl
      split at hl'
      · cases hl'
      · cases hl'
      · rename_i l₂ h3 h4
        exact absurd (term_none h3) (term_some h1)
      · rename_i m' l₂ h3 h4
        simp only [Except.ok.injEq] at hl'
        subst hl'
        simp only [sumTerms]
        refine M.Sim.bind (term_sim hi hx h1 h3) ?_
        rintro T T' ⟨t, t', ht, ht', hT⟩
        refine (ih (i + 1) (by omega) _ _ h2 h4 _ _ _ _ (.priv (BRel.plus hT hA))).mono ?_
        rintro o o' ⟨z, z', hz, hz', h⟩
        exact ⟨z, z', .term ht hz, .term ht' hz', h⟩

/-- The coefficients whose truncations fit the ring. -/
def Coeff.Ok (w frac : ℕ) (sc : Bool) : Coeff w → Prop
  | .shift a => (if sc then frac else 0) + a + 2 ≤ w
  | _ => True

theorem term_ok {frac : ℕ} {sc : Bool} (hw : sc = true → frac + frac + 2 ≤ w) {i : ℕ} (hi : 0 < i)
    {c : Coeff w} (hc : c.Ok w frac sc) (X : Shares (T (.arith w n))) :
    ∃ m, term frac sc X i c = .ok m := by
  obtain ⟨m, hm⟩ := pow_ok hi (.inr hw) X
  obtain ⟨plan, hp⟩ := mulPlan_ok (sx := sc) (sy := sc) (frac := frac) (w := w) (by simpa using hw)
  cases c with
  | zero => exact ⟨_, rfl⟩
  | int c => simp only [term, hm]; exact ⟨_, rfl⟩
  | word c => simp only [term, hm, hp]; exact ⟨_, rfl⟩
  | shift a => simp only [term, hm, heurPlan_ok hc]; exact ⟨_, rfl⟩

theorem termList_ok {frac : ℕ} {sc : Bool} (hw : sc = true → frac + frac + 2 ≤ w) {cs : List (Coeff w)}
    (hc : ∀ c ∈ cs, c.Ok w frac sc) (X : Shares (T (.arith w n))) :
    ∀ i, 0 < i → ∃ l, termList frac sc X i cs = .ok l := by
  induction cs with
  | nil => exact fun _ _ => ⟨_, rfl⟩
  | cons c cs ih =>
    intro i hi
    obtain ⟨m, hm⟩ := term_ok hw hi (hc c (by simp)) X
    obtain ⟨l, hl⟩ := ih (fun c h => hc c (by simp [h])) (i + 1) (by omega)
    simp only [termList, hm, hl]
    cases m <;> exact ⟨_, rfl⟩

/-! ## Several polynomials -/

/-- A possible value of the `m` polynomials whose coefficients, degree by degree, are `cs`, from
degree `i` on, plus `acc`. -/
inductive MultiVal {m : ℕ} (frac : ℕ) (sc : Bool) (x : T (.arith w n)) :
    ℕ → List (Fin m → BitVec w) → T (.arith w (m * n)) → T (.arith w (m * n)) → Prop
  | nil (i : ℕ) (acc : T (.arith w (m * n))) : MultiVal frac sc x i [] acc acc
  | term {i : ℕ} {c : Fin m → BitVec w} {cs : List (Fin m → BitVec w)} {y : T (.arith w n)}
      {acc t z : T (.arith w (m * n))} (hy : ProdVal frac sc (List.replicate i x) y)
      (ht : (mulRounding frac sc sc).Ok
        (fun k => tileRows m y k * spreadCol n c k : T (.arith w (m * n))) t)
      (h : MultiVal frac sc x (i + 1) cs (t + acc) z) : MultiVal frac sc x i (c :: cs) acc z

theorem multiTerms_sim {m : ℕ} {frac : ℕ} {sc : Bool} {x x' : T (.arith w n)}
    {X X' : Shares (T (.arith w n))} (hx : Alike σ x x' X X') :
    ∀ (cs : List (Fin m → BitVec w)) (i : ℕ) (_ : 0 < i)
      (l l' : List (M (Shares (T (.arith w (m * n)))))),
      multiTerms frac sc X i cs = .ok l → multiTerms frac sc X' i cs = .ok l' →
      ∀ (a a' : T (.arith w (m * n))) (A A' : Body (.arith w (m * n))), BRel σ a a' A A' →
        M.Sim σ (fun o o' => ∃ z z', MultiVal frac sc x i cs a z ∧ MultiVal frac sc x' i cs a' z' ∧
          BRel σ z z' o o') (sumTerms l A) (sumTerms l' A') := by
  intro cs
  induction cs with
  | nil =>
    intro i hi l l' hl hl' a a' A A' hA
    simp only [multiTerms, Except.ok.injEq] at hl hl'
    subst hl hl'
    exact .pure ⟨a, a', .nil _ _, .nil _ _, hA⟩
  | cons c cs ih =>
    intro i hi l l' hl hl' a a' A A' hA
    simp only [multiTerms] at hl hl'
    split at hl
    · cases hl
    · cases hl
    rename_i m₁ l₁ h1 h2
    split at hl'
    · cases hl'
    · cases hl'
    rename_i m₂ l₂ h3 h4
    simp only [Except.ok.injEq] at hl hl'
    subst hl hl'
    simp only [multiTerm] at h1 h3
    split at h1
    · cases h1
    · cases h1
    rename_i y plan hy hp
    split at h3
    · cases h3
    · cases h3
    rename_i y' plan' hy' hp'
    rw [hp] at hp'
    cases hp'
    simp only [Except.ok.injEq] at h1 h3
    subst h1 h3
    simp only [sumTerms]
    refine M.Sim.bind (Q := fun o o' => ∃ v v' t t', ProdVal frac sc (List.replicate i x) v ∧
      ProdVal frac sc (List.replicate i x') v' ∧
      (mulRounding frac sc sc).Ok (fun k => tileRows m v k * spreadCol n c k : T (.arith w (m * n))) t ∧
      (mulRounding frac sc sc).Ok (fun k => tileRows m v' k * spreadCol n c k : T (.arith w (m * n))) t' ∧
      Alike σ t t' o o') ?_ ?_
    · refine M.Sim.bind (pow_products hi hx hy hy') ?_
      rintro z z' ⟨v, v', hv, hv', hz⟩
      have key := (hz.map (t := .arith w (m * n)) (f := tileRows m) fun _ _ => rfl).bilinPub
        (u := .arith w (m * n)) (t := .arith w (m * n)) (f := fun u v => emul id id u v)
        (fun a b c => by rw [map_add]; rfl) (c := spreadCol n c) (y := fun _ => spreadCol n c)
        (y' := fun _ => spreadCol n c) (fun _ => rfl) (fun _ => rfl)
      refine (mulRound_sim hp key).mono ?_
      rintro o o' ⟨t, t', h1, h2, -, h⟩
      exact ⟨v, v', t, t', hv, hv', h1, h2, h⟩
    · rintro T T' ⟨v, v', t, t', hv, hv', ht, ht', hT⟩
      refine (ih (i + 1) (by omega) _ _ h2 h4 _ _ _ _ (.priv (BRel.plus hT hA))).mono ?_
      rintro o o' ⟨z, z', hz, hz', h⟩
      exact ⟨z, z', .term hv ht hz, .term hv' ht' hz', h⟩

theorem multiTerms_ok {m : ℕ} {frac : ℕ} {sc : Bool} (hw : sc = true → frac + frac + 2 ≤ w)
    (cs : List (Fin m → BitVec w)) (X : Shares (T (.arith w n))) :
    ∀ i, 0 < i → ∃ l, multiTerms frac sc X i cs = .ok l := by
  induction cs with
  | nil => exact fun _ _ => ⟨_, rfl⟩
  | cons c cs ih =>
    intro i hi
    obtain ⟨m, hm⟩ := pow_ok hi (.inr hw) X
    obtain ⟨plan, hp⟩ := mulPlan_ok (sx := sc) (sy := sc) (frac := frac) (w := w) (by simpa using hw)
    obtain ⟨l, hl⟩ := ih (i + 1) (by omega)
    simp only [multiTerms, multiTerm, hm, hp, hl]
    exact ⟨_, rfl⟩

/-! ## Choosing a piece -/

/-- Is piece `j` the one for `x`, by the signs of the differences? -/
def chosen {m : ℕ} (x : BitVec w) (c : Fin m → BitVec w) (j : Fin (m + 1)) : Bool :=
  (if h : j.1 < m then !(c ⟨j.1, h⟩ - x).msb else true) &&
    (if h : j.1 = 0 then true else (c ⟨j.1 - 1, by omega⟩ - x).msb)

/-- The bits for all pieces and elements. -/
def chosenV {m : ℕ} (x : T (.arith w n)) (c : Fin m → BitVec w) : T (.bool 1 ((m + 1) * n)) :=
  fun k => ⟨BitVec.ofBool (chosen (x (finProdFinEquiv.symm k).2) c (finProdFinEquiv.symm k).1)⟩

theorem onesBelow_add {m : ℕ} (a b : T (.bool 1 (m * n))) (c d : T (.bool 1 (1 * n))) :
    onesBelow (a + b) (c + d) = onesBelow a c + onesBelow b d := by
  funext k
  show onesBelow (a + b) (c + d) k = onesBelow a c k + onesBelow b d k
  unfold onesBelow
  split <;> rfl

theorem onesAbove_add {m : ℕ} (c d : T (.bool 1 (1 * n))) (a b : T (.bool 1 (m * n))) :
    onesAbove (c + d) (a + b) = onesAbove c a + onesAbove d b := by
  funext k
  show onesAbove (c + d) (a + b) k = onesAbove c a k + onesAbove d b k
  unfold onesAbove
  split <;> rfl

theorem chosenV_eq {m : ℕ} (x : T (.arith w n)) (c : Fin m → BitVec w) :
    band (onesBelow (blift (~~~ ·) (signOf (spreadCol n c - tileRows m x : T (.arith w (m * n)))))
        (fun _ => ⟨1⟩))
      (onesAbove (fun _ => ⟨1⟩)
        (blift (~~~ ·) (signOf (spreadCol n c - tileRows m x : T (.arith w (m * n)))) + fun _ => ⟨1⟩)) =
      chosenV x c := by
  funext k
  obtain ⟨⟨j, i⟩, rfl⟩ := finProdFinEquiv.surjective k
  have sgn : ∀ j : Fin m, signOf (spreadCol n c - tileRows m x : T (.arith w (m * n)))
      (finProdFinEquiv (j, i)) = ⟨BitVec.ofBool (c j - x i).msb⟩ := by
    intro j
    have : (spreadCol n c - tileRows m x : T (.arith w (m * n))) (finProdFinEquiv (j, i)) = c j - x i := by
      show spreadCol n c (finProdFinEquiv (j, i)) - tileRows m x (finProdFinEquiv (j, i)) = _
      unfold spreadCol tileRows
      rw [Equiv.symm_apply_apply]
    unfold signOf
    rw [this]
  apply XBits.ext
  show ((onesBelow _ _ (finProdFinEquiv (j, i))).bits &&& (onesAbove _ _ (finProdFinEquiv (j, i))).bits) =
    BitVec.ofBool (chosen (x (finProdFinEquiv.symm (finProdFinEquiv (j, i))).2) c
      (finProdFinEquiv.symm (finProdFinEquiv (j, i))).1)
  unfold onesBelow onesAbove chosen
  simp only [Equiv.symm_apply_apply]
  have nb : ∀ b : Bool, (~~~ BitVec.ofBool b) = BitVec.ofBool (!b) := by decide
  have xb : ∀ b : Bool, (BitVec.ofBool (!b) ^^^ 1#1) = BitVec.ofBool b := by decide
  have ab : ∀ a b : Bool, (BitVec.ofBool a &&& BitVec.ofBool b) = BitVec.ofBool (a && b) := by decide
  have lo : ∀ h : j.1 < m, (blift (~~~ ·) (signOf (spreadCol n c - tileRows m x : T (.arith w (m * n))))
      (finProdFinEquiv (⟨j.1, h⟩, i))).bits = BitVec.ofBool (!(c ⟨j.1, h⟩ - x i).msb) := by
    intro h
    show ~~~(signOf (spreadCol n c - tileRows m x : T (.arith w (m * n))) _).bits = _
    rw [sgn, nb]
  have hi : ∀ h : j.1 - 1 < m, ((blift (~~~ ·) (signOf (spreadCol n c - tileRows m x :
      T (.arith w (m * n)))) + fun _ => ⟨1⟩ : T (.bool 1 (m * n)))
      (finProdFinEquiv (⟨j.1 - 1, h⟩, i))).bits = BitVec.ofBool (c ⟨j.1 - 1, h⟩ - x i).msb := by
    intro h
    show (~~~(signOf (spreadCol n c - tileRows m x : T (.arith w (m * n))) _).bits) ^^^ 1#1 = _
    rw [sgn, nb, xb]
  have one : (1 : BitVec 1) = BitVec.ofBool true := by decide
  by_cases h1 : j.1 < m <;> by_cases h2 : j.1 = 0
  · simp only [dif_pos h1, dif_pos h2]
    rw [lo h1]
    exact (congrArg _ one).trans (ab _ _)
  · simp only [dif_pos h1, dif_neg h2]
    rw [lo h1, hi, ab]
  · simp only [dif_neg h1, dif_pos h2]
    decide
  · simp only [dif_neg h1, dif_neg h2]
    rw [hi]
    exact (congrArg (· &&& _) one).trans (ab _ _)

/-- A row of ones. -/
def onesRow (n : ℕ) : T (.bool 1 (1 * n)) := fun _ => ⟨1⟩

theorem pieceBits_sim {e m : ℕ} (he : 0 < e) {x x' : T (.arith (2 ^ e) n)}
    {X X' : Shares (T (.arith (2 ^ e) n))} (hx : Alike σ x x' X X') (c : Fin m → BitVec (2 ^ e)) :
    M.Sim σ (Alike σ (chosenV x c) (chosenV x' c)) (pieceBits X c) (pieceBits X' c) := by
  have ones := (toPrivate_holds (onesRow n)).alike σ
  refine M.Sim.bind (msb_sim he ((hx.map (t := .arith (2 ^ e) (m * n)) (f := tileRows m)
    fun _ _ => rfl).pubSub (c := spreadCol n c) (fun _ => rfl) (fun _ => rfl))) fun s s' hs => ?_
  rw [← chosenV_eq, ← chosenV_eq]
  refine band2_sim (hs.bnot.map₂ onesBelow_add ones) ?_
  exact ones.map₂ onesAbove_add (hs.bnot.xorPub (fun _ => rfl) fun _ => rfl)

/-- The sum of the chosen pieces. -/
def chooseV {m : ℕ} (b : T (.bool 1 ((m + 1) * n))) (f : T (.arith w ((m + 1) * n))) :
    T (.arith w n) := sumRows (gate b f)

theorem sumRows_add {m : ℕ} (a b : T (.arith w (m * n))) : sumRows (a + b) = sumRows a + sumRows b := by
  funext i
  exact Finset.sum_add_distrib

theorem choosePiece_sim {m : ℕ} {f f' : T (.arith w ((m + 1) * n))} {F F' : Body (.arith w ((m + 1) * n))}
    (hf : BRel σ f f' F F') {b b' : T (.bool 1 ((m + 1) * n))} {B B' : Shares (T (.bool 1 ((m + 1) * n)))}
    (hb : Alike σ b b' B B') :
    M.Sim σ (Alike σ (chooseV b f) (chooseV b' f')) (choosePiece F B) (choosePiece F' B') :=
  M.Sim.bind (mulAbBody_sim hb hf) fun _ _ h => .pure (h.map sumRows_add)

end Verif.Aby3
