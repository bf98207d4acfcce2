import Verif.Aby3.Lemmas

/-!
# Oblivious transfer and multiplication of a ring element by a shared bit
-/

namespace Verif.Aby3

open Verif

variable {σ : Fin 3} {w n : ℕ}

theorem ot_holds (sender receiver helper : Fin 3) (m0 m1 : T (.bool w n)) (c : T (.bool 1 n)) :
    M.All (fun r => r = bwhere c m1 m0) (ot sender receiver helper m0 m1 c c) := by
  intro w0 w1
  funext i
  show (bwhere c (m1 + w1) (m0 + w0) i : XBits w) + bwhere c w1 w0 i = bwhere c m1 m0 i
  simp only [bwhere]
  by_cases h : (c i).bits = 1#1
  · simp only [h, if_true]
    exact XBits.ext (by simp [BitVec.xor_assoc])
  · simp only [h, if_false]
    exact XBits.ext (by simp [BitVec.xor_assoc])

theorem ot_sim {sender receiver helper : Fin 3} (hsr : sender ≠ receiver) (hhr : helper ≠ receiver)
    {m0 m1 m0' m1' : T (.bool w n)} {c c' : T (.bool 1 n)}
    (hσ : σ = receiver → c = c' ∧ (bwhere c m1 m0 : T (.bool w n)) = bwhere c' m1' m0') :
    M.Sim σ (fun r r' => r = bwhere c m1 m0 ∧ r' = bwhere c' m1' m0')
      (ot sender receiver helper m0 m1 c c) (ot sender receiver helper m0' m1' c' c') := by
  refine M.Sim.mono (Q := fun r r' => True ∧ r = bwhere c m1 m0 ∧ r' = bwhere c' m1' m0') ?_
    fun _ _ h => h.2
  refine M.Sim.and_all ?_ (ot_holds _ _ _ _ _ _) (ot_holds _ _ _ _ _ _)
  unfold ot
  by_cases hr : σ = receiver
  · obtain ⟨rfl, hm⟩ := hσ hr
    subst hr
    refine .bind (.draw (Equiv.addRight (m0 - m0'))) fun w0 w0' h0 => .bind
      (.draw (Equiv.addRight (m1 - m1'))) fun w1 w1' h1 => ?_
    have h0' : w0' = w0 + (m0 - m0') := h0
    have h1' : w1' = w1 + (m1 - m1') := h1
    refine .tell_bind (fun h => absurd h hsr) (.tell_bind (fun h => absurd h hsr)
      (.tell_bind (fun h => absurd h hhr) (.tell_bind (fun h => absurd h hhr)
      (.tell_bind (fun _ => ?_) (.tell_bind (fun _ => ?_) (.tell_bind (fun _ => ?_)
      (.pure trivial)))))))
    · rw [h0']; abel
    · rw [h1']; abel
    · funext i
      have hi := congrFun hm i
      simp only [bwhere] at hi ⊢
      by_cases h : (c i).bits = 1#1
      · simp only [h, if_true] at hi ⊢
        rw [h1']
        show w1 i = w1 i + (m1 i - m1' i)
        rw [hi, sub_self, add_zero]
      · simp only [h, if_false] at hi ⊢
        rw [h0']
        show w0 i = w0 i + (m0 i - m0' i)
        rw [hi, sub_self, add_zero]
  · have hr' : ∀ {P : Prop}, receiver = σ → P := fun h => absurd h.symm hr
    refine .bind (.draw (Equiv.refl _)) fun w0 w0' h0 => .bind (.draw (Equiv.refl _))
      fun w1 w1' h1 => ?_
    have h0' : w0' = w0 := h0
    have h1' : w1' = w1 := h1
    subst h0' h1'
    exact .tell_bind (fun _ => rfl) (.tell_bind (fun _ => rfl) (.tell_bind (fun _ => rfl)
      (.tell_bind (fun _ => rfl) (.tell_bind hr' (.tell_bind hr' (.tell_bind hr'
      (.pure trivial)))))))

theorem bit_cases (b : XBits 1) : b = ⟨0#1⟩ ∨ b = ⟨1#1⟩ := by
  obtain ⟨b⟩ := b
  have : b = 0#1 ∨ b = 1#1 := by
    rcases b with ⟨⟨b, hb⟩⟩
    have : b = 0 ∨ b = 1 := by omega
    rcases this with rfl | rfl
    · exact Or.inl rfl
    · exact Or.inr rfl
  rcases this with rfl | rfl
  · exact Or.inl rfl
  · exact Or.inr rfl

/-- The message chosen by the third component of the bit is the product plus the mask. -/
theorem mulAb_choice {b : T (.bool 1 n)} {b1 b2 b3 : T (.bool 1 n)} (hb : b1 + b2 + b3 = b)
    (a r : T (.arith w n)) :
    (bwhere b3
      (toBool ((-(fun i => (b1 i + b2 i).bits.setWidth w * a i : T (.arith w n)) + a + r :
        T (.arith w n))))
      (toBool ((fun i => (b1 i + b2 i).bits.setWidth w * a i : T (.arith w n)) + r)) :
        T (.bool w n))
      = toBool (gate b a + r) := by
  subst hb
  funext i
  have e1 : (1#1).setWidth w = (1 : BitVec w) := by
    apply BitVec.eq_of_toNat_eq; simp
  have e0 : (0#1).setWidth w = (0 : BitVec w) := by
    apply BitVec.eq_of_toNat_eq; simp
  have hA : ∀ b : T (.bool 1 n), ∀ i, gate b a i = if (b i).bits = 1#1 then a i else 0 :=
    fun _ _ => rfl
  refine XBits.ext ?_
  simp only [bwhere]
  rcases bit_cases (b3 i) with h3 | h3
  · have : ¬ (b3 i).bits = 1#1 := by rw [h3]; decide
    rw [if_neg this]
    show (b1 i + b2 i).bits.setWidth w * a i + r i = gate (b1 + b2 + b3) a i + r i
    rw [hA]
    have hsum : (b1 + b2 + b3) i = b1 i + b2 i := by
      show b1 i + b2 i + b3 i = _; rw [h3]; exact add_zero _
    rw [hsum]
    rcases bit_cases (b1 i + b2 i) with h | h <;> rw [h]
    · rw [e0, zero_mul, if_neg (by decide)]
    · rw [e1, one_mul, if_pos rfl]
  · have : (b3 i).bits = 1#1 := by rw [h3]
    rw [if_pos this]
    show -((b1 i + b2 i).bits.setWidth w * a i) + a i + r i = gate (b1 + b2 + b3) a i + r i
    rw [hA]
    have hsum : (b1 + b2 + b3) i = b1 i + b2 i + ⟨1#1⟩ := by
      show b1 i + b2 i + b3 i = _; rw [h3]
    rw [hsum]
    rcases bit_cases (b1 i + b2 i) with h | h <;> rw [h]
    · rw [e0, zero_mul, neg_zero, zero_add, if_pos (by decide)]
    · rw [e1, one_mul, neg_add_cancel, if_neg (by decide)]

theorem toArith_toBool (x : T (.arith w n)) : toArith (toBool x) = x := rfl
theorem toBool_toArith (x : T (.bool w n)) : toBool (toArith x) = x := rfl

theorem mulAbRoutine_sim {a a' : T (.arith w n)} {v v' : T (.bool 1 n)}
    {b b' : Shares (T (.bool 1 n))} (hb : Alike σ v v' b b') (i0 : Fin 3) (ha : σ = i0 → a = a') :
    M.Sim σ (Alike σ (gate v a) (gate v' a')) (mulAbRoutine a b i0) (mulAbRoutine a' b' i0) := by
  have n01 := fin3_ne1 i0
  have n02 := fin3_ne2 i0
  have n12 := fin3_ne12 i0
  have hbv : (b i0).1 + (b i0).2 + (b (i0 + 2)).1 = v := hb.1.sum i0
  have hbv' : (b' i0).1 + (b' i0).2 + (b' (i0 + 2)).1 = v' := hb.2.1.sum i0
  have hc : (b (i0 + 1)).2 = (b (i0 + 2)).1 := by rw [hb.1.1 (i0 + 1), fin3_succ2]
  have hc' : (b' (i0 + 1)).2 = (b' (i0 + 2)).1 := by rw [hb.2.1.1 (i0 + 1), fin3_succ2]
  -- how the zero sharing moves between the two runs
  have zs : M.Sim σ (fun s s' => (σ ≠ i0 → s' i0 = s i0 + (gate v a - gate v' a')) ∧
      (σ = i0 → s' = s) ∧ (σ = i0 + 1 → s' (i0 + 1) = s (i0 + 1)) ∧
      (σ = i0 + 2 → s' (i0 + 2) = s (i0 + 2)) ∧
      s 0 + s 1 + s 2 = 0 ∧ s' 0 + s' 1 + s' 2 = 0)
      (zeroSharing (.arith w n)) (zeroSharing (.arith w n)) := by
    rcases fin3_cases i0 σ with rfl | rfl | rfl
    · refine (zeroSharing_sim_sum 0).mono ?_
      rintro s s' ⟨⟨h1, h2, h3⟩, h4, h5⟩
      refine ⟨fun h => absurd rfl h, fun _ => ?_, fun h => absurd h.symm n01,
        fun h => absurd h.symm n02, h4, h5⟩
      funext i
      rcases fin3_cases σ i with rfl | rfl | rfl
      · exact h1
      · rw [h2, add_zero]
      · rw [h3, sub_zero]
    · refine (zeroSharing_sim_sum (-(gate v a - gate v' a'))).mono ?_
      rintro s s' ⟨⟨h1, h2, h3⟩, h4, h5⟩
      refine ⟨fun _ => ?_, fun h => absurd h n01, fun _ => h1, fun h => absurd h n12, h4, h5⟩
      have e : i0 + 1 + 2 = i0 := by fin_cases i0 <;> rfl
      rw [e] at h3
      rw [h3]; abel
    · refine (zeroSharing_sim_sum (gate v a - gate v' a')).mono ?_
      rintro s s' ⟨⟨h1, h2, h3⟩, h4, h5⟩
      refine ⟨fun _ => ?_, fun h => absurd h n02, fun h => absurd h.symm n12, fun _ => h1, h4, h5⟩
      rw [fin3_succ3] at h2
      exact h2
  unfold mulAbRoutine
  refine .bind zs fun s s' ⟨z0, z1, z2, z3, z4, z5⟩ => ?_
  refine .tell_bind (fun h => by rw [z1 h.symm]) (.tell_bind (fun h => by rw [z1 h.symm]) ?_)
  simp only [hc, hc']
  have ch := mulAb_choice hbv a (s i0)
  have ch' := mulAb_choice hbv' a' (s' i0)
  have same : σ ≠ i0 → gate v a + s i0 = gate v' a' + s' i0 := by
    intro h; rw [z0 h]; abel
  refine .bind (ot_sim (fun h => n01 h.symm) (fun h => n12 h.symm) ?_) fun r r' hr =>
    .bind (ot_sim (fun h => n02 h.symm) n12 ?_) fun q q' hq => .pure ?_
  · intro h
    refine ⟨?_, ?_⟩
    · rw [← hc, ← hc', ← h, hb.2.2]
    · rw [ch, ch', same (by rw [h]; exact n01)]
  · intro h
    refine ⟨?_, ?_⟩
    · rw [← h, hb.2.2]
    · rw [ch, ch', same (by rw [h]; exact n02)]
  · rw [ch, ch'] at hr hq
    obtain ⟨rfl, rfl⟩ := hr
    obtain ⟨rfl, rfl⟩ := hq
    have holds : ∀ (s : Fin 3 → T (.arith w n)) (g : T (.arith w n)), s 0 + s 1 + s 2 = 0 →
        Holds g (fun i => if i = i0 then (s (i0 + 2), s (i0 + 1))
          else if i = i0 + 1 then (s (i0 + 1), toArith (toBool (g + s i0)))
          else (toArith (toBool (g + s i0)), s (i0 + 2))) := by
      intro s g hs
      simp only [toArith_toBool]
      refine ⟨fun i => ?_, ?_⟩
      · rcases fin3_cases i0 i with rfl | rfl | rfl
        · simp [n01]
        · rw [fin3_succ2]; simp [n01, n02, n12.symm]
        · rw [fin3_succ3]; simp [n02, n12.symm]
      · rw [fin3_sum (fun i => (if i = i0 then (s (i0 + 2), s (i0 + 1))
          else if i = i0 + 1 then (s (i0 + 1), g + s i0) else (g + s i0, s (i0 + 2))).1) i0]
        simp only [n01, n02, n12.symm, if_true, if_false]
        rw [fin3_sum s i0] at hs
        calc _ = g + (s i0 + s (i0 + 1) + s (i0 + 2)) := by abel
          _ = g := by rw [hs, add_zero]
    refine ⟨holds s _ z4, holds s' _ z5, ?_⟩
    simp only [toArith_toBool]
    rcases fin3_cases i0 σ with rfl | rfl | rfl
    · simp only [if_true, z1 rfl]
    · simp only [n01, if_true, if_false, z2 rfl, same n01]
    · simp only [n02, n12.symm, if_false, z3 rfl, same n02]

theorem mulAbPub_sim {c : T (.arith w n)} {a a' : Pub (T (.arith w n))} (ha : IsPub c a)
    (ha' : IsPub c a') {v v' : T (.bool 1 n)} {b b' : Shares (T (.bool 1 n))}
    (hb : Alike σ v v' b b') :
    M.Sim σ (Alike σ (gate v c) (gate v' c)) (mulAbPub a b) (mulAbPub a' b') := by
  unfold mulAbPub
  rw [ha, ha']
  exact mulAbRoutine_sim hb 2 fun _ => rfl

theorem gate_add (b : T (.bool 1 n)) (x y : T (.arith w n)) :
    gate b (x + y) = gate b x + gate b y := by
  funext i
  show (if _ then x i + y i else 0) = (if _ then x i else 0) + (if _ then y i else 0)
  by_cases h : (b i).bits = 1#1 <;> simp [h]

theorem mulAb_sim {c c' : T (.arith w n)} {x x' : Shares (T (.arith w n))}
    (hx : Alike σ c c' x x') {v v' : T (.bool 1 n)} {b b' : Shares (T (.bool 1 n))}
    (hb : Alike σ v v' b b') :
    M.Sim σ (Alike σ (gate v c) (gate v' c')) (mulAb x b) (mulAb x' b') := by
  unfold mulAb
  have e : ∀ {c : T (.arith w n)} {x : Shares (T (.arith w n))}, Holds c x →
      (x 0).1 + ((x 1).1 + (x 1).2) = c := by
    intro c x h
    rw [← h.2]
    have : (x 1).2 = (x 2).1 := h.1 1
    rw [this]; abel
  refine .bind (mulAbRoutine_sim hb 0 ?_) fun u u' hu =>
    .bind (mulAbRoutine_sim hb 1 ?_) fun z z' hz => .pure ?_
  · rintro rfl; rw [hx.2.2]
  · rintro rfl; rw [hx.2.2]
  · have := hu.add hz
    rwa [← gate_add, ← gate_add, e hx.1, e hx.2.1] at this

theorem b2aSingle_sim {v v' : T (.bool 1 n)} {b b' : Shares (T (.bool 1 n))}
    (hb : Alike σ v v' b b') :
    M.Sim σ (Alike σ (gate v fun _ => (1 : BitVec w)) (gate v' fun _ => (1 : BitVec w)))
      (b2aSingle w b) (b2aSingle w b') :=
  mulAbPub_sim (fun _ => rfl) (fun _ => rfl) hb

end Verif.Aby3
