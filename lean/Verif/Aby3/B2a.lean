import Verif.Aby3.CircuitLemmas

/-!
# Boolean to arithmetic conversion
-/

namespace Verif.Aby3

open Verif

variable {σ : Fin 3} {w v n : ℕ}

/-- The server that misses one component may face a different clear value. -/
theorem b2aSharing_sim (out : Fin 3) (e : T (.bool w n) ≃ T (.bool w n))
    (he : σ ≠ out → e = Equiv.refl _) :
    M.Sim σ (fun r r' => r'.1 = e r.1) (b2aSharing w n out) (b2aSharing w n out) := by
  unfold b2aSharing
  refine .bind (pairwise_sim (s := .bool w n) fun a b =>
    ((Equiv.addLeft (a + b)).trans e).trans (Equiv.addLeft (a + b)).symm) ?_
  rintro f f' ⟨h1, h2, h3⟩
  have hsum : f' 0 + f' 1 + f' 2 = e (f 0 + f 1 + f 2) := by
    rw [fin3_sum f' σ, fin3_sum f σ, h1, h2, h3]
    simp only [Equiv.trans_apply, Equiv.coe_addLeft, Equiv.addLeft_symm]
    abel
  have h3' : σ ≠ out → f' (σ + 2) = f (σ + 2) := by
    intro h
    rw [h3, he h]
    simp
  refine .tellUnless_bind ?_ (.tellUnless_bind ?_ (.tellUnless_bind ?_ (.pure hsum)))
  · rintro h rfl; exact (h3' fun h' => h h'.symm).symm
  · rintro h rfl; exact (h3' fun h' => h h'.symm).symm
  · rintro h rfl; exact (h3' fun h' => h h'.symm).symm

/-- Addition of a constant to the words of a boolean tensor. -/
def shiftBool (d : T (.arith w n)) : T (.bool w n) ≃ T (.bool w n) where
  toFun t := toBool (toArith t + d)
  invFun t := toBool (toArith t - d)
  left_inv t := by funext i; exact XBits.ext (by simp [toBool, toArith])
  right_inv t := by funext i; exact XBits.ext (by simp [toBool, toArith])

theorem b2a_sim (hw : w ≤ 128) {c c' : T (.bool w n)} {x x' : Shares (T (.bool w n))}
    (hx : Alike σ c c' x x') :
    M.Sim σ (Alike σ (toArith c) (toArith c')) (b2a x) (b2a x') := by
  unfold b2a
  refine .bind (b2aSharing_sim 2
    (if σ = 2 then shiftBool (toArith c' - toArith c) else Equiv.refl _)
    fun h => by rw [if_neg h]) fun x1 x1' h1 => ?_
  refine .bind (b2aSharing_sim 0
    (if σ = 0 then shiftBool (toArith c' - toArith c) else Equiv.refl _)
    fun h => by rw [if_neg h]) fun x2 x2' h2 => ?_
  refine .bind (reshare_sim (parts := ![0, toBool (-toArith x1.1 - toArith x2.1), 0])
    (parts' := ![0, toBool (-toArith x1'.1 - toArith x2'.1), 0]) (fun _ _ => rfl)
    Function.surjective_id ?_) fun o o' ho => ?_
  · fin_cases σ
    · rfl
    · show toBool (-toArith x1.1 - toArith x2.1) = toBool (-toArith x1'.1 - toArith x2'.1)
      have e1 : x1'.1 = x1.1 := h1
      have e2 : x2'.1 = x2.1 := h2
      rw [e1, e2]
    · rfl
  · have e : ∀ a : T (.bool w n), (![0, a, 0] : Fin 3 → T (.bool w n)) 0 +
        (![0, a, 0] : Fin 3 → T (.bool w n)) 1 + (![0, a, 0] : Fin 3 → T (.bool w n)) 2 = a := by
      intro a; show 0 + a + 0 = a; rw [add_zero, zero_add]
    rw [e, e] at ho
    refine .bind (ppaFull_sim hw hx ho) fun z z' hz => ?_
    have ev : ∀ c a b : T (.bool w n), badd c (toBool (-toArith a - toArith b))
        = toBool (toArith c - toArith a - toArith b) := by
      intro c a b; funext i; refine XBits.ext ?_
      show (c i).bits + (-(a i).bits - (b i).bits) = (c i).bits - (a i).bits - (b i).bits
      ring
    rw [ev, ev] at hz
    have hval : σ ≠ 1 → toArith c - toArith x1.1 - toArith x2.1
        = toArith c' - toArith x1'.1 - toArith x2'.1 := by
      intro hσ
      fin_cases σ
      · have e1 : x1'.1 = x1.1 := h1
        have e2 : x2'.1 = toBool (toArith x2.1 + (toArith c' - toArith c)) := h2
        rw [e1, e2, toArith_toBool]; abel
      · exact absurd rfl hσ
      · have e1 : x1'.1 = toBool (toArith x1.1 + (toArith c' - toArith c)) := h1
        have e2 : x2'.1 = x2.1 := h2
        rw [e1, e2, toArith_toBool]; abel
    have hz' : σ ≠ 1 → (z (σ + 2)).1 = (z' (σ + 2)).1 := by
      intro hσ
      rw [← hval hσ] at hz
      exact hz.third
    have holds : ∀ {c a b : T (.bool w n)} {z : Shares (T (.bool w n))},
        Holds (toBool (toArith c - toArith a - toArith b)) z →
        Holds (toArith c) ![(toArith (reconstruct z (some 0)), toArith a), (toArith a, toArith b),
          (toArith b, toArith (reconstruct z (some 2)))] := by
      intro c a b z h
      rw [h.reconstruct, h.reconstruct, toArith_toBool]
      refine ⟨fun i => by fin_cases i <;> rfl, ?_⟩
      show toArith c - toArith a - toArith b + toArith a + toArith b = toArith c
      abel
    refine .tell_bind ?_ (.tell_bind ?_ (.pure ⟨holds hz.1, holds hz.2.1, ?_⟩))
    · rintro rfl; exact hz' (by decide)
    · rintro rfl; exact hz' (by decide)
    · rw [hz.1.reconstruct, hz.1.reconstruct, hz.2.1.reconstruct, hz.2.1.reconstruct]
      simp only [toArith_toBool]
      fin_cases σ
      · have e1 : x1'.1 = x1.1 := h1
        show (toArith c - toArith x1.1 - toArith x2.1, toArith x1.1)
          = (toArith c' - toArith x1'.1 - toArith x2'.1, toArith x1'.1)
        rw [hval (by decide), e1]
      · have e1 : x1'.1 = x1.1 := h1
        have e2 : x2'.1 = x2.1 := h2
        show (toArith x1.1, toArith x2.1) = (toArith x1'.1, toArith x2'.1)
        rw [e1, e2]
      · have e2 : x2'.1 = x2.1 := h2
        show (toArith x2.1, toArith c - toArith x1.1 - toArith x2.1)
          = (toArith x2'.1, toArith c' - toArith x1'.1 - toArith x2'.1)
        rw [hval (by decide), e2]

/-- The low `k` bits, bit by bit. -/
theorem b2aBits_sim {c c' : T (.bool w n)} {x x' : Shares (T (.bool w n))}
    (hx : Alike σ c c' x x') (k : ℕ) (hk : k ≤ w) :
    M.Sim σ (Alike σ (alift (lowBits k) (toArith c)) (alift (lowBits k) (toArith c')))
      (b2aBits x k) (b2aBits x' k) := by
  induction k with
  | zero =>
    have e : ∀ a : T (.arith w n), alift (lowBits 0) a = 0 := by
      intro a; funext i
      show lowBits 0 (a i) = 0
      apply BitVec.eq_of_getLsbD_eq
      intro j hj; rw [lowBits_bit _ _ _ hj]; simp
    rw [e, e]
    have h0 : Holds (0 : T (.arith w n)) (fun _ => (0, 0)) :=
      ⟨fun _ => rfl, by simp⟩
    exact .pure (h0.alike σ)
  | succ k ih =>
    unfold b2aBits
    refine .bind (ih (by omega)) fun a a' ha => ?_
    refine .bind (b2aSingle_sim (hx.blift (g := fun v => BitVec.ofBool (v.getLsbD k))
      (ofBool_getLsbD_xor k))) fun b b' hb => .pure ?_
    have hm := hb.map (t := .arith w n) (f := fun (v : T (.arith w n)) i => v i * BitVec.twoPow w k)
      fun p q => by
        funext i
        show (p i + q i) * _ = p i * _ + q i * _
        rw [BitVec.add_mul]
    have := ha.add hm
    have ev : ∀ c : T (.bool w n), alift (lowBits k) (toArith c) +
        (fun i => gate (blift (fun v => BitVec.ofBool (v.getLsbD k)) c) (fun _ => (1 : BitVec w)) i
          * BitVec.twoPow w k) = alift (lowBits (k + 1)) (toArith c) := by
      intro c; funext i
      show lowBits k (c i).bits + (if BitVec.ofBool ((c i).bits.getLsbD k) = 1#1 then 1#w else 0#w)
        * BitVec.twoPow w k = lowBits (k + 1) (c i).bits
      unfold lowBits
      rw [BitVec.setWidth_setWidth_succ_eq_setWidth_setWidth_add_twoPow, BitVec.and_twoPow]
      cases h : (c i).bits.getLsbD k
      · simp
      · have e : BitVec.ofBool true = 1#1 := rfl
        rw [if_pos e, if_pos rfl, BitVec.one_mul]
    rw [ev, ev] at this
    exact this

end Verif.Aby3
