import Verif.Tensor.SpaceBatch
import Verif.Tensor.Lemmas
import Mathlib.Tactic.Ring

/-!
# C99: moving space to the batch and back
-/

namespace Verif.Tensor.SpaceBatch

open Verif.Tensor

/-! ## Helper lemmas -/

theorem div_mul_of_mod {a b : ℕ} (h : a % b = 0) : a / b * b = a :=
  Nat.div_mul_cancel (Nat.dvd_of_mod_eq_zero h)

theorem blocked_pos : ∀ {ds bs ps es}, blocked ds bs ps = some es → 0 < bs.prod
  | _, [], [], _, _ => by simp
  | [], [], _ :: _, _, h => by simp [blocked] at h
  | _ :: _, [], _ :: _, _, h => by simp [blocked] at h
  | [], _ :: _, _, _, h => by simp [blocked] at h
  | _ :: _, _ :: _, [], _, h => by simp [blocked] at h
  | d :: ds, b :: bs, p :: ps, es, h => by
    rw [blocked] at h
    split at h
    · rename_i hc
      obtain ⟨es', h', -⟩ := Option.map_eq_some_iff.1 h
      rw [List.prod_cons]
      exact Nat.mul_pos hc.1 (blocked_pos h')
    · cases h

theorem cropped_blocked : ∀ {ds bs ps es}, blocked ds bs ps = some es → cropped es bs ps = some ds
  | _, [], [], _, h => by simpa [blocked, cropped, eq_comm] using h
  | [], [], _ :: _, _, h => by simp [blocked] at h
  | _ :: _, [], _ :: _, _, h => by simp [blocked] at h
  | [], _ :: _, _, _, h => by simp [blocked] at h
  | _ :: _, _ :: _, [], _, h => by simp [blocked] at h
  | d :: ds, b :: bs, p :: ps, es, h => by
    rw [blocked] at h
    split at h
    · rename_i hc
      obtain ⟨es', h', rfl⟩ := Option.map_eq_some_iff.1 h
      have hm := div_mul_of_mod hc.2
      rw [cropped, hm, if_pos ⟨hc.1, by omega⟩, cropped_blocked h']
      simp only [Option.map_some, Option.some.injEq, List.cons.injEq, and_true]
      omega
    · cases h

theorem inBlock_inShape : ∀ {ds bs ps es os js is}, blocked ds bs ps = some es → InShape bs os →
    InShape es js → inBlock ds bs ps os js = some is → InShape ds is
  | ds, [], [], es, os, js, is, h, _, hj, hi => by
    cases os <;> simp_all [blocked, inBlock]
  | [], [], _ :: _, _, _, _, _, h, _, _, _ => by simp [blocked] at h
  | _ :: _, [], _ :: _, _, _, _, _, h, _, _, _ => by simp [blocked] at h
  | [], _ :: _, _, _, _, _, _, h, _, _, _ => by simp [blocked] at h
  | _ :: _, _ :: _, [], _, _, _, _, h, _, _, _ => by simp [blocked] at h
  | d :: ds, b :: bs, p :: ps, es, os, js, is, h, ho, hj, hi => by
    rw [blocked] at h
    split at h
    · obtain ⟨es', h', rfl⟩ := Option.map_eq_some_iff.1 h
      cases os with
      | nil => exact absurd ho (by simp [InShape])
      | cons o os =>
        cases js with
        | nil => exact absurd hj (by simp [InShape])
        | cons j js =>
          rw [inBlock] at hi
          split at hi
          · rename_i hc
            obtain ⟨is', hi', rfl⟩ := Option.map_eq_some_iff.1 hi
            exact ⟨by omega, inBlock_inShape h' ho.2 hj.2 hi'⟩
          · cases hi
    · cases h

theorem toBlock_spec : ∀ {ds bs cs es hs}, cropped ds bs cs = some es → InShape es hs →
    InShape bs (toBlock bs cs hs).1 ∧ InShape ds (toBlock bs cs hs).2
  | ds, [], [], es, hs, h, hh => by
    simp only [cropped, Option.some.injEq] at h
    subst h
    simp [toBlock, InShape, hh]
  | [], [], _ :: _, _, _, h, _ => by simp [cropped] at h
  | _ :: _, [], _ :: _, _, _, h, _ => by simp [cropped] at h
  | [], _ :: _, _, _, _, h, _ => by simp [cropped] at h
  | _ :: _, _ :: _, [], _, _, h, _ => by simp [cropped] at h
  | d :: ds, b :: bs, c :: cs, es, hs, h, hh => by
    rw [cropped] at h
    split at h
    · rename_i hc
      obtain ⟨es', h', rfl⟩ := Option.map_eq_some_iff.1 h
      cases hs with
      | nil => exact absurd hh (by simp [InShape])
      | cons x hs =>
        obtain ⟨i1, i2⟩ := toBlock_spec h' hh.2
        have h1 : x < d * b - c.1 - c.2 := hh.1
        refine ⟨⟨Nat.mod_lt _ hc.1, i1⟩, ?_, i2⟩
        rw [Nat.div_lt_iff_lt_mul hc.1]
        omega
    · cases h

theorem inBlock_toBlock : ∀ {ds bs ps es hs}, blocked ds bs ps = some es → InShape ds hs →
    inBlock ds bs ps (toBlock bs ps hs).1 (toBlock bs ps hs).2 = some hs
  | ds, [], [], es, hs, h, hh => by simp [toBlock, inBlock]
  | [], [], _ :: _, _, _, h, _ => by simp [blocked] at h
  | _ :: _, [], _ :: _, _, _, h, _ => by simp [blocked] at h
  | [], _ :: _, _, _, _, h, _ => by simp [blocked] at h
  | _ :: _, _ :: _, [], _, _, h, _ => by simp [blocked] at h
  | d :: ds, b :: bs, p :: ps, es, hs, h, hh => by
    rw [blocked] at h
    split at h
    · rename_i hc
      obtain ⟨es', h', rfl⟩ := Option.map_eq_some_iff.1 h
      cases hs with
      | nil => exact absurd hh (by simp [InShape])
      | cons x hs =>
        have e : (x + p.1) / b * b + (x + p.1) % b = x + p.1 := Nat.div_add_mod' _ _
        have h1 : x < d := hh.1
        simp only [toBlock, inBlock, e]
        rw [if_pos (by omega), inBlock_toBlock h' hh.2]
        simp
    · cases h

theorem toBlock_inBlock : ∀ {ds bs ps os js is}, ps.length = bs.length → bs.length ≤ ds.length →
    InShape bs os → bs.length ≤ js.length → inBlock ds bs ps os js = some is →
    toBlock bs ps is = (os, js)
  | ds, [], ps, os, js, is, _, _, ho, _, h => by
    cases os with
    | cons => exact absurd ho (by simp [InShape])
    | nil =>
      cases ps with
      | cons => simp_all
      | nil => simp_all [inBlock, toBlock]
  | ds, b :: bs, [], _, _, _, hp, _, _, _, _ => by simp at hp
  | [], b :: bs, _ :: _, _, _, _, _, hd, _, _, _ => by simp at hd
  | d :: ds, b :: bs, p :: ps, os, js, is, hp, hd, ho, hj, h => by
    cases os with
    | nil => exact absurd ho (by simp [InShape])
    | cons o os =>
      cases js with
      | nil => simp at hj
      | cons j js =>
        rw [inBlock] at h
        split at h
        · rename_i hc
          obtain ⟨is', h', rfl⟩ := Option.map_eq_some_iff.1 h
          have ho1 : o < b := ho.1
          have e : j * b + o - p.1 + p.1 = j * b + o := Nat.sub_add_cancel hc.1
          have ih := toBlock_inBlock (by simpa using hp) (by simpa using hd) ho.2
            (by simpa using hj) h'
          simp only [toBlock, e, ih, Prod.mk.injEq, List.cons.injEq, and_true]
          refine ⟨?_, ?_⟩
          · rw [mul_comm, Nat.mul_add_mod, Nat.mod_eq_of_lt ho1]
          · rw [mul_comm, Nat.mul_add_div (by omega), Nat.div_eq_of_lt ho1, add_zero]
        · cases h

/-- A plan only reads entries of the input. -/
def Sound (s : List ℕ) (p : Plan) : Prop :=
  ∀ idx, InShape p.shape idx → ∀ i, p.source idx = some i → InShape s i

theorem spacePlan_sound {bs ps s p} (h : spacePlan bs ps s = some p) : Sound s p := by
  cases s with
  | nil => cases h
  | cons n ds =>
    obtain ⟨es, he, rfl⟩ := Option.map_eq_some_iff.1 h
    rintro (_ | ⟨k, js⟩) hidx i hi
    · cases hi
    obtain ⟨is, hi', rfl⟩ := Option.map_eq_some_iff.1 hi
    have hk : k < n * bs.prod := hidx.1
    have hn : 0 < n := Nat.pos_of_ne_zero (by rintro rfl; simp at hk)
    exact ⟨Nat.mod_lt _ hn, inBlock_inShape he
      (inShape_unflat _ _ (by rwa [Nat.div_lt_iff_lt_mul hn, mul_comm])) hidx.2 hi'⟩

theorem batchPlan_sound {bs cs s p} (h : batchPlan bs cs s = some p) : Sound s p := by
  cases s with
  | nil => cases h
  | cons n ds =>
    rw [batchPlan] at h
    split at h
    · rename_i hm
      obtain ⟨es, he, rfl⟩ := Option.map_eq_some_iff.1 h
      rintro (_ | ⟨k, hs⟩) hidx i hi
      · cases hi
      cases hi
      obtain ⟨h1, h2⟩ := toBlock_spec he hidx.2
      refine ⟨?_, h2⟩
      have hf := flat_lt _ _ h1
      have hk : k < n / bs.prod := hidx.1
      calc flat bs (toBlock bs cs hs).1 * (n / bs.prod) + k
          < flat bs (toBlock bs cs hs).1 * (n / bs.prod) + n / bs.prod := by omega
        _ = (flat bs (toBlock bs cs hs).1 + 1) * (n / bs.prod) := by ring
        _ ≤ bs.prod * (n / bs.prod) := Nat.mul_le_mul_right _ hf
        _ = n := by rw [mul_comm]; exact div_mul_of_mod hm
    · cases h

/-! ## The property -/

/-- The same shape, and the same entries. -/
def Same {α : Type} (t u : Ten α) : Prop :=
  t.shape = u.shape ∧ ∀ idx, InShape u.shape idx → t.get idx = u.get idx

/-- What a tensor of Pond stands for: both servers hold the public values; shares add up. -/
def Holds {R : Type} [Add R] : PondTen R → Ten R → Prop
  | .pub v0 v1 _, v => Same v0 v ∧ Same v1 v
  | .priv x0 x1 _, v => x0.shape = v.shape ∧ x1.shape = v.shape ∧
      ∀ idx, InShape v.shape idx → x0.get idx + x1.get idx = v.get idx
  | .masked x0 x1 _ _ _ _ _, v => x0.shape = v.shape ∧ x1.shape = v.shape ∧
      ∀ idx, InShape v.shape idx → x0.get idx + x1.get idx = v.get idx

/-- Whether a tensor is public, and its `is_scaled`. -/
def flags {R : Type} : PondTen R → Bool × Bool
  | .pub _ _ sc => (true, sc)
  | .priv _ _ sc => (false, sc)
  | .masked _ _ _ _ _ _ sc => (false, sc)

/-- Every operation that moves entries (and fills with zeros) as told by the shape, done by every server on
what it holds, is that operation on the value. -/
theorem onServers_run {R : Type} [AddMonoid R] {plan : List ℕ → Option Plan}
    (hp : ∀ s p, plan s = some p → Sound s p) {x : PondTen R} {v : Ten R} (h : Holds x v) :
    (run plan v = none → onServers (run plan) x = none) ∧
    ∀ u, run plan v = some u →
      ∃ y, onServers (run plan) x = some y ∧ Holds y u ∧ flags y = flags x := by
  have key : ∀ {x0 x1 : Ten R} {p : Plan}, plan v.shape = some p →
      (∀ idx, InShape v.shape idx → x0.get idx + x1.get idx = v.get idx) →
      ∀ idx, InShape p.shape idx →
        fill p x0 idx + fill p x1 idx = fill p v idx := by
    intro x0 x1 p e hs idx hidx
    unfold fill
    cases hi : p.source idx with
    | none => exact add_zero 0
    | some i => exact hs i (hp _ _ e idx hidx i hi)
  have key' : ∀ {x0 : Ten R} {p : Plan}, plan v.shape = some p →
      (∀ idx, InShape v.shape idx → x0.get idx = v.get idx) →
      ∀ idx, InShape p.shape idx →
        fill p x0 idx = fill p v idx := by
    intro x0 p e hs idx hidx
    unfold fill
    cases hi : p.source idx with
    | none => rfl
    | some i => exact hs i (hp _ _ e idx hidx i hi)
  cases e : plan v.shape with
  | none =>
    refine ⟨fun _ => ?_, fun u hu => by simp [run, e] at hu⟩
    cases x with
    | pub v0 v1 sc => simp [onServers, run, h.1.1, e]
    | priv x0 x1 sc => simp [onServers, run, h.1, e]
    | masked x0 x1 _ _ _ _ sc => simp [onServers, run, h.1, e]
  | some p =>
    refine ⟨fun hn => by simp [run, e] at hn, fun u hu => ?_⟩
    simp only [run, e, Option.map_some, Option.some.injEq] at hu
    subst hu
    cases x with
    | pub v0 v1 sc =>
      obtain ⟨⟨s0, h0⟩, s1, h1⟩ := h
      exact ⟨.pub ⟨p.shape, fill p v0⟩ ⟨p.shape, fill p v1⟩ sc, by simp [onServers, run, s0, s1, e],
        ⟨⟨rfl, key' e h0⟩, rfl, key' e h1⟩, rfl⟩
    | priv x0 x1 sc =>
      obtain ⟨s0, s1, hs⟩ := h
      exact ⟨.priv ⟨p.shape, fill p x0⟩ ⟨p.shape, fill p x1⟩ sc, by simp [onServers, run, s0, s1, e],
        ⟨rfl, rfl, key e hs⟩, rfl⟩
    | masked x0 x1 _ _ _ _ sc =>
      obtain ⟨s0, s1, hs⟩ := h
      exact ⟨.priv ⟨p.shape, fill p x0⟩ ⟨p.shape, fill p x1⟩ sc, by simp [onServers, run, s0, s1, e],
        ⟨rfl, rfl, key e hs⟩, rfl⟩

/-- **C99.** `space_to_batch` of a public, private or masked tensor raises exactly if TensorFlow's does on the
value, and otherwise stands for TensorFlow's result, with the same scale; public tensors stay public. -/
theorem space_spec {R : Type} [AddMonoid R] (bs : List ℕ) (ps : List (ℕ × ℕ)) {x : PondTen R}
    {v : Ten R} (h : Holds x v) :
    (spaceToBatch bs ps v = none → space x bs ps = none) ∧
    ∀ u, spaceToBatch bs ps v = some u → ∃ y, space x bs ps = some y ∧ Holds y u ∧ flags y = flags x :=
  onServers_run (fun _ _ => spacePlan_sound) h

/-- **C99**, `batch_to_space`. -/
theorem batch_spec {R : Type} [AddMonoid R] (bs : List ℕ) (cs : List (ℕ × ℕ)) {x : PondTen R}
    {v : Ten R} (h : Holds x v) :
    (batchToSpace bs cs v = none → batch x bs cs = none) ∧
    ∀ u, batchToSpace bs cs v = some u → ∃ y, batch x bs cs = some y ∧ Holds y u ∧ flags y = flags x :=
  onServers_run (fun _ _ => batchPlan_sound) h

/-- `tf.batch_to_space` undoes `tf.space_to_batch`, if the padding is cropped. -/
theorem tf_round_trip {α : Type} [Zero α] {bs : List ℕ} {ps : List (ℕ × ℕ)} {t u : Ten α}
    (h : spaceToBatch bs ps t = some u) : ∃ v, batchToSpace bs ps u = some v ∧ Same v t := by
  obtain ⟨s, g⟩ := t
  obtain ⟨p, hp, rfl⟩ := Option.map_eq_some_iff.1 h
  cases s with
  | nil => cases hp
  | cons n ds =>
    obtain ⟨es, he, rfl⟩ := Option.map_eq_some_iff.1 hp
    have hpos := blocked_pos he
    have hc := cropped_blocked he
    have hd : n * bs.prod / bs.prod = n := Nat.mul_div_cancel _ hpos
    refine ⟨_, by
      simp only [batchToSpace, run, batchPlan, Nat.mul_mod_left, if_true, hc, Option.map_some]
      rfl, by simp [hd], ?_⟩
    rintro (_ | ⟨k, hs⟩) hidx
    · exact absurd hidx (by simp [InShape])
    have hk : k < n := hidx.1
    obtain ⟨h1, -⟩ := toBlock_spec hc hidx.2
    have e1 : (flat bs (toBlock bs ps hs).1 * n + k) / n = flat bs (toBlock bs ps hs).1 := by
      rw [mul_comm, Nat.mul_add_div (by omega), Nat.div_eq_of_lt hk, add_zero]
    have e2 : (flat bs (toBlock bs ps hs).1 * n + k) % n = k := by
      rw [mul_comm, Nat.mul_add_mod, Nat.mod_eq_of_lt hk]
    simp only [fill, hd, e1, e2, unflat_flat _ _ h1, inBlock_toBlock he hidx.2, Option.map_some]

theorem blocked_cropped : ∀ {ds bs cs es}, cropped ds bs cs = some es → blocked es bs cs = some ds ∧
    0 < bs.prod ∧ cs.length = bs.length ∧ bs.length ≤ es.length ∧ es.length = ds.length
  | _, [], [], _, h => by
    simp only [cropped, Option.some.injEq] at h
    simp [blocked, h]
  | [], [], _ :: _, _, h => by simp [cropped] at h
  | _ :: _, [], _ :: _, _, h => by simp [cropped] at h
  | [], _ :: _, _, _, h => by simp [cropped] at h
  | _ :: _, _ :: _, [], _, h => by simp [cropped] at h
  | d :: ds, b :: bs, c :: cs, es, h => by
    rw [cropped] at h
    split at h
    · rename_i hc
      obtain ⟨es', h', rfl⟩ := Option.map_eq_some_iff.1 h
      obtain ⟨i1, i2, i3, i4, i5⟩ := blocked_cropped h'
      have e : c.1 + (d * b - c.1 - c.2) + c.2 = d * b := by omega
      refine ⟨?_, by rw [List.prod_cons]; exact Nat.mul_pos hc.1 i2, by simpa using i3,
        by simpa using i4, by simpa using i5⟩
      rw [blocked, e, if_pos ⟨hc.1, Nat.mul_mod_left _ _⟩, i1]
      simp [Nat.mul_div_cancel _ hc.1]
    · cases h

theorem inBlock_zero : ∀ {ds bs cs es os js}, cropped ds bs cs = some es → (∀ c ∈ cs, c = (0, 0)) →
    InShape bs os → InShape ds js → ∃ is, inBlock es bs cs os js = some is
  | ds, [], cs, es, os, js, _, _, _, _ => ⟨js, by cases es <;> simp [inBlock]⟩
  | [], _ :: _, _, _, _, _, h, _, _, _ => by simp [cropped] at h
  | _ :: _, _ :: _, [], _, _, _, h, _, _, _ => by simp [cropped] at h
  | d :: ds, b :: bs, c :: cs, es, os, js, h, hz, ho, hj => by
    rw [cropped] at h
    split at h
    · obtain ⟨es', h', rfl⟩ := Option.map_eq_some_iff.1 h
      cases os with
      | nil => exact absurd ho (by simp [InShape])
      | cons o os =>
        cases js with
        | nil => exact absurd hj (by simp [InShape])
        | cons j js =>
          obtain ⟨is, hi⟩ := inBlock_zero h' (fun c hc => hz c (by simp [hc])) ho.2 hj.2
          have ho1 : o < b := ho.1
          have hj1 : j < d := hj.1
          have hlt : j * b + o < d * b := by
            calc j * b + o < j * b + b := by omega
              _ = (j + 1) * b := by ring
              _ ≤ d * b := Nat.mul_le_mul_right _ hj1
          rw [hz c (by simp)]
          exact ⟨_, by
            rw [inBlock, if_pos ⟨Nat.zero_le _, by simpa using hlt⟩, hi]; rfl⟩
    · cases h

theorem inShape_length : ∀ {s i : List ℕ}, InShape s i → i.length = s.length
  | [], [], _ => rfl
  | _ :: _, _ :: _, h => by simpa using inShape_length h.2
  | [], _ :: _, h => absurd h (by simp [InShape])
  | _ :: _, [], h => absurd h (by simp [InShape])

/-- `tf.space_to_batch` undoes `tf.batch_to_space` up to what was cropped, which becomes zero. -/
theorem tf_round_trip_back {α : Type} [Zero α] {bs : List ℕ} {cs : List (ℕ × ℕ)} {t u : Ten α}
    (h : batchToSpace bs cs t = some u) : ∃ v, spaceToBatch bs cs u = some v ∧ v.shape = t.shape ∧
      (∀ idx, InShape t.shape idx → v.get idx = t.get idx ∨ v.get idx = 0) ∧
      ((∀ c ∈ cs, c = (0, 0)) → Same v t) := by
  obtain ⟨s, g⟩ := t
  obtain ⟨p, hp, rfl⟩ := Option.map_eq_some_iff.1 h
  cases s with
  | nil => cases hp
  | cons n ds =>
    simp only [batchPlan] at hp
    split at hp
    · rename_i hm
      obtain ⟨es, he, rfl⟩ := Option.map_eq_some_iff.1 hp
      obtain ⟨hb, hpos, l1, l2, l3⟩ := blocked_cropped he
      have hd : n / bs.prod * bs.prod = n := div_mul_of_mod hm
      have kept : ∀ k js is, InShape (n :: ds) (k :: js) →
          inBlock es bs cs (unflat bs (k / (n / bs.prod))) js = some is →
          (flat bs (toBlock bs cs is).1 * (n / bs.prod) + k % (n / bs.prod)) ::
            (toBlock bs cs is).2 = k :: js := by
        intro k js is hidx hi
        have hk : k < n := hidx.1
        have hq : 0 < n / bs.prod := by
          rcases Nat.eq_zero_or_pos (n / bs.prod) with h0 | h0
          · rw [h0] at hd; omega
          · exact h0
        have hu : k / (n / bs.prod) < bs.prod := by
          rw [Nat.div_lt_iff_lt_mul hq, mul_comm, hd]
          exact hk
        have e := toBlock_inBlock l1 l2 (inShape_unflat _ _ hu)
          (by rw [inShape_length hidx.2, ← l3]; exact l2) hi
        rw [e]
        simp only [flat_unflat _ _ hu, List.cons.injEq, and_true]
        exact Nat.div_add_mod' _ _
      refine ⟨_, by
        simp only [spaceToBatch, run, spacePlan, hb, Option.map_some]
        rfl, by simp [hd], ?_, fun hz => ⟨by simp [hd], ?_⟩⟩
      · rintro (_ | ⟨k, js⟩) hidx
        · exact absurd hidx (by simp [InShape])
        simp only [fill]
        cases hi : inBlock es bs cs (unflat bs (k / (n / bs.prod))) js with
        | none => exact .inr rfl
        | some is => exact .inl (congrArg g (kept k js is hidx hi))
      · rintro (_ | ⟨k, js⟩) hidx
        · exact absurd hidx (by simp [InShape])
        have hk : k < n := hidx.1
        have hq : 0 < n / bs.prod := by
          rcases Nat.eq_zero_or_pos (n / bs.prod) with h0 | h0
          · rw [h0] at hd; omega
          · exact h0
        obtain ⟨is, hi⟩ := inBlock_zero he hz (inShape_unflat bs (k / (n / bs.prod)) (by
          rw [Nat.div_lt_iff_lt_mul hq, mul_comm, hd]; exact hk)) hidx.2
        simp only [fill, hi, Option.map_some]
        exact congrArg g (kept k js is hidx hi)
    · cases hp

/-- **C99, round trip.** `batch_to_space` with the paddings as crops gives back the value. -/
theorem round_trip {R : Type} [AddMonoid R] (bs : List ℕ) (ps : List (ℕ × ℕ)) {x y : PondTen R}
    {v : Ten R} (h : Holds x v) (hy : space x bs ps = some y) :
    ∃ z w, batch y bs ps = some z ∧ Holds z w ∧ Same w v ∧ flags z = flags x := by
  obtain ⟨h1, h2⟩ := space_spec bs ps h
  cases e : spaceToBatch bs ps v with
  | none => rw [h1 e] at hy; cases hy
  | some u =>
    obtain ⟨y', ey, hu, fy⟩ := h2 u e
    cases ey.symm.trans hy
    obtain ⟨w, ew, hw⟩ := tf_round_trip e
    obtain ⟨z, ez, hz, fz⟩ := (batch_spec bs ps hu).2 w ew
    exact ⟨z, w, ez, hz, hw, fz.trans fy⟩

/-- **C99, the other way round**, when nothing is cropped. -/
theorem round_trip_back {R : Type} [AddMonoid R] (bs : List ℕ) (cs : List (ℕ × ℕ))
    (hz : ∀ c ∈ cs, c = (0, 0)) {x y : PondTen R} {v : Ten R} (h : Holds x v)
    (hy : batch x bs cs = some y) :
    ∃ z w, space y bs cs = some z ∧ Holds z w ∧ Same w v ∧ flags z = flags x := by
  obtain ⟨h1, h2⟩ := batch_spec bs cs h
  cases e : batchToSpace bs cs v with
  | none => rw [h1 e] at hy; cases hy
  | some u =>
    obtain ⟨y', ey, hu, fy⟩ := h2 u e
    cases ey.symm.trans hy
    obtain ⟨w, ew, -, -, hw⟩ := tf_round_trip_back e
    obtain ⟨z, ez, hz', fz⟩ := (space_spec bs cs hu).2 w ew
    exact ⟨z, w, ez, hz', hw hz, fz.trans fy⟩

/-- A map of entries that keeps zero commutes with the operations: residues modulo the factors of an int100
tensor, or decoding. -/
theorem run_map {α β : Type} [Zero α] [Zero β] (f : α → β) (hf : f 0 = 0)
    (plan : List ℕ → Option Plan) (t : Ten α) :
    run plan (⟨t.shape, fun i => f (t.get i)⟩ : Ten β) =
      (run plan t).map fun u => ⟨u.shape, fun i => f (u.get i)⟩ := by
  simp only [run, Option.map_map]
  congr 1
  funext p
  simp only [Function.comp, Ten.mk.injEq, true_and]
  funext idx
  unfold fill
  cases p.source idx <;> simp [hf]

/-- **C99 (int100).** The residues of an int100 tensor after the operation are those of the values after it. -/
theorem residues_space {ι : Type} {R : ι → Type} [∀ i, Zero (R i)] {α : Type} [Zero α]
    (res : ∀ i, α → R i) (h0 : ∀ i, res i 0 = 0) (bs : List ℕ) (ps : List (ℕ × ℕ)) (t : Ten α) (i : ι) :
    onResidues (fun _ => spaceToBatch bs ps) (fun j => ⟨t.shape, fun k => res j (t.get k)⟩) i =
      (spaceToBatch bs ps t).map (fun u => ⟨u.shape, fun k => res i (u.get k)⟩) ∧
    onResidues (fun _ => batchToSpace bs ps) (fun j => ⟨t.shape, fun k => res j (t.get k)⟩) i =
      (batchToSpace bs ps t).map (fun u => ⟨u.shape, fun k => res i (u.get k)⟩) :=
  ⟨run_map _ (h0 i) _ t, run_map _ (h0 i) _ t⟩

theorem blocked_append (r : ℕ) : ∀ {ds bs ps}, bs.length ≤ ds.length →
    blocked (ds ++ [r]) bs ps = (blocked ds bs ps).map (· ++ [r])
  | ds, [], [], _ => by simp [blocked]
  | [], [], _ :: _, _ => by simp [blocked]
  | _ :: _, [], _ :: _, _ => by simp [blocked]
  | [], _ :: _, _, h => by simp at h
  | _ :: _, _ :: _, [], _ => by simp [blocked]
  | d :: ds, b :: bs, p :: ps, h => by
    simp only [List.cons_append, blocked]
    split
    · rw [blocked_append r (by simpa using h)]
      simp [Option.map_map, Function.comp_def]
    · rfl

theorem inBlock_append (r c : ℕ) : ∀ {ds bs ps os js}, bs.length ≤ ds.length → bs.length ≤ js.length →
    inBlock (ds ++ [r]) bs ps os (js ++ [c]) = (inBlock ds bs ps os js).map (· ++ [c])
  | ds, [], ps, os, js, _, _ => by
    cases ds <;> cases js <;> simp [inBlock]
  | [], _ :: _, _, _, _, h, _ => by simp at h
  | _, _ :: _, _, _, [], _, h => by simp at h
  | d :: ds, b :: bs, [], os, j :: js, _, _ => by simp [inBlock]
  | d :: ds, b :: bs, p :: ps, [], j :: js, _, _ => by simp [inBlock]
  | d :: ds, b :: bs, p :: ps, o :: os, j :: js, h, h' => by
    simp only [List.cons_append, inBlock]
    split
    · rw [inBlock_append r c (by simpa using h) (by simpa using h')]
      simp [Option.map_map, Function.comp_def]
    · rfl

/-- **C99 (int128), in part.** Words of 128 bits stay together, if the block shape does not have more entries
than the tensor has axes after the batch. Missing: longer block shapes (`int128_false`). -/
theorem words_space_partial {H : Type} [Zero H] (n : ℕ) (ds bs : List ℕ) (ps : List (ℕ × ℕ))
    (hb : bs.length ≤ ds.length) (t : Ten H) (ht : t.shape = n :: ds ++ [2]) :
    ∃ f : Option (Ten (H × H)), f = spaceToBatch bs ps ⟨n :: ds, word t⟩ ∧
      (f = none → spaceToBatch bs ps t = none) ∧
      ∀ u, f = some u → ∃ y, spaceToBatch bs ps t = some y ∧ y.shape = u.shape ++ [2] ∧
        ∀ idx, bs.length < idx.length → word y idx = u.get idx := by
  refine ⟨_, rfl, ?_⟩
  simp only [spaceToBatch, run, ht, List.cons_append, spacePlan, blocked_append 2 hb]
  cases e : blocked ds bs ps with
  | none => simp
  | some es =>
    refine ⟨fun h => by simp at h, fun u hu => ⟨_, rfl, ?_, ?_⟩⟩
    · simp only [Option.map_some, Option.some.injEq] at hu
      subst hu
      rfl
    · simp only [Option.map_some, Option.some.injEq] at hu
      subst hu
      rintro (_ | ⟨k, js⟩) hl
      · simp at hl
      have hl' : bs.length ≤ js.length := by simpa [Nat.lt_succ_iff] using hl
      simp only [word, fill, List.cons_append, inBlock_append 2 _ hb hl', Option.map_map]
      cases inBlock ds bs ps (unflat bs (k / n)) js <;> simp [word]

theorem cropped_append (r : ℕ) : ∀ {ds bs cs}, bs.length ≤ ds.length →
    cropped (ds ++ [r]) bs cs = (cropped ds bs cs).map (· ++ [r])
  | ds, [], [], _ => by simp [cropped]
  | [], [], _ :: _, _ => by simp [cropped]
  | _ :: _, [], _ :: _, _ => by simp [cropped]
  | [], _ :: _, _, h => by simp at h
  | _ :: _, _ :: _, [], _ => by simp [cropped]
  | d :: ds, b :: bs, c :: cs, h => by
    simp only [List.cons_append, cropped]
    split
    · rw [cropped_append r (by simpa using h)]
      simp [Option.map_map, Function.comp_def]
    · rfl

theorem toBlock_append (c : ℕ) : ∀ {bs cs hs}, bs.length ≤ hs.length →
    toBlock bs cs (hs ++ [c]) = ((toBlock bs cs hs).1, (toBlock bs cs hs).2 ++ [c])
  | [], cs, hs, _ => by cases cs <;> cases hs <;> simp [toBlock]
  | _ :: _, _, [], h => by simp at h
  | b :: bs, [], h :: hs, _ => by simp [toBlock]
  | b :: bs, d :: cs, h :: hs, hl => by
    simp only [List.cons_append, toBlock, toBlock_append c (show bs.length ≤ hs.length by simpa using hl)]

/-- The same for `batch_to_space`. -/
theorem words_batch_partial {H : Type} [Zero H] (n : ℕ) (ds bs : List ℕ) (cs : List (ℕ × ℕ))
    (hb : bs.length ≤ ds.length) (t : Ten H) (ht : t.shape = n :: ds ++ [2]) :
    ∃ f : Option (Ten (H × H)), f = batchToSpace bs cs ⟨n :: ds, word t⟩ ∧
      (f = none → batchToSpace bs cs t = none) ∧
      ∀ u, f = some u → ∃ y, batchToSpace bs cs t = some y ∧ y.shape = u.shape ++ [2] ∧
        ∀ idx, bs.length < idx.length → word y idx = u.get idx := by
  refine ⟨_, rfl, ?_⟩
  simp only [batchToSpace, run, ht, List.cons_append, batchPlan, cropped_append 2 hb]
  split
  · cases e : cropped ds bs cs with
    | none => simp
    | some es =>
      refine ⟨fun h => by simp at h, fun u hu => ⟨_, rfl, ?_, ?_⟩⟩
      · simp only [Option.map_some, Option.some.injEq] at hu
        subst hu
        rfl
      · simp only [Option.map_some, Option.some.injEq] at hu
        subst hu
        rintro (_ | ⟨k, js⟩) hl
        · simp at hl
        have hl' : bs.length ≤ js.length := by simpa [Nat.lt_succ_iff] using hl
        simp only [word, fill, List.cons_append, toBlock_append _ hl']
  · simp

/-- **C99 is false (int128).** A block shape that is too long for the tensor should raise; for words of 128
bits it may take the two halves of the words apart instead. -/
theorem int128_false : ¬ ∀ (n : ℕ) (ds bs : List ℕ) (ps : List (ℕ × ℕ)) (t : Ten ℕ),
    t.shape = n :: ds ++ [2] → spaceToBatch bs ps ⟨n :: ds, word t⟩ = none →
    spaceToBatch bs ps t = none := by
  intro h
  have := h 1 [] [2] [(0, 0)] ⟨[1, 2], fun _ => 0⟩ rfl (by simp [spaceToBatch, run, spacePlan, blocked])
  simp [spaceToBatch, run, spacePlan, blocked] at this

/-- A concrete case: a batch of one 2 x 3 image with two channels, padded to 2 x 4, in blocks of 2 x 2. -/
example : ∃ u, spaceToBatch [2, 2] [(0, 0), (1, 0)] (⟨[1, 2, 3, 2], fun i => flat [1, 2, 3, 2] i + 1⟩ : Ten ℕ)
      = some u ∧ u.shape = [4, 1, 2, 2] ∧ u.get [0, 0, 0, 0] = 0 ∧ u.get [0, 0, 1, 1] = 4 ∧
      u.get [1, 0, 0, 0] = 1 ∧ u.get [2, 0, 1, 0] = 9 ∧ u.get [3, 0, 1, 1] = 12 :=
  ⟨_, rfl, by decide⟩

/-- A concrete case of `Holds`: shares `i + 5` and `-4` of the same image. -/
example : Holds (.priv ⟨[1, 2, 3, 2], fun i => (flat [1, 2, 3, 2] i : ℤ) + 5⟩ ⟨[1, 2, 3, 2], fun _ => -4⟩ true)
    ⟨[1, 2, 3, 2], fun i => (flat [1, 2, 3, 2] i : ℤ) + 1⟩ :=
  ⟨rfl, rfl, fun _ _ => by ring⟩

end Verif.Tensor.SpaceBatch
