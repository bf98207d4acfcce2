import Verif.Aby3.ShareTypeSpec
import Mathlib.Tactic.Abel
import Mathlib.Tactic.Ring

/-!
# C84: operations and share types

Programs that use every operation on the share types it is for compute what they should, and moving
elements around is right for both share types. The checks do not enforce this.
-/

namespace Verif.Aby3.ShareType

variable {w : ℕ}

theorem agree_bind {α β α' β' : Type} {R : α → β → Prop} {S : α' → β' → Prop} {m : Except Err α}
    {m' : Except Err β} {f : α → Except Err α'} {f' : β → Except Err β'} (h : Agree R m m')
    (hf : ∀ a b, R a b → Agree S (f a) (f' b)) : Agree S (m >>= f) (m' >>= f') := by
  cases m <;> cases m'
  · exact h
  · exact h.elim
  · exact h.elim
  · exact hf _ _ h

/-- Looking up a tensor. -/
theorem look_agree {env : List (Priv w)} {vs : List (Buf w)} (h : List.Forall₂ Opens env vs) (i : ℕ) :
    Agree (fun x v => Opens x v ∧ (env.map Priv.tag)[i]? = some x.tag) (look env i) (look vs i) := by
  induction h generalizing i with
  | nil => exact rfl
  | cons hx _ ih =>
    cases i with
    | zero => exact ⟨hx, rfl⟩
    | succ i => exact ih i

theorem Opens.len {x : Priv w} {v : Buf w} (h : Opens x v) : x.buf.len = v.len := by
  obtain ⟨s, h1, h2, -⟩ := h
  rw [Priv.buf, h1]
  exact h2 0

/-- The words can be read off the shares. -/
theorem Opens.word {x : Priv w} {v : Buf w} (h : Opens x v) {j : ℕ} (hj : j < v.len) :
    v.get j = x.tag.comb ((x.sh 0).1.get j) ((x.sh 1).1.get j) ((x.sh 2).1.get j) := by
  obtain ⟨s, h1, -, h3⟩ := h
  rw [h1, h1, h1]
  exact h3 j hj

/-- An operation on every share is right if it is right for the words. -/
theorem local₁_opens {x : Priv w} {v : Buf w} {f : Buf w → Buf w} (h : Opens x v)
    (hl : ∀ s : Buf w, s.len = v.len → (f s).len = (f v).len)
    (hf : ∀ a b c : Buf w, (∀ j < v.len, v.get j = x.tag.comb (a.get j) (b.get j) (c.get j)) →
      ∀ j < (f v).len, (f v).get j = x.tag.comb ((f a).get j) ((f b).get j) ((f c).get j)) :
    Opens (local₁ f x) (f v) := by
  obtain ⟨s, h1, h2, h3⟩ := h
  refine ⟨fun i => f (s i), fun i => ?_, fun i => hl _ (h2 i), hf _ _ _ h3⟩
  show (f (x.sh i).1, f (x.sh i).2) = _
  rw [h1]

theorem map_opens {x : Priv w} {v : Buf w} {f : BitVec w → BitVec w} (h : Opens x v)
    (hf : ∀ a b c, f (x.tag.comb a b c) = x.tag.comb (f a) (f b) (f c)) :
    Opens (local₁ (Buf.map f) x) (v.map f) :=
  local₁_opens h (fun _ hs => hs) fun a b c hv j hj => by
    show f (v.get j) = _
    rw [hv j hj, hf]
    rfl

theorem pick_opens {x : Priv w} {v : Buf w} (h : Opens x v) {p : List ℕ}
    (hp : p.all (· < v.len) = true) : Opens (local₁ (Buf.pick p) x) (v.pick p) :=
  local₁_opens h (fun _ _ => rfl) fun a b c hv j hj => by
    have hj' : j < p.length := hj
    have : p.getD j 0 < v.len := by
      rw [List.getD_eq_getElem?_getD, List.getElem?_eq_getElem hj', Option.getD_some]
      exact of_decide_eq_true (List.all_eq_true.1 hp _ (List.getElem_mem hj'))
    exact hv _ this

theorem sums_opens {x : Priv w} {v : Buf w} (h : Opens x v) (ha : x.tag = .arith) {g : List (List ℕ)}
    (hg : g.all (·.all (· < v.len)) = true) : Opens (local₁ (Buf.sums g) x) (v.sums g) :=
  local₁_opens h (fun _ _ => rfl) fun a b c hv j hj => by
    have hj' : j < g.length := hj
    have hl : ∀ i ∈ g.getD j [], i < v.len := by
      rw [List.getD_eq_getElem?_getD, List.getElem?_eq_getElem hj', Option.getD_some]
      intro i hi
      exact of_decide_eq_true (List.all_eq_true.1 (List.all_eq_true.1 hg _ (List.getElem_mem hj')) i hi)
    rw [ha] at hv ⊢
    show ((g.getD j []).map v.get).sum = ((g.getD j []).map a.get).sum + ((g.getD j []).map b.get).sum +
      ((g.getD j []).map c.get).sum
    generalize g.getD j [] = l at hl
    induction l with
    | nil => simp
    | cons i l ih =>
      simp only [List.map_cons, List.sum_cons]
      rw [ih fun k hk => hl k (List.mem_cons_of_mem _ hk), hv i (hl i List.mem_cons_self)]
      simp only [Tag.comb]
      abel

theorem local₂_opens {x y : Priv w} {v u : Buf w} {f : Buf w → Buf w → Buf w} (hx : Opens x v)
    (hy : Opens y u) (hl : ∀ s t : Buf w, s.len = v.len → t.len = u.len → (f s t).len = (f v u).len)
    (hf : ∀ a b c a' b' c' : Buf w,
      a.len = v.len → b.len = v.len → c.len = v.len →
      (∀ j < v.len, v.get j = x.tag.comb (a.get j) (b.get j) (c.get j)) →
      (∀ j < u.len, u.get j = y.tag.comb (a'.get j) (b'.get j) (c'.get j)) →
      ∀ j < (f v u).len, (f v u).get j = x.tag.comb ((f a a').get j) ((f b b').get j) ((f c c').get j)) :
    Opens (local₂ f x y) (f v u) := by
  obtain ⟨s, h1, h2, h3⟩ := hx
  obtain ⟨t, g1, g2, g3⟩ := hy
  refine ⟨fun i => f (s i) (t i), fun i => ?_, fun i => hl _ _ (h2 i) (g2 i),
    hf _ _ _ _ _ _ (h2 0) (h2 1) (h2 2) h3 g3⟩
  show (f (x.sh i).1 (y.sh i).1, f (x.sh i).2 (y.sh i).2) = _
  rw [h1, g1]

theorem map₂_opens {x y : Priv w} {v u : Buf w} {f : BitVec w → BitVec w → BitVec w} (hx : Opens x v)
    (hy : Opens y u) (hlen : v.len = u.len)
    (hf : ∀ a b c a' b' c', f (x.tag.comb a b c) (y.tag.comb a' b' c') =
      x.tag.comb (f a a') (f b b') (f c c')) :
    Opens (local₂ (Buf.map₂ f) x y) (v.map₂ f u) :=
  local₂_opens hx hy (fun _ _ h _ => h) fun a b c a' b' c' _ _ _ hv hu j hj => by
    show f (v.get j) (u.get j) = _
    rw [hv j hj, hu j (hlen ▸ hj), hf]
    rfl

theorem append_opens {x y : Priv w} {v u : Buf w} (hx : Opens x v) (hy : Opens y u)
    (ht : x.tag = y.tag) : Opens (local₂ Buf.append x y) (v.append u) :=
  local₂_opens hx hy (fun s t h h' => by show s.len + t.len = v.len + u.len; rw [h, h'])
    fun a b c a' b' c' ha hb hc hv hu j hj => by
      have hj' : j < v.len + u.len := hj
      show (if j < v.len then v.get j else u.get (j - v.len)) = x.tag.comb
        (if j < a.len then a.get j else a'.get (j - a.len))
        (if j < b.len then b.get j else b'.get (j - b.len))
        (if j < c.len then c.get j else c'.get (j - c.len))
      rw [ha, hb, hc]
      by_cases h : j < v.len
      · simp only [if_pos h]
        exact hv j h
      · simp only [if_neg h]
        rw [ht]
        exact hu _ (by omega)

theorem addPub_opens {x : Priv w} {v u : Buf w} (hx : Opens x v) (ha : x.tag = .arith)
    (hlen : v.len = u.len) : Opens ⟨x.tag, addPubShares x.sh u⟩ (v.map₂ (· + ·) u) := by
  obtain ⟨s, h1, h2, h3⟩ := hx
  refine ⟨![(s 0).map₂ (· + ·) u, s 1, s 2], fun i => ?_, fun i => ?_, fun j hj => ?_⟩
  · unfold addPubShares
    fin_cases i <;> simp [h1]
  · fin_cases i
    · exact h2 0
    · exact h2 1
    · exact h2 2
  · rw [ha] at h3 ⊢
    show v.get j + u.get j = (s 0).get j + u.get j + (s 1).get j + (s 2).get j
    rw [h3 j hj]
    simp only [Tag.comb]
    abel

theorem inv_opens {x : Priv w} {v : Buf w} (hx : Opens x v) (hb : x.tag = .bool) :
    Opens ⟨x.tag, invShares x.sh⟩ (v.map (~~~ ·)) := by
  obtain ⟨s, h1, h2, h3⟩ := hx
  refine ⟨![(s 0).map (~~~ ·), s 1, s 2], fun i => ?_, fun i => ?_, fun j hj => ?_⟩
  · unfold invShares
    fin_cases i <;> simp [h1]
  · fin_cases i
    · exact h2 0
    · exact h2 1
    · exact h2 2
  · rw [hb] at h3 ⊢
    show ~~~ v.get j = ~~~ (s 0).get j ^^^ (s 1).get j ^^^ (s 2).get j
    rw [h3 j hj]
    simp only [Tag.comb, BitVec.not_xor_left]

theorem mul_opens {x y : Priv w} {v u : Buf w} (hx : Opens x v) (hy : Opens y u) (ha : x.tag = .arith)
    (ha' : y.tag = .arith) (hlen : v.len = u.len) (a b : ℕ → BitVec w) :
    Opens ⟨x.tag, mulShares a b x.sh y.sh⟩ (v.map₂ (· * ·) u) := by
  obtain ⟨s, h1, h2, h3⟩ := hx
  obtain ⟨t, g1, g2, g3⟩ := hy
  refine ⟨fun i => ((mulShares a b x.sh y.sh) i).1, fun i => ?_, fun i => ?_, fun j hj => ?_⟩
  · unfold mulShares passOn
    fin_cases i <;> rfl
  · unfold mulShares passOn
    fin_cases i
    · show (x.sh 0).1.len = _
      rw [h1]; exact h2 0
    · show (x.sh 1).1.len = _
      rw [h1]; exact h2 1
    · show (x.sh 2).1.len = _
      rw [h1]; exact h2 2
  · rw [ha] at h3 ⊢
    rw [ha'] at g3
    have hj' : j < v.len := hj
    show v.get j * u.get j = _
    rw [h3 j hj', g3 j (hlen ▸ hj')]
    simp only [mulShares, passOn, cross, h1, g1, Tag.comb, Matrix.cons_val_zero, Matrix.cons_val_one,
      Matrix.cons_val, Fin.isValue, Fin.reduceAdd, zero_add]
    ring

theorem and_opens {x y : Priv w} {v u : Buf w} (hx : Opens x v) (hy : Opens y u) (ha : x.tag = .bool)
    (ha' : y.tag = .bool) (hlen : v.len = u.len) (a b : ℕ → BitVec w) :
    Opens ⟨x.tag, andShares a b x.sh y.sh⟩ (v.map₂ (· &&& ·) u) := by
  obtain ⟨s, h1, h2, h3⟩ := hx
  obtain ⟨t, g1, g2, g3⟩ := hy
  refine ⟨fun i => ((andShares a b x.sh y.sh) i).1, fun i => ?_, fun i => ?_, fun j hj => ?_⟩
  · unfold andShares passOn
    fin_cases i <;> rfl
  · unfold andShares passOn
    fin_cases i
    · show (x.sh 0).1.len = _
      rw [h1]; exact h2 0
    · show (x.sh 1).1.len = _
      rw [h1]; exact h2 1
    · show (x.sh 2).1.len = _
      rw [h1]; exact h2 2
  · rw [ha] at h3 ⊢
    rw [ha'] at g3
    have hj' : j < v.len := hj
    show v.get j &&& u.get j = _
    rw [h3 j hj', g3 j (hlen ▸ hj')]
    simp only [andShares, passOn, cross, h1, g1, Tag.comb, Matrix.cons_val_zero, Matrix.cons_val_one,
      Matrix.cons_val, Fin.isValue, Fin.reduceAdd, zero_add]
    ext i hi
    simp only [BitVec.getElem_and, BitVec.getElem_xor]
    generalize ((s 0).get j)[i] = p0
    generalize ((s 1).get j)[i] = p1
    generalize ((s 2).get j)[i] = p2
    generalize ((t 0).get j)[i] = q0
    generalize ((t 1).get j)[i] = q1
    generalize ((t 2).get j)[i] = q2
    generalize (a j)[i] = c
    generalize (b j)[i] = d
    revert p0 p1 p2 q0 q1 q2 c d
    decide

theorem sameLen_agree {x y v u : Buf w} (hx : x.len = v.len) (hy : y.len = u.len) :
    Agree (fun _ _ => v.len = u.len) (sameLen x y) (sameLen v u) := by
  unfold sameLen
  rw [hx, hy]
  by_cases h : v.len = u.len
  · rw [if_pos h]; exact h
  · rw [if_neg h]; rfl

theorem wantArith_ok (c : Call) {x : Priv w} (h : x.tag = .arith) : wantArith c x = .ok () :=
  if_neg fun hc => hc.2 h

theorem wantBool_ok (c : Call) {x : Priv w} (h : x.tag = .bool) : wantBool c x = .ok () :=
  if_neg fun hc => hc.2 h

theorem assertBool_ok {x y : Priv w} (h : x.tag = .bool) (h' : y.tag = .bool) :
    assertBool x y = .ok () := if_pos ⟨h, h'⟩

/-- What is known of a tensor that was looked up. -/
theorem meant_tag {ts : List Tag} {i : ℕ} {t s : Tag} (h : ∀ s ∈ ts[i]?, s = t) (hs : ts[i]? = some s) :
    s = t := h s hs

theorem ok_then {α : Type} (f : Unit → Except Err α) : (Except.ok () >>= f) = f () := rfl

/-- One operation on the share types it is for: the same exception as on plain words, or a sharing of
the plain result with the right tag. -/
theorem op_correct {env : List (Priv w)} {vs : List (Buf w)} (h : List.Forall₂ Opens env vs) {o : Op w}
    {t : Tag} (ho : o.Meant (env.map Priv.tag) t) :
    Agree (fun z u => Opens z u ∧ z.tag = t) (o.run env) (o.plain vs) := by
  cases o with
  | pick p x =>
    refine agree_bind (look_agree h x) ?_
    rintro x v ⟨hx, ht⟩
    simp only [hx.len]
    by_cases hp : p.all (· < v.len) = true
    · rw [if_pos hp, if_pos hp]
      exact ⟨pick_opens hx hp, ho _ ht⟩
    · rw [if_neg hp, if_neg hp]
      rfl
  | sums g x =>
    refine agree_bind (look_agree h x) ?_
    rintro x v ⟨hx, ht⟩
    simp only [hx.len]
    by_cases hp : g.all (·.all (· < v.len)) = true
    · rw [if_pos hp, if_pos hp]
      exact ⟨sums_opens hx (ho.2 _ ht) hp, (ho.2 _ ht).trans ho.1.symm⟩
    · rw [if_neg hp, if_neg hp]
      rfl
  | neg x =>
    refine agree_bind (look_agree h x) ?_
    rintro x v ⟨hx, ht⟩
    refine ⟨map_opens hx fun a b c => ?_, (ho.2 _ ht).trans ho.1.symm⟩
    rw [ho.2 _ ht]
    simp only [Tag.comb]
    abel
  | shl k x =>
    refine agree_bind (look_agree h x) ?_
    rintro x v ⟨hx, ht⟩
    refine ⟨map_opens hx fun a b c => ?_, ho _ ht⟩
    cases x.tag
    · simp only [Tag.comb, BitVec.shiftLeft_eq_mul_twoPow]
      ring
    · simp only [Tag.comb, BitVec.shiftLeft_xor_distrib]
  | sar k x =>
    refine agree_bind (look_agree h x) ?_
    rintro x v ⟨hx, ht⟩
    refine ⟨map_opens hx fun a b c => ?_, (ho.2 _ ht).trans ho.1.symm⟩
    rw [ho.2 _ ht]
    simp only [Tag.comb, BitVec.sshiftRight_xor_distrib]
  | shr k x =>
    refine agree_bind (look_agree h x) ?_
    rintro x v ⟨hx, ht⟩
    refine ⟨map_opens hx fun a b c => ?_, (ho.2 _ ht).trans ho.1.symm⟩
    rw [ho.2 _ ht]
    simp only [Tag.comb, BitVec.ushiftRight_xor_distrib]
  | inv c x =>
    refine agree_bind (look_agree h x) ?_
    rintro x v ⟨hx, ht⟩
    have hb := ho.2 _ ht
    rw [wantBool_ok c hb]
    exact ⟨inv_opens hx hb, hb.trans ho.1.symm⟩
  | add c x y =>
    refine agree_bind (look_agree h x) ?_
    rintro x v ⟨hx, ht⟩
    refine agree_bind (look_agree h y) ?_
    rintro y u ⟨hy, ht'⟩
    have ha := ho.2.1 _ ht
    have ha' := ho.2.2 _ ht'
    simp only [wantArith_ok c ha, ok_then]
    refine agree_bind (sameLen_agree hx.len hy.len) fun _ _ hl => ?_
    refine ⟨map₂_opens hx hy hl fun a b c a' b' c' => ?_, ha.trans ho.1.symm⟩
    rw [ha, ha']
    simp only [Tag.comb]
    abel
  | sub c x y =>
    refine agree_bind (look_agree h x) ?_
    rintro x v ⟨hx, ht⟩
    refine agree_bind (look_agree h y) ?_
    rintro y u ⟨hy, ht'⟩
    have ha := ho.2.1 _ ht
    have ha' := ho.2.2 _ ht'
    simp only [wantArith_ok c ha, ok_then]
    refine agree_bind (sameLen_agree hx.len hy.len) fun _ _ hl => ?_
    refine ⟨map₂_opens hx hy hl fun a b c a' b' c' => ?_, ha.trans ho.1.symm⟩
    rw [ha, ha']
    simp only [Tag.comb]
    abel
  | addPub c x u =>
    refine agree_bind (look_agree h x) ?_
    rintro x v ⟨hx, ht⟩
    have ha := ho.2 _ ht
    simp only [wantArith_ok c ha, ok_then]
    refine agree_bind (sameLen_agree hx.len rfl) fun _ _ hl => ?_
    exact ⟨addPub_opens hx ha hl, ha.trans ho.1.symm⟩
  | mul a b x y =>
    refine agree_bind (look_agree h x) ?_
    rintro x v ⟨hx, ht⟩
    refine agree_bind (look_agree h y) ?_
    rintro y u ⟨hy, ht'⟩
    have ha := ho.2.1 _ ht
    have ha' := ho.2.2 _ ht'
    refine agree_bind (sameLen_agree hx.len hy.len) fun _ _ hl => ?_
    exact ⟨mul_opens hx hy ha ha' hl a b, ha.trans ho.1.symm⟩
  | xor c x y =>
    refine agree_bind (look_agree h x) ?_
    rintro x v ⟨hx, ht⟩
    refine agree_bind (look_agree h y) ?_
    rintro y u ⟨hy, ht'⟩
    have ha := ho.2.1 _ ht
    have ha' := ho.2.2 _ ht'
    simp only [wantBool_ok c ha, assertBool_ok ha ha', ok_then]
    refine agree_bind (sameLen_agree hx.len hy.len) fun _ _ hl => ?_
    refine ⟨map₂_opens hx hy hl fun a b c a' b' c' => ?_, ha.trans ho.1.symm⟩
    rw [ha, ha']
    simp only [Tag.comb]
    ac_rfl
  | and c a b x y =>
    refine agree_bind (look_agree h x) ?_
    rintro x v ⟨hx, ht⟩
    refine agree_bind (look_agree h y) ?_
    rintro y u ⟨hy, ht'⟩
    have ha := ho.2.1 _ ht
    have ha' := ho.2.2 _ ht'
    simp only [wantBool_ok c ha, assertBool_ok ha ha', ok_then]
    refine agree_bind (sameLen_agree hx.len hy.len) fun _ _ hl => ?_
    exact ⟨and_opens hx hy ha ha' hl a b, ha.trans ho.1.symm⟩
  | concat x y =>
    refine agree_bind (look_agree h x) ?_
    rintro x v ⟨hx, ht⟩
    refine agree_bind (look_agree h y) ?_
    rintro y u ⟨hy, ht'⟩
    exact ⟨append_opens hx hy ((ho.1 _ ht).trans (ho.2 _ ht').symm), ho.1 _ ht⟩

/-- **C84** (the part that holds). A program of any length that uses every operation on the share
types it is for, whether it calls operators or functions: it raises what the program on plain words
raises, and otherwise all its tensors are sharings of the plain results, for all sharings of the inputs
and all random numbers. -/
theorem share_types_partial {os : List (Op w)} {env : List (Priv w)} {vs : List (Buf w)}
    (h : List.Forall₂ Opens env vs) (ho : MeantAll os (env.map Priv.tag)) :
    Agree (List.Forall₂ Opens) (runAll os env) (plainAll os vs) := by
  induction os generalizing env vs with
  | nil => exact h
  | cons o os ih =>
    cases ho with
    | cons hm hs =>
      have h1 := op_correct h hm
      unfold runAll plainAll
      revert h1
      cases o.run env with
      | error e =>
        cases o.plain vs with
        | error e' => exact fun h1 => h1
        | ok u => exact fun h1 => h1.elim
      | ok z =>
        cases o.plain vs with
        | error e' => exact fun h1 => h1.elim
        | ok u =>
          intro h1
          refine ih (List.rel_append h (.cons h1.1 .nil)) ?_
          rw [List.map_append, List.map_cons, List.map_nil, h1.2]
          exact hs

/-- What is refused: the operators `+` and `-` on a boolean left operand, `~` on an arithmetic one, and
`^` and `&` unless both operands are boolean, however they are called. -/
theorem refused {env : List (Priv w)} {x y : Priv w} {i j : ℕ} (hx : env[i]? = some x)
    (hy : env[j]? = some y) :
    (x.tag = .bool → (Op.add .operator i j).run env = .error .shareType ∧
      (Op.sub .operator i j).run env = .error .shareType ∧
      ∀ v, (Op.addPub .operator i v).run env = .error .shareType) ∧
    (x.tag = .arith → (Op.inv .operator i).run env = .error .shareType) ∧
    (¬(x.tag = .bool ∧ y.tag = .bool) → ∀ c a b, (∃ e, (Op.xor c i j).run env = .error e) ∧
      ∃ e, (Op.and c a b i j).run env = .error e) := by
  have lx : look env i = .ok x := by unfold look; rw [hx]
  have ly : look env j = .ok y := by unfold look; rw [hy]
  refine ⟨fun ht => ?_, fun ht => ?_, fun ht c a b => ?_⟩
  · have hw : wantArith .operator x = .error .shareType := if_pos ⟨rfl, by rw [ht]; decide⟩
    refine ⟨?_, ?_, fun v => ?_⟩
    · simp only [Op.run, lx, ly, hw, bind, Except.bind]
    · simp only [Op.run, lx, ly, hw, bind, Except.bind]
    · simp only [Op.run, lx, hw, bind, Except.bind]
  · have hw : wantBool .operator x = .error .shareType := if_pos ⟨rfl, by rw [ht]; decide⟩
    simp only [Op.run, lx, hw, bind, Except.bind]
  · have ha : assertBool x y = .error .assertion := if_neg ht
    cases hw : wantBool c x with
    | error e => exact ⟨⟨e, by simp only [Op.run, lx, ly, hw, bind, Except.bind]⟩,
        e, by simp only [Op.run, lx, ly, hw, bind, Except.bind]⟩
    | ok _ => exact ⟨⟨.assertion, by simp only [Op.run, lx, ly, hw, ha, bind, Except.bind]⟩,
        .assertion, by simp only [Op.run, lx, ly, hw, ha, bind, Except.bind]⟩

/-! ## What is accepted and wrong -/

/-- A tensor of given words. -/
def known (l : List (BitVec w)) : Buf w := ⟨l.length, fun i => l.getD i 0⟩

/-- A private tensor with given shares. -/
def shared (t : Tag) (a b c : Buf w) : Priv w := ⟨t, passOn a b c⟩

theorem shared_opens {t : Tag} {a b c : Buf w} (hb : b.len = a.len) (hc : c.len = a.len) :
    Opens (shared t a b c) ⟨a.len, fun j => t.comb (a.get j) (b.get j) (c.get j)⟩ := by
  refine ⟨![a, b, c], fun i => ?_, fun i => ?_, fun j _ => rfl⟩
  · fin_cases i <;> rfl
  · fin_cases i
    · rfl
    · exact hb
    · exact hc

/-- The operation accepts these tensors without an exception and returns something that is not a
sharing of the result. -/
def SilentlyWrong (o : Op w) (env : List (Priv w)) : Prop :=
  ∃ vs z u, List.Forall₂ Opens env vs ∧ o.run env = .ok z ∧ o.plain vs = .ok u ∧ ¬ Opens z u

theorem silently_wrong {o : Op w} {env : List (Priv w)} {vs : List (Buf w)} {z : Priv w} {u : Buf w}
    (j : ℕ) (h : List.Forall₂ Opens env vs) (hz : o.run env = .ok z) (hu : o.plain vs = .ok u)
    (h0 : j < u.len)
    (hne : u.get j ≠ z.tag.comb ((z.sh 0).1.get j) ((z.sh 1).1.get j) ((z.sh 2).1.get j)) :
    SilentlyWrong o env := ⟨vs, z, u, h, hz, hu, fun ho => hne (ho.word h0)⟩

/-- `1`, shared as a boolean. -/
def boolOne : Priv 64 := shared .bool (known [3]) (known [2]) (known [0])

/-- `5`, shared arithmetically. -/
def arithFive : Priv 64 := shared .arith (known [1]) (known [1]) (known [3])

/-- `1`, shared as a boolean in another way. -/
def boolOne' : Priv 64 := shared .bool (known [1]) (known [0]) (known [0])

/-- `1, 1`, shared as a boolean. -/
def boolOnes : Priv 64 := shared .bool (known [1, 0]) (known [0, 1]) (known [0, 0])

/-- **C84** is false: none of these operations is refused, and none of the results is right. Negation,
sums and products take boolean sharings, right shifts and `not_` take arithmetic ones, sums and products
do not look at their right operand, functions of the protocol do not look at their left one either, and
`concat` joins sharings of different types. -/
theorem share_types_false :
    SilentlyWrong (.neg 0) [boolOne] ∧
    SilentlyWrong (.sums [[0, 1]] 0) [boolOnes] ∧
    SilentlyWrong (.sar 1 0) [arithFive] ∧
    SilentlyWrong (.shr 1 0) [arithFive] ∧
    SilentlyWrong (.inv .function 0) [arithFive] ∧
    SilentlyWrong (.add .operator 0 1) [arithFive, boolOne] ∧
    SilentlyWrong (.sub .operator 0 1) [arithFive, boolOne] ∧
    SilentlyWrong (.add .function 0 1) [boolOne, arithFive] ∧
    SilentlyWrong (.add .function 0 1) [boolOne, boolOne'] ∧
    SilentlyWrong (.addPub .function 0 (known [1])) [boolOne] ∧
    SilentlyWrong (.mul (fun _ => 0) (fun _ => 0) 0 1) [arithFive, boolOne] ∧
    SilentlyWrong (.mul (fun _ => 0) (fun _ => 0) 0 0) [boolOne] ∧
    SilentlyWrong (.concat 0 1) [boolOne, arithFive] := by
  have h1 : Opens boolOne _ := shared_opens (t := .bool) rfl rfl
  have h1' : Opens boolOne' _ := shared_opens (t := .bool) rfl rfl
  have h5 : Opens arithFive _ := shared_opens (t := .arith) rfl rfl
  have hs : Opens boolOnes _ := shared_opens (t := .bool) rfl rfl
  refine ⟨?_, ?_, ?_, ?_, ?_, ?_, ?_, ?_, ?_, ?_, ?_, ?_, ?_⟩
  · exact silently_wrong 0 (.cons h1 .nil) rfl rfl (by decide) (by decide)
  · exact silently_wrong 0 (.cons hs .nil) rfl rfl (by decide) (by decide)
  · exact silently_wrong 0 (.cons h5 .nil) rfl rfl (by decide) (by decide)
  · exact silently_wrong 0 (.cons h5 .nil) rfl rfl (by decide) (by decide)
  · exact silently_wrong 0 (.cons h5 .nil) rfl rfl (by decide) (by decide)
  · exact silently_wrong 0 (.cons h5 (.cons h1 .nil)) rfl rfl (by decide) (by decide)
  · exact silently_wrong 0 (.cons h5 (.cons h1 .nil)) rfl rfl (by decide) (by decide)
  · exact silently_wrong 0 (.cons h1 (.cons h5 .nil)) rfl rfl (by decide) (by decide)
  · exact silently_wrong 0 (.cons h1 (.cons h1' .nil)) rfl rfl (by decide) (by decide)
  · exact silently_wrong 0 (.cons h1 .nil) rfl rfl (by decide) (by decide)
  · exact silently_wrong 0 (.cons h5 (.cons h1 .nil)) rfl rfl (by decide) (by decide)
  · exact silently_wrong 0 (.cons h1 .nil) rfl rfl (by decide) (by decide)
  · exact silently_wrong 1 (.cons h1 (.cons h5 .nil)) rfl rfl (by decide) (by decide)

/-- The result of a boolean sum is not even determined by the tensor: two sharings of the same words
`1, 1` have the "sums" `0` and `2`. -/
theorem bool_sum_depends : ∃ x y : Priv 64, ∃ v, Opens x v ∧ Opens y v ∧ x.tag = .bool ∧ y.tag = .bool ∧
    ∃ zx zy, (Op.sums [[0, 1]] 0).run [x] = .ok zx ∧ (Op.sums [[0, 1]] 0).run [y] = .ok zy ∧
      Opens zx (known [0]) ∧ Opens zy (known [2]) := by
  refine ⟨boolOnes, shared .bool (known [1, 1]) (known [0, 0]) (known [0, 0]), known [1, 1],
    ⟨![known [1, 0], known [0, 1], known [0, 0]], ?_, ?_, ?_⟩,
    ⟨![known [1, 1], known [0, 0], known [0, 0]], ?_, ?_, ?_⟩, rfl, rfl, _, _, rfl, rfl,
    ⟨![(known [1, 0]).sums [[0, 1]], (known [0, 1]).sums [[0, 1]], (known [0, 0]).sums [[0, 1]]],
      ?_, ?_, ?_⟩,
    ⟨![(known [1, 1]).sums [[0, 1]], (known [0, 0]).sums [[0, 1]], (known [0, 0]).sums [[0, 1]]],
      ?_, ?_, ?_⟩⟩
  any_goals (intro i; fin_cases i <;> rfl)
  all_goals decide

/-- The hypotheses of `share_types_partial` are met: a program that shifts and joins sums of arithmetic
tensors and inverts the conjunction of boolean ones, with both ways to call. -/
example : Agree (List.Forall₂ Opens)
    (runAll [.add .operator 0 0, .shl 3 2, .concat 0 3, .xor .function 1 1, .inv .operator 5, .shr 1 6]
      [arithFive, boolOne])
    (plainAll [.add .operator 0 0, .shl 3 2, .concat 0 3, .xor .function 1 1, .inv .operator 5, .shr 1 6]
      [⟨1, fun j => Tag.arith.comb ((known [1]).get j) ((known [1]).get j) ((known [3]).get j)⟩,
       ⟨1, fun j => Tag.bool.comb ((known [3]).get j) ((known [2]).get j) ((known [0]).get j)⟩]) := by
  refine share_types_partial (.cons (shared_opens rfl rfl) (.cons (shared_opens rfl rfl) .nil)) ?_
  refine .cons (t := .arith) ?_ (.cons (t := .arith) ?_ (.cons (t := .arith) ?_ (.cons (t := .bool) ?_
    (.cons (t := .bool) ?_ (.cons (t := .bool) ?_ .nil))))) <;>
  simp [Op.Meant, arithFive, boolOne, shared]

end Verif.Aby3.ShareType
