import Verif.Aby3.Compare
import Verif.Aby3.ProgLemmas
import Verif.Aby3.B2a

/-!
# Lemmas: comparisons, selection and reductions

For each protocol: run on sharings (or copies) of two tensors that look the same to a server, it
gives sharings of the results that look the same to it, with the same messages.
-/

namespace Verif.Aby3

open Verif

variable {w n : ℕ} {s : Srt} {σ : Fin 3}

/-- Copies of one value in both runs, or sharings that look alike. -/
inductive BRel (σ : Fin 3) : T s → T s → Body s → Body s → Prop
  | pub {v : T s} {p p' : Pub (T s)} (h : IsPub v p) (h' : IsPub v p') :
      BRel σ v v (.pub p) (.pub p')
  | priv {v v' : T s} {x x' : Shares (T s)} (h : Alike σ v v' x x') :
      BRel σ v v' (.priv x) (.priv x')

theorem BRel.sub {x x' y y' : T (.arith w n)} {X X' Y Y' : Body (.arith w n)}
    (hx : BRel σ x x' X X') (hy : BRel σ y y' Y Y') :
    BRel σ (x - y) (x' - y') (X.sub Y) (X'.sub Y') := by
  cases hx with
  | pub h h' =>
    cases hy with
    | pub k k' => exact .pub (fun i => by rw [h, k]) (fun i => by rw [h', k'])
    | priv k => exact .priv (k.pubSub h h')
  | priv h =>
    cases hy with
    | pub k k' => exact .priv (h.subPub k k')
    | priv k => exact .priv (h.sub k)

theorem BRel.xor {x x' y y' : T (.bool w n)} {X X' Y Y' : Body (.bool w n)}
    (hx : BRel σ x x' X X') (hy : BRel σ y y' Y Y') :
    BRel σ (x + y) (x' + y') (X.xor Y) (X'.xor Y') := by
  cases hx with
  | pub h h' =>
    cases hy with
    | pub k k' => exact .pub (fun i => by rw [h, k]) (fun i => by rw [h', k'])
    | priv k => rw [add_comm x, add_comm x]; exact .priv (k.xorPub h h')
  | priv h =>
    cases hy with
    | pub k k' => exact .priv (h.xorPub k k')
    | priv k => exact .priv (h.add k)

theorem BRel.plus {z z' : T (.arith w n)} {Z Z' : Shares (T (.arith w n))} {x x' : T (.arith w n)}
    {X X' : Body (.arith w n)} (hz : Alike σ z z' Z Z') (hx : BRel σ x x' X X') :
    Alike σ (z + x) (z' + x') (plus Z X) (plus Z' X') := by
  cases hx with
  | pub h h' => exact hz.addPub h h'
  | priv h => exact hz.add h

theorem BRel.plusB {z z' : T (.bool w n)} {Z Z' : Shares (T (.bool w n))} {x x' : T (.bool w n)}
    {X X' : Body (.bool w n)} (hz : Alike σ z z' Z Z') (hx : BRel σ x x' X X') :
    Alike σ (z + x) (z' + x') (plusB Z X) (plusB Z' X') := by
  cases hx with
  | pub h h' => exact hz.xorPub h h'
  | priv h => exact hz.add h

/-- Element by element: `y` where the bit is set, `x` elsewhere. -/
def pick {m : ℕ} {α : Type} (q : Fin n → Fin m) (c : T (.bool 1 m)) (x y : Fin n → α) : Fin n → α :=
  fun i => if (c (q i)).bits = 1#1 then y i else x i

attribute [local irreducible] M.All M.Sim

theorem mulAbBody_sim {c c' : T (.bool 1 n)} {C C' : Shares (T (.bool 1 n))}
    (hc : Alike σ c c' C C') {x x' : T (.arith w n)} {X X' : Body (.arith w n)}
    (hx : BRel σ x x' X X') :
    M.Sim σ (Alike σ (gate c x) (gate c' x')) (mulAbBody C X) (mulAbBody C' X') := by
  cases hx with
  | pub h h' => exact mulAbPub_sim h h' hc
  | priv h => exact mulAb_sim h hc

theorem gate_pick (c : T (.bool 1 n)) (x y : T (.arith w n)) :
    gate c (y - x) + x = pick id c x y := by
  funext i
  show (if (c i).bits = 1#1 then (y i - x i) else 0) + x i = if (c i).bits = 1#1 then y i else x i
  split
  · exact sub_add_cancel _ _
  · exact zero_add _

theorem selectA_sim {c c' : T (.bool 1 n)} {C C' : Shares (T (.bool 1 n))}
    (hc : Alike σ c c' C C') {x x' y y' : T (.arith w n)} {X X' Y Y' : Body (.arith w n)}
    (hx : BRel σ x x' X X') (hy : BRel σ y y' Y Y') :
    M.Sim σ (Alike σ (pick id c x y : T (.arith w n)) (pick id c' x' y')) (selectA C X Y)
      (selectA C' X' Y') := by
  refine M.Sim.bind (mulAbBody_sim hc (hy.sub hx)) fun z z' hz => .pure ?_
  rw [← gate_pick, ← gate_pick]
  exact BRel.plus hz hx

theorem band_pick {m : ℕ} (q : Fin n → Fin m) (c : T (.bool 1 m)) (x y : T (.bool 1 n)) :
    bandBc id q (x + y) c + x = pick q c x y := by
  funext i
  apply XBits.ext
  show (((x i).bits ^^^ (y i).bits) &&& (c (q i)).bits) ^^^ (x i).bits
    = XBits.bits (if (c (q i)).bits = 1#1 then y i else x i)
  generalize (x i) = a
  generalize (y i) = b
  generalize (c (q i)).bits = d
  rcases a with ⟨a⟩
  rcases b with ⟨b⟩
  revert a b d
  decide

theorem selectB_sim {m : ℕ} (q : Fin n → Fin m) {c c' : T (.bool 1 m)}
    {C C' : Shares (T (.bool 1 m))} (hc : Alike σ c c' C C') {x x' y y' : T (.bool 1 n)}
    {X X' Y Y' : Body (.bool 1 n)} (hx : BRel σ x x' X X') (hy : BRel σ y y' Y Y') :
    M.Sim σ (Alike σ (pick q c x y : T (.bool 1 n)) (pick q c' x' y')) (selectB q C X Y)
      (selectB q C' X' Y') := by
  have key : M.Sim σ (Alike σ (bandBc id q (x + y) c) (bandBc id q (x' + y') c'))
      (andBody q C (X.xor Y)) (andBody q C' (X'.xor Y')) := by
    have h := hx.xor hy
    generalize X.xor Y = D at h ⊢
    generalize X'.xor Y' = D' at h ⊢
    generalize x + y = v at h ⊢
    generalize x' + y' = v' at h ⊢
    cases h with
    | pub h h' => exact .pure (hc.pubBilin (f := bandBc id q) (bandBc_right id q) h h')
    | priv h =>
      exact bilin_sim (f := bandBc id q) (bandBc_left id q) (bandBc_right id q) (fun _ _ => rfl)
        (fun v => ⟨v, rfl⟩) h hc
  refine M.Sim.bind key fun z z' hz => .pure ?_
  rw [← band_pick, ← band_pick]
  exact BRel.plusB hz hx

/-! ## Equality with zero -/

theorem stack2_add (a b c d : T (.arith w n)) : stack2 (a + b) (c + d) = stack2 a c + stack2 b d := by
  funext i
  show stack2 (a + b) (c + d) i = stack2 a c i + stack2 b d i
  unfold stack2
  split <;> rfl

theorem Alike.half {k : ℕ} (h : k + n ≤ n + n) {c c' : T (.bool 1 (n + n))}
    {x x' : Shares (T (.bool 1 (n + n)))} (hx : Alike σ c c' x x') :
    Alike σ (half k h c) (half k h c') (x.map (half k h)) (x'.map (half k h)) :=
  hx.map fun _ _ => rfl

/-- `1` where the word is zero. -/
def zeroBit (x : T (.arith w n)) : T (.bool 1 n) := fun i => ⟨BitVec.ofBool (decide (x i = 0))⟩

theorem msb_both (hw : 0 < w) (x : BitVec w) :
    (~~~ BitVec.ofBool x.msb) &&& (~~~ BitVec.ofBool (-x).msb) = BitVec.ofBool (decide (x = 0)) := by
  have h : (!x.msb && !(-x).msb) = decide (x = 0) := by
    by_cases hx : x = 0
    · subst hx; simp
    · have hr := Bits.toInt_range x
      have h2 := Bits.pow_split hw
      rw [BitVec.msb_eq_toInt, BitVec.msb_eq_toInt]
      have h0 : x.toInt ≠ 0 := fun e => hx (BitVec.eq_of_toInt_eq (by simpa using e))
      have hd : decide (x = 0) = false := decide_eq_false hx
      rw [hd]
      by_cases hneg : x.toInt < 0
      · simp [hneg]
      · have : (-x).toInt < 0 := by
          have e : -x = BitVec.ofInt w (-x.toInt) := by
            rw [Bits.ofInt_neg, BitVec.ofInt_toInt]
          rw [e, Bits.toInt_ofInt hw (by omega) (by omega)]
          omega
        simp [this]
  rw [← h]
  cases x.msb <;> cases (-x).msb <;> rfl

theorem equalZero_sim {e : ℕ} (he : 0 < e) {c c' : T (.arith (2 ^ e) n)}
    {x x' : Shares (T (.arith (2 ^ e) n))} (hx : Alike σ c c' x x') :
    M.Sim σ (Alike σ (zeroBit c) (zeroBit c')) (equalZero x) (equalZero x') := by
  refine M.Sim.bind (msb_sim he (hx.map₂ stack2_add hx.neg)) fun m m' hm => ?_
  have ev : ∀ c : T (.arith (2 ^ e) n), band
      (blift (~~~ ·) (half 0 (by omega) (signOf (stack2 c (-c)))))
      (blift (~~~ ·) (half n (by omega) (signOf (stack2 c (-c))))) = zeroBit c := by
    intro c
    funext i
    apply XBits.ext
    have h0 : stack2 c (-c) ⟨0 + i.1, by omega⟩ = c i := by simp [stack2]
    have h1 : stack2 c (-c) ⟨n + i.1, by omega⟩ = -(c i) := by
      simp [stack2]
    show (~~~ BitVec.ofBool (stack2 c (-c) ⟨0 + i.1, _⟩).msb)
      &&& (~~~ BitVec.ofBool (stack2 c (-c) ⟨n + i.1, _⟩).msb) = _
    rw [h0, h1]
    exact msb_both (by positivity) _
  have := band2_sim (hm.half (k := 0) (by omega)).bnot (hm.half (k := n) (by omega)).bnot
  rwa [ev, ev] at this

/-! ## Maximum -/

/-- What `maximum` computes: `x` where `y - x` has its sign bit set, `y` elsewhere. -/
def maxV (x y : T (.arith w n)) : T (.arith w n) := pick id (signOf (y - x)) y x

/-- What `cmp_swap` computes besides. -/
def minV (x y : T (.arith w n)) : T (.arith w n) := pick id (signOf (y - x)) x y

theorem maxS_sim {e : ℕ} (he : 0 < e) {c c' d d' : T (.arith (2 ^ e) n)}
    {x x' y y' : Shares (T (.arith (2 ^ e) n))} (hx : Alike σ c c' x x') (hy : Alike σ d d' y y') :
    M.Sim σ (Alike σ (maxV c d) (maxV c' d')) (maxS x y) (maxS x' y') :=
  M.Sim.bind (msb_sim he (hy.sub hx)) fun _ _ hb => selectA_sim hb (.priv hy) (.priv hx)

theorem cmpSwapS_sim {e : ℕ} (he : 0 < e) {c c' d d' : T (.arith (2 ^ e) n)}
    {x x' y y' : Shares (T (.arith (2 ^ e) n))} (hx : Alike σ c c' x x') (hy : Alike σ d d' y y') :
    M.Sim σ (fun r r' => Alike σ (minV c d) (minV c' d') r.1 r'.1 ∧
      Alike σ (maxV c d) (maxV c' d') r.2 r'.2) (cmpSwapS x y) (cmpSwapS x' y') :=
  M.Sim.bind (msb_sim he (hy.sub hx)) fun _ _ hb =>
    M.Sim.bind (selectA_sim hb (.priv hy) (.priv hx)) fun _ _ hhi =>
      M.Sim.bind (selectA_sim hb (.priv hx) (.priv hy)) fun _ _ hlo => .pure ⟨hlo, hhi⟩

/-! ## Trees -/

/-- The shape of the comparison tree, on values. -/
def vtree {V : Type} (g : V → V → V) (l : List V) (h : l ≠ []) : V :=
  if h1 : l.length ≤ 1 then l.head h
  else
    g (vtree g (l.take (l.length / 2)) (take_half_ne h1))
      (vtree g (l.drop (l.length / 2)) (drop_half_ne h1))
termination_by l.length
decreasing_by
  · simp only [List.length_take]; omega
  · simp only [List.length_drop]; omega

/-- Induction over the tree. -/
theorem vtree_ind {V : Type} (g : V → V → V) (P : List V → V → Prop) (h1 : ∀ a, P [a] a)
    (h2 : ∀ l₁ l₂ a b, P l₁ a → P l₂ b → P (l₁ ++ l₂) (g a b)) :
    ∀ (k : ℕ) (l : List V) (_ : l.length = k) (h : l ≠ []), P l (vtree g l h) := by
  intro k
  induction k using Nat.strong_induction_on with
  | _ k ih =>
    intro l hl h
    rw [vtree]
    split
    · obtain ⟨a, rfl⟩ : ∃ a, l = [a] := by
        rw [← List.length_eq_one_iff]
        have := List.length_pos_iff.2 h
        omega
      exact h1 a
    · rename_i hk
      have := h2 _ _ _ _ (ih _ (by simp only [List.length_take]; omega) (l.take (l.length / 2)) rfl
          (take_half_ne hk))
        (ih _ (by simp only [List.length_drop]; omega) (l.drop (l.length / 2)) rfl (drop_half_ne hk))
      rwa [List.take_append_drop] at this

theorem tree_sim {V α : Type} {Q : V → V → α → α → Prop} {g : V → V → V} {f : α → α → M α}
    (hf : ∀ v v' a a' u u' b b', Q v v' a a' → Q u u' b b' →
      M.Sim σ (Q (g v u) (g v' u')) (f a b) (f a' b')) :
    ∀ (k : ℕ) (L : List (V × V × α × α)) (_ : L.length = k) (_ : ∀ t ∈ L, Q t.1 t.2.1 t.2.2.1 t.2.2.2)
      (h₁ : L.map (·.1) ≠ []) (h₂ : L.map (·.2.1) ≠ []) (h₃ : L.map (·.2.2.1) ≠ [])
      (h₄ : L.map (·.2.2.2) ≠ []),
      M.Sim σ (Q (vtree g (L.map (·.1)) h₁) (vtree g (L.map (·.2.1)) h₂)) (tree f (L.map (·.2.2.1)) h₃)
        (tree f (L.map (·.2.2.2)) h₄) := by
  intro k
  induction k using Nat.strong_induction_on with
  | _ k ih =>
    intro L hL hQ h₁ h₂ h₃ h₄
    rw [vtree, vtree, tree, tree]
    by_cases hk : L.length ≤ 1
    · rw [dif_pos (by simpa using hk), dif_pos (by simpa using hk), dif_pos (by simpa using hk),
        dif_pos (by simpa using hk)]
      obtain ⟨a, rfl⟩ : ∃ a, L = [a] := by
        rw [← List.length_eq_one_iff]
        have := List.length_pos_iff.2 h₁
        simp only [List.length_map] at this
        omega
      exact .pure (hQ a (by simp))
    · rw [dif_neg (by simpa using hk), dif_neg (by simpa using hk), dif_neg (by simpa using hk),
        dif_neg (by simpa using hk)]
      have t := take_half_ne hk
      have d := drop_half_ne hk
      simp only [List.length_map, ← List.map_take, ← List.map_drop]
      refine M.Sim.bind (ih _ ?_ (L.take (L.length / 2)) rfl
        (fun t ht => hQ t (List.mem_of_mem_take ht))
        (by simpa using t) (by simpa using t) (by simpa using t) (by simpa using t)) fun a a' ha => ?_
      · simp only [List.length_take]; omega
      refine M.Sim.bind (ih _ ?_ (L.drop (L.length / 2)) rfl
        (fun t ht => hQ t (List.mem_of_mem_drop ht))
        (by simpa using d) (by simpa using d) (by simpa using d) (by simpa using d)) fun b b' hb => ?_
      · simp only [List.length_drop]; omega
      exact hf _ _ _ _ _ _ _ _ ha hb

theorem reduceMaxTree_sim {e : ℕ} (he : 0 < e)
    (L : List (T (.arith (2 ^ e) n) × T (.arith (2 ^ e) n) × Shares (T (.arith (2 ^ e) n)) ×
      Shares (T (.arith (2 ^ e) n)))) (hQ : ∀ t ∈ L, Alike σ t.1 t.2.1 t.2.2.1 t.2.2.2)
    (h : L ≠ []) :
    M.Sim σ (Alike σ (vtree maxV (L.map (·.1)) (by simpa using h))
        (vtree maxV (L.map (·.2.1)) (by simpa using h)))
      (reduceMaxTree (L.map (·.2.2.1)) (by simpa using h))
      (reduceMaxTree (L.map (·.2.2.2)) (by simpa using h)) :=
  tree_sim (Q := fun v v' (a a' : Shares (T (.arith (2 ^ e) n))) => Alike σ v v' a a') (g := maxV)
    (fun _ _ _ _ _ _ _ _ => maxS_sim he) _ L rfl hQ _ _ _ _

/-- `vector_max` on values. -/
def vectorMaxV (n : ℕ) (x : T (.arith w (n + 1))) : T (.arith w 1) :=
  match n with
  | 0 => x
  | n + 1 =>
    vectorMaxV ((n + 1) / 2) (maxV (slice 0 ((n + 1) / 2 + 1) (by omega) x)
      (slice ((n + 2) / 2) ((n + 1) / 2 + 1) (by omega) x))
termination_by n
decreasing_by omega

theorem vectorMax_sim {e : ℕ} (he : 0 < e) (n : ℕ) {c c' : T (.arith (2 ^ e) (n + 1))}
    {x x' : Shares (T (.arith (2 ^ e) (n + 1)))} (hx : Alike σ c c' x x') :
    M.Sim σ (Alike σ (vectorMaxV n c) (vectorMaxV n c')) (vectorMax n x) (vectorMax n x') := by
  induction n using Nat.strong_induction_on with
  | _ n ih =>
    cases n with
    | zero => rw [vectorMaxV, vectorMaxV, vectorMax, vectorMax]; exact .pure hx
    | succ n =>
      rw [vectorMaxV, vectorMaxV, vectorMax, vectorMax]
      refine M.Sim.bind (maxS_sim he (hx.map fun _ _ => rfl) (hx.map fun _ _ => rfl))
        fun z z' hz => ?_
      exact ih _ (by omega) hz

/-- One node of the argmax tree, on values. -/
def argV {m : ℕ} {α : Type} (q : Fin m → Fin n) (l r : T (.arith w n) × (Fin m → α)) :
    T (.arith w n) × (Fin m → α) :=
  (maxV l.1 r.1, pick q (signOf (r.1 - l.1)) r.2 l.2)

theorem argNodeB_sim {e m : ℕ} (he : 0 < e) (q : Fin m → Fin n)
    {v v' u u' : T (.arith (2 ^ e) n) × T (.bool 1 m)}
    {a a' b b' : Shares (T (.arith (2 ^ e) n)) × Body (.bool 1 m)}
    (h : Alike σ v.1 v'.1 a.1 a'.1 ∧ BRel σ v.2 v'.2 a.2 a'.2)
    (k : Alike σ u.1 u'.1 b.1 b'.1 ∧ BRel σ u.2 u'.2 b.2 b'.2) :
    M.Sim σ (fun r r' => Alike σ (argV q v u).1 (argV q v' u').1 r.1 r'.1 ∧
      BRel (s := .bool 1 m) σ (argV q v u).2 (argV q v' u').2 r.2 r'.2)
      (argNodeB q a b) (argNodeB q a' b') :=
  M.Sim.bind (msb_sim he (k.1.sub h.1)) fun _ _ hc =>
    M.Sim.bind (selectA_sim hc (.priv k.1) (.priv h.1)) fun _ _ hm =>
      M.Sim.bind (selectB_sim q hc k.2 h.2) fun _ _ hi => .pure ⟨hm, .priv hi⟩

theorem argNodeA_sim {e : ℕ} (he : 0 < e)
    {v v' u u' : T (.arith (2 ^ e) n) × T (.arith (2 ^ e) n)}
    {a a' b b' : Shares (T (.arith (2 ^ e) n)) × Body (.arith (2 ^ e) n)}
    (h : Alike σ v.1 v'.1 a.1 a'.1 ∧ BRel σ v.2 v'.2 a.2 a'.2)
    (k : Alike σ u.1 u'.1 b.1 b'.1 ∧ BRel σ u.2 u'.2 b.2 b'.2) :
    M.Sim σ (fun r r' => Alike σ (argV id v u).1 (argV id v' u').1 r.1 r'.1 ∧
      BRel (s := .arith (2 ^ e) n) σ (argV id v u).2 (argV id v' u').2 r.2 r'.2)
      (argNodeA a b) (argNodeA a' b') :=
  M.Sim.bind (msb_sim he (k.1.sub h.1)) fun _ _ hc =>
    M.Sim.bind (selectA_sim hc (.priv k.1) (.priv h.1)) fun _ _ hm =>
      M.Sim.bind (selectA_sim hc k.2 h.2) fun _ _ hi => .pure ⟨hm, .priv hi⟩

end Verif.Aby3
