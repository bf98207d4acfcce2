import Verif.Runtime.Memo
import Mathlib.Data.List.Forall2
import Mathlib.Tactic.NormNum

/-!
# C38: when the memoiser is transparent

Specification: `Same` says which arguments the memoiser confuses; `Memo.fresh` is the method without the
memoiser.
-/

namespace Verif.Runtime

/-! ## Which arguments are confused -/

/-- The number a Python value equals. -/
def Py.num? : Py → Option ℚ
  | .bool b => some (if b then 1 else 0)
  | .int i => some i
  | .float q => some q
  | _ => Option.none

/-- The text a value is replaced with. -/
def Py.text? : Py → Option String
  | .str s => some s
  | .raw a t => some (toString a ++ t)
  | _ => Option.none

/-- The members of a collection, in a canonical order. -/
def Py.items? : Py → Option (List Py)
  | .tuple l => some l
  | .list l => some l
  | .dict d => some ((sortKeys d).map fun kv => .tuple [.str kv.1, kv.2])
  | .shape l => some (l.map fun
      | Option.none => .none
      | some n => .int n)
  | _ => Option.none

/-- Two values the memoiser does not tell apart. -/
inductive Same : Py → Py → Prop
  | none : Same .none .none
  | obj (id : ℕ) : Same (.obj id) (.obj id)
  /-- `1`, `1.0` and `True` -/
  | num (x y : Py) (q : ℚ) : x.num? = some q → y.num? = some q → Same x y
  /-- strings, and arrays with the same address and text -/
  | text (x y : Py) (s : String) : x.text? = some s → y.text? = some s → Same x y
  /-- lists, tuples, shapes and dictionaries with the same members -/
  | items (x y : Py) (l l' : List Py) : x.items? = some l → y.items? = some l' →
      List.Forall₂ Same l l' → Same x y

theorem makeList_eq (l : List Py) : makeList l = l.map makeHashable := by
  induction l with
  | nil => rfl
  | cons a l ih => simp [makeList, ih]

theorem makeDict_eq (d : List (String × Py)) :
    makeDict d = d.map fun kv => (kv.1, makeHashable kv.2) := by
  induction d with
  | nil => rfl
  | cons a l ih => simp [makeDict, ih]

theorem orderedInsert_map {α β : Type} (f : α → β) (a : String × α) (l : List (String × α)) :
    ((l.orderedInsert (fun a b => a.1 ≤ b.1) a).map fun kv => (kv.1, f kv.2)) =
      (l.map fun kv => (kv.1, f kv.2)).orderedInsert (fun a b => a.1 ≤ b.1) (a.1, f a.2) := by
  induction l with
  | nil => rfl
  | cons b l ih =>
    by_cases h : a.1 ≤ b.1
    · simp [List.orderedInsert, h]
    · simp [List.orderedInsert, h, ih]

theorem sortKeys_map {α β : Type} (f : α → β) (l : List (String × α)) :
    ((sortKeys l).map fun kv => (kv.1, f kv.2)) = sortKeys (l.map fun kv => (kv.1, f kv.2)) := by
  unfold sortKeys
  induction l with
  | nil => rfl
  | cons a l ih => simp only [List.insertionSort_cons, List.map_cons, orderedInsert_map, ih]

/-- The hash key in terms of the observations above. -/
theorem hash_items (x : Py) (l : List Py) (h : x.items? = some l) :
    makeHashable x = .tuple (l.map makeHashable) := by
  cases x <;> simp only [Py.items?, Option.some.injEq, reduceCtorEq] at h
  case tuple l' => rw [← h, makeHashable, makeList_eq]
  case list l' => rw [← h, makeHashable, makeList_eq]
  case dict d =>
    rw [← h, makeHashable, makeDict_eq, ← sortKeys_map]
    simp [makeHashable, makeList, Function.comp_def]
  case shape s =>
    rw [← h, makeHashable, List.map_map]
    congr 1
    apply List.map_congr_left
    intro a _
    cases a <;> simp [makeHashable]

theorem hash_num (x : Py) (q : ℚ) (h : x.num? = some q) : makeHashable x = .num q := by
  cases x <;> simp_all [Py.num?, makeHashable]

theorem hash_text (x : Py) (s : String) (h : x.text? = some s) : makeHashable x = .str s := by
  cases x <;> simp_all [Py.text?, makeHashable]

/-- Every value is of one kind. -/
theorem kinds (x : Py) : x = .none ∨ (∃ id, x = .obj id) ∨ (∃ q, x.num? = some q) ∨
    (∃ s, x.text? = some s) ∨ ∃ l, x.items? = some l := by
  cases x <;> simp [Py.num?, Py.text?, Py.items?]

theorem same_hash {x y : Py} (h : Same x y) : makeHashable x = makeHashable y := by
  refine Same.rec (motive_1 := fun x y _ => makeHashable x = makeHashable y)
    (motive_2 := fun l l' _ => l.map makeHashable = l'.map makeHashable)
    ?_ ?_ ?_ ?_ ?_ ?_ ?_ h
  · rfl
  · intro id; rfl
  · intro x y q hx hy; rw [hash_num x q hx, hash_num y q hy]
  · intro x y q hx hy; rw [hash_text x q hx, hash_text y q hy]
  · intro x y l l' hx hy _ ih; rw [hash_items x l hx, hash_items y l' hy, ih]
  · rfl
  · intro a b l l' _ _ h1 h2; rw [List.map_cons, List.map_cons, h1, h2]

theorem hash_same_aux (n : ℕ) : ∀ (k : HK), sizeOf k < n → ∀ x y : Py, makeHashable x = k →
    makeHashable y = k → Same x y := by
  induction n with
  | zero => intro k h; omega
  | succ n ih =>
    intro k hk x y hx hy
    rcases kinds x with rfl | ⟨i, rfl⟩ | ⟨q, h⟩ | ⟨s, h⟩ | ⟨l, h⟩ <;>
    rcases kinds y with rfl | ⟨i', rfl⟩ | ⟨q', h'⟩ | ⟨s', h'⟩ | ⟨l', h'⟩
    all_goals
      first
      | rw [hash_num _ _ h] at hx
      | rw [hash_text _ _ h] at hx
      | rw [hash_items _ _ h] at hx
      | rw [makeHashable] at hx
    all_goals
      first
      | rw [hash_num _ _ h'] at hy
      | rw [hash_text _ _ h'] at hy
      | rw [hash_items _ _ h'] at hy
      | rw [makeHashable] at hy
    all_goals subst hx
    all_goals try simp only [reduceCtorEq] at hy
    · exact .none
    · rw [HK.obj.injEq] at hy
      subst hy
      exact .obj _
    · rw [HK.num.injEq] at hy
      subst hy
      exact .num _ _ _ h h'
    · rw [HK.str.injEq] at hy
      subst hy
      exact .text _ _ _ h h'
    · rw [HK.tuple.injEq] at hy
      refine .items _ _ _ _ h h' ?_
      have hlt : ∀ a ∈ l.map makeHashable, sizeOf a < n := by
        intro a ha
        have := List.sizeOf_lt_of_mem ha
        simp only [HK.tuple.sizeOf_spec] at hk
        omega
      clear hk h h'
      induction l generalizing l' with
      | nil =>
        cases l' with
        | nil => exact .nil
        | cons => simp at hy
      | cons a l ihl =>
        cases l' with
        | nil => simp at hy
        | cons b l' =>
          simp only [List.map_cons, List.cons.injEq] at hy
          refine .cons (ih _ (hlt (makeHashable a) (by simp)) a b rfl hy.1) (ihl l' hy.2 ?_)
          intro c hc
          exact hlt c (by simp only [List.map_cons, List.mem_cons]; exact Or.inr hc)

/-- **C38, the keys**: two values get equal keys exactly if they are `Same`. -/
theorem key_eq_iff (x y : Py) : makeHashable x = makeHashable y ↔ Same x y :=
  ⟨fun h => hash_same_aux _ _ (Nat.lt_succ_self _) x y rfl h.symm, same_hash⟩

/-- **C38, the keys of calls**: two calls share a cache entry exactly if they call methods of the same
name with `Same` positional and keyword arguments. On which protocol object they are called does not
matter. -/
theorem call_key_iff (c c' : Call) : c.key = c'.key ↔
    c.name = c'.name ∧ List.Forall₂ Same c.args c'.args ∧ Same (.dict c.kwargs) (.dict c'.kwargs) := by
  have h : Same (.tuple c.args) (.tuple c'.args) ↔ List.Forall₂ Same c.args c'.args := by
    constructor
    · intro h
      cases h with
      | num _ _ _ h => simp [Py.num?] at h
      | text _ _ _ h => simp [Py.text?] at h
      | items _ _ l l' h h' hl =>
        simp only [Py.items?, Option.some.injEq] at h h'
        subst h; subst h'; exact hl
    · intro h
      exact .items _ _ _ _ rfl rfl h
  rw [Call.key, Call.key, Prod.mk.injEq, Prod.mk.injEq, key_eq_iff, key_eq_iff, h]

/-- Values that are never confused: distinct objects, distinct integers, distinct strings. -/
theorem keys_separate (i j : ℕ) (a b : ℤ) (s t : String) :
    (Same (.obj i) (.obj j) ↔ i = j) ∧ (Same (.int a) (.int b) ↔ a = b) ∧
      (Same (.str s) (.str t) ↔ s = t) := by
  simp [← key_eq_iff, makeHashable]

/-- Keyword arguments in another order do not matter. -/
theorem kwargs_order (d d' : List (String × Py)) (hp : d.Perm d')
    (hd : (d.map Prod.fst).Nodup) : Same (.dict d) (.dict d') := by
  have hs : sortKeys d = sortKeys d' := by
    have hp' : (sortKeys d).Perm (sortKeys d') :=
      (List.perm_insertionSort _ d).trans (hp.trans (List.perm_insertionSort _ d').symm)
    refine hp'.eq_of_pairwise ?_ (le := fun a b : String × Py => a.1 ≤ b.1) ?_ ?_
    · intro a b ha hb hab hba
      have hka : a.1 = b.1 := le_antisymm hab hba
      have ha' : a ∈ d := (List.perm_insertionSort _ d).mem_iff.1 ha
      have hb' : b ∈ d := hp.mem_iff.2 ((List.perm_insertionSort _ d').mem_iff.1 hb)
      exact List.inj_on_of_nodup_map hd ha' hb' hka
    · exact List.pairwise_insertionSort _ _
    · exact List.pairwise_insertionSort _ _
  rw [← key_eq_iff, hash_items (.dict d) _ rfl, hash_items (.dict d') _ rfl, hs]

example : Same (.int 1) (.bool true) ∧ Same (.int 1) (.float 1) ∧
    Same (.list [.int 2, .int 3]) (.shape [some 2, some 3]) ∧ ¬ Same (.int 1) (.int 2) ∧
    Same (.dict [("a", .int 0), ("b", .none)]) (.dict [("b", .none), ("a", .bool false)]) := by
  refine ⟨?_, ?_, ?_, ?_, ?_⟩ <;> rw [← key_eq_iff]
  · simp [makeHashable]
  · simp [makeHashable]
  · simp [makeHashable, makeList]
  · simp [makeHashable]
  · simp [makeHashable, makeDict, sortKeys, List.insertionSort, List.orderedInsert]

/-! ## Transparency -/

mutual
/-- The objects a value mentions. -/
def Py.ids : Py → List ℕ
  | .tuple l => idsList l
  | .list l => idsList l
  | .dict d => idsDict d
  | .obj id => [id]
  | _ => []

/-- The objects a list mentions. -/
def idsList : List Py → List ℕ
  | [] => []
  | x :: l => x.ids ++ idsList l

/-- The objects a dictionary mentions. -/
def idsDict : List (String × Py) → List ℕ
  | [] => []
  | (_, x) :: l => x.ids ++ idsDict l
end

/-- The objects a call mentions. -/
def Call.ids (c : Call) : List ℕ := idsList c.args ++ idsDict c.kwargs

variable {C : Type}

/-- A method looks only at the objects it is given. -/
def Framed (ev : Eval C) : Prop :=
  ∀ h h' c, (∀ id ∈ c.ids, h[id]? = h'[id]?) → ev h c = ev h' c

/-- What a method computes does not depend on anything the key leaves out. -/
def RespectsKeys (ev : Eval C) : Prop :=
  ∀ h c c', c.name = c'.name → List.Forall₂ Same c.args c'.args →
    Same (.dict c.kwargs) (.dict c'.kwargs) → ev h c = ev h c'

/-- A history of calls (in or out of debug mode) in which every object is created before it is used and
no object is changed in place. -/
def Pure (ev : Eval C) : Memo C → List (Bool × Call) → Prop
  | _, [] => True
  | m, (d, c) :: l => (∀ id ∈ c.ids, id < m.heap.length) ∧ Pure ev (m.act ev (.call d c)) l

/-- The contents of what a call returned. -/
def contents (r : Memo C × Option ℕ) : Option C := r.2.bind fun id => r.1.heap[id]?

/-- Every cache entry is what its call would compute now. -/
def Memo.Ok (ev : Eval C) (m : Memo C) : Prop :=
  ∀ k id, (k, some id) ∈ m.nodes → ∃ c : Call, c.key = k ∧ (∀ i ∈ c.ids, i < m.heap.length) ∧
    id < m.heap.length ∧ ev m.heap c = m.heap[id]?

theorem get_mem {m : Memo C} {k : String × HK × HK} {id : ℕ} (h : m.get k = some id) :
    (k, some id) ∈ m.nodes := by
  classical
  unfold Memo.get at h
  split at h
  · rename_i e he
    have h1 := List.mem_of_find?_eq_some he
    have h2 := List.find?_some he
    simp only [decide_eq_true_eq] at h2
    rw [← h, ← h2]
    exact h1
  · simp at h

theorem fresh_heap (ev : Eval C) (m : Memo C) (c : Call) :
    m.heap <+: (m.fresh ev c).1.heap ∧ (m.fresh ev c).1.nodes = m.nodes ∧
      contents (m.fresh ev c) = ev m.heap c ∧
      (∀ id, (m.fresh ev c).2 = some id → id < (m.fresh ev c).1.heap.length) := by
  unfold Memo.fresh
  cases h : ev m.heap c with
  | none => simp [contents]
  | some v => simp [contents]

theorem prefix_get {h h' : List C} (hp : h <+: h') {i : ℕ} (hi : i < h.length) : h'[i]? = h[i]? := by
  obtain ⟨t, rfl⟩ := hp
  rw [List.getElem?_append_left hi]

theorem ok_prefix {ev : Eval C} (hf : Framed ev) {m m' : Memo C} (hp : m.heap <+: m'.heap)
    (hn : m'.nodes = m.nodes) (ho : m.Ok ev) : m'.Ok ev := by
  intro k id h
  rw [hn] at h
  obtain ⟨c, hc, hi, hlt, he⟩ := ho k id h
  refine ⟨c, hc, fun i h => lt_of_lt_of_le (hi i h) hp.length_le,
    lt_of_lt_of_le hlt hp.length_le, ?_⟩
  rw [prefix_get hp hlt, ← he]
  exact hf _ _ _ fun i h => prefix_get hp (hi i h)

theorem call_ok {ev : Eval C} (hf : Framed ev) (hk : RespectsKeys ev) {m : Memo C} (ho : m.Ok ev)
    (d : Bool) (c : Call) (hc : ∀ id ∈ c.ids, id < m.heap.length) :
    (m.call d ev c).1.Ok ev ∧ m.heap <+: (m.call d ev c).1.heap ∧
      contents (m.call d ev c) = ev m.heap c := by
  obtain ⟨h1, h2, h3, h4⟩ := fresh_heap ev m c
  unfold Memo.call
  cases d with
  | true => exact ⟨ok_prefix hf h1 h2 ho, h1, h3⟩
  | false =>
    simp only [Bool.false_eq_true, if_false]
    cases hg : m.get c.key with
    | some id =>
      refine ⟨ho, List.prefix_rfl, ?_⟩
      obtain ⟨c0, hc0, _, _, he⟩ := ho _ _ (get_mem hg)
      obtain ⟨e1, e2, e3⟩ := (call_key_iff _ _).1 hc0
      rw [hk m.heap c0 c e1 e2 e3] at he
      rw [he]
      rfl
    | none =>
      refine ⟨?_, h1, h3⟩
      intro k id h
      simp only [List.mem_cons, Prod.mk.injEq] at h
      rcases h with ⟨hk', hid⟩ | h
      · refine ⟨c, hk'.symm, fun i hi => lt_of_lt_of_le (hc i hi) h1.length_le, h4 id hid.symm, ?_⟩
        have : contents (m.fresh ev c) = (m.fresh ev c).1.heap[id]? := by
          rw [contents, ← hid]; rfl
        rw [← this, h3]
        exact hf _ _ _ fun i hi => prefix_get h1 (hc i hi)
      · exact ok_prefix hf h1 h2 ho k id h

/-- **C38 (partial)**: in every history of calls, with debug mode switched on and off at will, every call
returns an object with the contents that running the method itself would give, and no existing object
changes; provided methods look only at their arguments, do not depend on what the key leaves out
(`call_key_iff`: the protocol object, `1` against `True`, list against tuple), and no object is changed in
place. Each of the provisos is needed: `memo_confuses_false`, `protocols_confused_false`,
`zeros_after_to_private_false`. -/
theorem memo_transparent_partial (ev : Eval C) (hf : Framed ev) (hk : RespectsKeys ev) (objs : List C)
    (hist : List (Bool × Call)) (hp : Pure ev (Memo.empty objs) hist) (d : Bool) (c : Call)
    (hc : ∀ id ∈ c.ids,
      id < ((Memo.empty objs).run ev (hist.map fun x => .call x.1 x.2)).heap.length) :
    let m := (Memo.empty objs).run ev (hist.map fun x => .call x.1 x.2)
    contents (m.call d ev c) = contents (m.fresh ev c) ∧ objs <+: m.heap ∧
      m.heap <+: (m.call d ev c).1.heap := by
  have key : ∀ (l : List (Bool × Call)) (m : Memo C), m.Ok ev → Pure ev m l →
      (m.run ev (l.map fun x => .call x.1 x.2)).Ok ev ∧
        m.heap <+: (m.run ev (l.map fun x => .call x.1 x.2)).heap := by
    intro l
    induction l with
    | nil => intro m ho _; exact ⟨ho, List.prefix_rfl⟩
    | cons a l ih =>
      intro m ho hp
      obtain ⟨d, c⟩ := a
      obtain ⟨o1, o2, _⟩ := call_ok hf hk ho d c hp.1
      obtain ⟨r1, r2⟩ := ih _ o1 hp.2
      exact ⟨r1, o2.trans r2⟩
  obtain ⟨ho, hpre⟩ := key hist (Memo.empty objs) (by intro k id h; simp [Memo.empty] at h) hp
  obtain ⟨_, h2, h3⟩ := call_ok hf hk ho d c hc
  exact ⟨h3.trans (fresh_heap _ _ _).2.2.1.symm, hpre, h2⟩

/-- Methods that return `None` (`assign`) are run every time, so their effects are not lost. -/
theorem none_not_cached (ev : Eval C) (m : Memo C) (c : Call) (h : m.get c.key = none)
    (hn : ev m.heap c = none) : ((m.call false ev c).1).get c.key = none := by
  classical
  unfold Memo.call
  simp only [Bool.false_eq_true, if_false, h]
  unfold Memo.get Memo.fresh
  simp [hn]

/-- A method that adds up the objects it is given. -/
def sumEval : Eval ℕ := fun h c =>
  if c.name = "add" then
    match c.args with
    | [.obj a, .obj b] =>
      match h[a]?, h[b]? with
      | some x, some y => some (x + y)
      | _, _ => none
    | _ => none
  else none

/-- The hypotheses of `memo_transparent_partial` are met by a method that reads its arguments. -/
theorem sumEval_ok : Framed sumEval ∧ RespectsKeys sumEval := by
  constructor
  · intro h h' c hc
    unfold sumEval
    split
    · split
      · rename_i a b e
        rw [hc a (by simp [Call.ids, e, idsList, Py.ids]), hc b (by simp [Call.ids, e, idsList, Py.ids])]
      · rfl
    · rfl
  · intro h c c' hn ha _
    have obj : ∀ {a : ℕ} {y : Py}, Same (.obj a) y → y = .obj a := by
      intro a y hs
      rw [← key_eq_iff] at hs
      cases y <;> simp_all [makeHashable]
    have obj' : ∀ {a : ℕ} {y : Py}, Same y (.obj a) → y = .obj a := by
      intro a y hs
      rw [← key_eq_iff] at hs
      cases y <;> simp_all [makeHashable]
    unfold sumEval
    rw [← hn]
    split
    · split
      · rename_i a b e
        rw [e] at ha
        obtain ⟨y1, l1, s1, r1, e1⟩ := List.forall₂_cons_left_iff.1 ha
        obtain ⟨y2, l2, s2, r2, e2⟩ := List.forall₂_cons_left_iff.1 r1
        rw [List.forall₂_nil_left_iff.1 r2] at e2
        rw [e1, e2, obj s1, obj s2]
      · rename_i hne
        split
        · rename_i a b e
          rw [e] at ha
          obtain ⟨y1, l1, s1, r1, e1⟩ := List.forall₂_cons_right_iff.1 ha
          obtain ⟨y2, l2, s2, r2, e2⟩ := List.forall₂_cons_right_iff.1 r1
          rw [List.forall₂_nil_right_iff.1 r2] at e2
          exact absurd (by rw [e1, e2, obj' s1, obj' s2]) (hne a b)
        · rfl
    · rfl

example : Pure sumEval (Memo.empty [3, 4])
    [(false, ⟨0, "add", [.obj 0, .obj 1], []⟩), (true, ⟨0, "add", [.obj 0, .obj 1], []⟩)] := by
  refine ⟨?_, ?_, trivial⟩
  · simp [Call.ids, idsList, idsDict, Py.ids, Memo.empty]
  · have := (call_ok sumEval_ok.1 sumEval_ok.2 (m := Memo.empty [3, 4])
      (by intro k id h; simp [Memo.empty] at h) false ⟨0, "add", [.obj 0, .obj 1], []⟩
      (by simp [Call.ids, idsList, idsDict, Py.ids, Memo.empty])).2.1.length_le
    simp only [Memo.empty, List.length_cons, List.length_nil] at this
    intro id hid
    simp only [Call.ids, idsList, idsDict, Py.ids, List.append_nil, List.cons_append,
      List.nil_append, List.mem_cons, List.not_mem_nil, or_false] at hid
    simp only [Memo.act, Memo.empty] at *
    omega

/-! ## What goes wrong without the provisos -/

/-- **C38 is false** for a method that depends on what the key leaves out: the second of two calls with
equal keys returns the first one's result. -/
theorem memo_confuses_false (ev : Eval C) (objs : List C) (c c' : Call) (v v' : C)
    (hkey : c.key = c'.key) (hv : ev objs c = some v) (hv' : ev (objs ++ [v]) c' = some v')
    (hne : v ≠ v') :
    let m := ((Memo.empty objs).call false ev c).1
    contents (m.call false ev c') = some v ∧ contents (m.call false ev c') ≠ contents (m.fresh ev c') := by
  classical
  have hg : (Memo.empty objs).get c.key = none := by simp [Memo.get, Memo.empty]
  have hm : ((Memo.empty objs).call false ev c).1 =
      ⟨objs ++ [v], [(c.key, some objs.length)]⟩ := by
    unfold Memo.call
    simp only [Bool.false_eq_true, if_false, hg]
    simp [Memo.fresh, Memo.empty, hv]
  have hfresh := (fresh_heap ev ((Memo.empty objs).call false ev c).1 c').2.2.1
  have h1 : contents (((Memo.empty objs).call false ev c).1.call false ev c') = some v := by
    rw [hm, Memo.call]
    simp only [Bool.false_eq_true, if_false]
    have : Memo.get (⟨objs ++ [v], [(c.key, some objs.length)]⟩ : Memo C) c'.key =
        some objs.length := by
      simp [Memo.get, hkey]
    rw [this]
    simp [contents]
  refine ⟨h1, ?_⟩
  rw [h1, hfresh, hm, hv']
  simp [hne]

/-- **C38 is false** across protocol objects: after one protocol object was asked for zeros, another one
(with other servers) returns the first one's tensor. `C` records which protocol made the tensor. -/
theorem protocols_confused_false (p q : ℕ) (hpq : p ≠ q) (shape : List (Option ℕ)) (s f : ℕ) :
    let ev : Eval ℕ := fun _ c => some c.prot
    let m := ((Memo.empty []).call false ev (zerosCall p shape true s f)).1
    contents (m.call false ev (zerosCall q shape true s f)) = some p := by
  intro ev m
  exact (memo_confuses_false ev [] (zerosCall p shape true s f) (zerosCall q shape true s f) p q rfl rfl
    rfl hpq).1

/-- The hand-written caches: the second call on the same operand returns the first result, whatever
else it is asked for. -/
theorem handMemo_second {α X R : Type} [DecidableEq X] (f : X → α → R) (x : X) (a b : α) :
    (handMemo f (handMemo f [] x a).1 x b).2 = f x a := by
  simp [handMemo]

/-- Permute the axes of a two by two matrix: `None` reverses them, as does `[1, 0]`. -/
def permute (x : (ℤ × ℤ) × (ℤ × ℤ)) : Option (List ℕ) → (ℤ × ℤ) × (ℤ × ℤ)
  | some [0, 1] => x
  | _ => ((x.1.1, x.2.1), (x.1.2, x.2.2))

/-- **C38 is false for Pond's `transpose`**: after `transpose(x)`, `transpose(x, perm=[0, 1])` returns the
transposed matrix instead of `x`; the same key omits the slice (`strided_slice`) and the axis (`stack`). -/
theorem transpose_perm_false :
    ∃ x, (handMemo permute (handMemo permute [] x none).1 x (some [0, 1])).2 ≠
      permute x (some [0, 1]) :=
  ⟨((1, 2), (3, 4)), by decide⟩

/-- `stack([x, y], axis)` for two vectors of length two. -/
def stackTwo (xs : (ℤ × ℤ) × (ℤ × ℤ)) (axis : ℕ) : (ℤ × ℤ) × (ℤ × ℤ) :=
  if axis = 0 then xs else ((xs.1.1, xs.2.1), (xs.1.2, xs.2.2))

/-- **C38 is false for Pond's `stack`**: the axis of the first call is used for the second. -/
theorem stack_axis_false :
    ∃ xs, (handMemo stackTwo (handMemo stackTwo [] xs 0).1 xs 1).2 ≠ stackTwo xs 1 :=
  ⟨((1, 2), (3, 4)), by decide⟩

/-- **C38 is false for Pond's `strided_slice`**: the second slice of a tensor is the first one. -/
theorem strided_slice_false :
    ∃ x : List ℤ, let slice := fun (x : List ℤ) (be : ℕ × ℕ) => (x.take be.2).drop be.1
      (handMemo slice (handMemo slice [] x (0, 1)).1 x (1, 2)).2 ≠ slice x (1, 2) :=
  ⟨[1, 2], by decide⟩

/-! ### In-place change -/

section toPrivate
variable {G : Type} [AddCommGroup G]

/-- What a replicated tensor means (`_reconstruct`, aby3.py:899-936, for server 0): its two components
and the one of server 2 (`shares[0][0] + shares[0][1] + shares[2][0]`). -/
def Repl.value (x : Repl G) : G := x.1.1 + x.1.2 + x.2.2.1

theorem zeros_hit (m : Memo (Repl G)) (p : ℕ) (shape : List (Option ℕ)) (b : Bool) (s f id : ℕ)
    (h : m.get (zerosCall p shape b s f).key = some id) (q : ℕ) :
    m.call false zerosEval (zerosCall q shape b s f) = (m, some id) := by
  have hk : (zerosCall q shape b s f).key = (zerosCall p shape b s f).key := rfl
  simp [Memo.call, hk, h]

theorem zeros_miss (m : Memo (Repl G)) (p : ℕ) (shape : List (Option ℕ)) (b : Bool) (s f : ℕ)
    (h : m.get (zerosCall p shape b s f).key = none) :
    m.call false zerosEval (zerosCall p shape b s f) =
      (⟨m.heap ++ [((0, 0), (0, 0), (0, 0))],
        ((zerosCall p shape b s f).key, some m.heap.length) :: m.nodes⟩, some m.heap.length) := by
  rw [Memo.call, if_neg (by decide), h]
  simp [Memo.fresh, zerosEval, zerosCall]

/-- **C38 is false for `zeros`**: converting any public value to a private one changes what
`zeros` of that shape returns from then on. -/
theorem zeros_after_to_private_false (p : ℕ) (shape : List (Option ℕ)) (b : Bool) (s f : ℕ) (v : G) :
    let m := (toPrivate (Memo.empty []) p shape b s f v).1
    ∃ z, contents (m.call false zerosEval (zerosCall p shape b s f)) = some z ∧ z.value = v := by
  classical
  have hg : (Memo.empty [] : Memo (Repl G)).get (zerosCall p shape b s f).key = none := by
    simp [Memo.get, Memo.empty]
  refine ⟨((v, 0), (0, 0), (0, v)), ?_, by simp [Repl.value]⟩
  unfold toPrivate
  rw [zeros_miss _ _ _ _ _ _ hg]
  simp only [Memo.empty, List.nil_append, List.length_nil, List.getElem?_cons_zero, List.set_cons_zero]
  rw [zeros_hit _ p shape b s f 0 (by simp [Memo.get])]
  simp [contents]

/-- **C38 is false for `to_private`**: two public values of one shape become the same private object,
which holds the second value. -/
theorem to_private_twice_false (p : ℕ) (shape : List (Option ℕ)) (b : Bool) (s f : ℕ) (v w : G) :
    let r := toPrivate (Memo.empty []) p shape b s f v
    let r' := toPrivate r.1 p shape b s f w
    r.2 = r'.2 ∧ ∃ z, r.2.bind (fun id => r'.1.heap[id]?) = some z ∧ z.value = w := by
  classical
  have hg : (Memo.empty [] : Memo (Repl G)).get (zerosCall p shape b s f).key = none := by
    simp [Memo.get, Memo.empty]
  have h1 : toPrivate (Memo.empty []) p shape b s f v =
      (⟨[((v, 0), (0, 0), (0, v))], [((zerosCall p shape b s f).key, some 0)]⟩, some 0) := by
    unfold toPrivate
    rw [zeros_miss _ _ _ _ _ _ hg]
    simp [Memo.empty]
  have h2 : toPrivate (⟨[((v, 0), (0, 0), (0, v))], [((zerosCall p shape b s f).key, some 0)]⟩ :
      Memo (Repl G)) p shape b s f w =
      (⟨[((w, 0), (0, 0), (0, w))], [((zerosCall p shape b s f).key, some 0)]⟩, some 0) := by
    unfold toPrivate
    rw [zeros_hit _ p shape b s f 0 (by simp [Memo.get])]
    simp
  simp only [h1, h2]
  exact ⟨trivial, _, rfl, by simp [Repl.value]⟩

end toPrivate

end Verif.Runtime
