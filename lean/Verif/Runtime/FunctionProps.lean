import Verif.Runtime.FunctionLemmas

/-!
# C86: a compiled function returns what the plain function returns

For all functions, all arguments nested to any depth, every protocol. `Same` and the other words are in
`FunctionSpec.lean`.
-/

namespace Verif.Runtime.Function

variable {P V O : Type} {R : O → O → Prop} {G : Graph O} {dbl : V → V}

/-- **C86 (partial)**: let the arguments be portable, and the results returnable: lists and tuples, nested
to any depth, of tensors of the current protocol with boolean or native factories (ABY3: also int128).
Then the compiled function raises what the plain function raises, and otherwise returns the same: the same
components with the same factories, flags and kinds of sharing, nested alike. In particular all sharings
open to the same values. Missing: tuples are returned as lists (`tuples_false`), other factories
(`bone_round_trip`, `modulus_false`, `int100_false`, `pond_int128_false`), dictionaries of tensors
(`dict_false`), variables (`only_fresh`, `variable_false`), tensors of another protocol
(`other_protocol_false`). -/
theorem compiled_same_partial (hG : G.Faithful R) (cur : Current P) (debug : Bool) (f : Fn P V O)
    (hf : Respects R f) (args : List (Val P V O)) (kwargs : List (String × Val P V O))
    (ha : PortableAll cur.family args) (hk : PortableItems cur.family kwargs)
    (hR : ∀ a, f args kwargs = .ok a → Returnable G cur.family a) :
    SameResult R (f args kwargs) (function G dbl cur debug f args kwargs) := by
  unfold function
  cases debug with
  | true =>
    rw [if_pos rfl]
    exact hf _ _ _ _ (sameAll_refl hG.refl args) (sameItems_refl hG.refl kwargs)
  | false =>
    rw [if_neg (by decide)]
    obtain ⟨us, ws, h1, h2, h3⟩ := args_round (dbl := dbl) hG.arg cur args ha
    obtain ⟨ks, js, h4, h5, h6⟩ := kwargs_round (dbl := dbl) hG.arg cur kwargs hk
    have hs := hf args ws kwargs js h3 h6
    rw [h1, ok_bind, h4, ok_bind]
    unfold graphFunction
    rw [h2, ok_bind, h5, ok_bind]
    cases hr : f args kwargs with
    | error e =>
      rw [hr] at hs
      cases hw : f ws js with
      | error e' => rw [hw] at hs; exact hs
      | ok r' => rw [hw] at hs; exact hs.elim
    | ok r =>
      rw [hr] at hs
      cases hw : f ws js with
      | error e' => rw [hw] at hs; exact hs.elim
      | ok r' =>
        rw [hw] at hs
        have hret := returnable_same hG.keeps r r' hs (hR r hr)
        obtain ⟨u, w, x, g1, g2, g3, g4⟩ := result_round (dbl := dbl) hG.res cur r' hret
        rw [ok_bind, g1, ok_bind, g2, ok_bind, g3]
        exact same_trans hG.trans r r' x hs g4

/-- In debug mode nothing is compiled. -/
theorem debug_same (cur : Current P) (f : Fn P V O) : function G dbl cur true f = f := rfl

/-- **C86, what becomes of a tensor**, for every tensor whose components have one factory: in a protocol of
another family it is refused; int100 is refused; native and boolean tensors, and int128 in ABY3, are
unchanged; an explicit modulus is lost; int128 in Pond is replaced by doubles. -/
theorem bone_round_trip (fam : Family) (f : Fac) (b : Body V) (hu : b.Uniform f) :
    (f = .int100 → (bone dbl b >>= fromBone fam) = .error .attribute) ∧
    (f ≠ .int100 → b.family ≠ fam → (bone dbl b >>= fromBone fam) = .error .type) ∧
    (b.family = fam → f.Kept fam → (bone dbl b >>= fromBone fam) = .ok b) ∧
    (∀ w m, f = .native w (some m) → b.family = fam →
      (bone dbl b >>= fromBone fam) = .ok (b.map fun x => ⟨.native w none, x.val⟩)) ∧
    (f = .int128 → b.family = .pond → fam = .pond →
      (bone dbl b >>= fromBone fam) = .ok (b.map fun x => ⟨.int128, dbl x.val⟩)) := by
  refine ⟨?_, ?_, ?_, ?_, ?_⟩
  · rintro rfl
    cases b <;> simp only [Body.Uniform] at hu <;> simp [bone, hu, Fac.nbits, err_bind]
  · intro hf hfam
    obtain ⟨n, g, hn, hg⟩ : ∃ n g, f.nbits = .ok n ∧ factories n = .ok g := by
      cases f with
      | bool => exact ⟨_, _, rfl, rfl⟩
      | native w m => cases w <;> exact ⟨_, _, rfl, rfl⟩
      | int100 => exact (hf rfl).elim
      | int128 => exact ⟨_, _, rfl, rfl⟩
    cases b <;> cases fam <;> simp only [Body.family, ne_eq, not_true_eq_false, reduceCtorEq] at hfam <;>
      simp only [Body.Uniform] at hu <;> simp [bone, hu, hn, ok_bind, fromBone, hg, Pure.pure, Except.pure]
  · intro hfam hk
    obtain ⟨c, h1, h2⟩ := body_round (dbl := dbl) (fam := fam) ⟨hfam, f, hu, hk⟩
    rw [h1, ok_bind, h2]
  · rintro w m rfl rfl
    obtain ⟨n, hn, hg⟩ : ∃ n, (Fac.native w (some m)).nbits = .ok n ∧ factories n = .ok (.native w none) := by
      cases w <;> exact ⟨_, rfl, rfl⟩
    cases b <;> simp only [Body.Uniform] at hu <;>
      simp [bone, hu, hn, ok_bind, fromBone, hg, Pure.pure, Except.pure, Body.family, Body.map, toNative]
  · rintro rfl hb rfl
    have hn : Fac.int128.nbits = .ok 128 := rfl
    have hg : factories 128 = .ok .int128 := rfl
    cases b <;> simp only [Body.family, reduceCtorEq] at hb <;> simp only [Body.Uniform] at hu <;>
      simp [bone, hu, hn, ok_bind, fromBone, hg, Pure.pure, Except.pure, Body.map, toNative]

mutual
/-- No variables, and no tensors of other protocols, outside of dictionaries. -/
def Fresh (cur : Current P) : Val P V O → Prop
  | .tensor t => t.var = false ∧ t.prot = cur.prot
  | .bone _ => False
  | .list l => FreshAll cur l
  | .tuple _ => False
  | .dict _ => True
  | .other _ => True
/-- all elements -/
def FreshAll (cur : Current P) : List (Val P V O) → Prop
  | [] => True
  | v :: l => Fresh cur v ∧ FreshAll cur l
end

/-- Keyword arguments. -/
def FreshItems (cur : Current P) : List (String × Val P V O) → Prop
  | [] => True
  | (_, v) :: l => Fresh cur v ∧ FreshItems cur l

/-- A step of a computation that returns. -/
theorem bind_inv {α β : Type} {x : Except Err α} {f : α → Except Err β} {b : β} (h : (x >>= f) = .ok b) :
    ∃ a, x = .ok a ∧ f a = .ok b := by
  cases x with
  | error e => cases h
  | ok a => exact ⟨a, rfl, h⟩

mutual
theorem fresh_of (cur : Current P) : ∀ (v u w : Val P V O), unwrap dbl v = .ok u →
    wrap cur (G.enter u) = .ok w → Fresh cur w
  | .tensor t, u, w, hu, hw => by
    simp only [unwrap] at hu
    obtain ⟨c, _, hc⟩ := bind_inv hu
    cases hc
    simp only [Graph.enter, wrap] at hw
    obtain ⟨d, _, hd⟩ := bind_inv hw
    cases hd
    simp only [Fresh, and_self]
  | .bone b, u, w, hu, hw => by
    simp only [unwrap] at hu
    cases hu
    simp only [Graph.enter, wrap] at hw
    obtain ⟨d, _, hd⟩ := bind_inv hw
    cases hd
    simp only [Fresh, and_self]
  | .list l, u, w, hu, hw => by
    simp only [unwrap] at hu
    obtain ⟨c, hc, hc'⟩ := bind_inv hu
    cases hc'
    simp only [Graph.enter, wrap] at hw
    obtain ⟨d, hd, hd'⟩ := bind_inv hw
    cases hd'
    simp only [Fresh]
    exact freshAll_of cur l c d hc hd
  | .tuple l, u, w, hu, hw => by
    simp only [unwrap] at hu
    obtain ⟨c, hc, hc'⟩ := bind_inv hu
    cases hc'
    simp only [Graph.enter, wrap] at hw
    obtain ⟨d, hd, hd'⟩ := bind_inv hw
    cases hd'
    simp only [Fresh]
    exact freshAll_of cur l c d hc hd
  | .dict l, u, w, hu, hw => by
    simp only [unwrap] at hu
    cases hu
    simp only [Graph.enter, wrap] at hw
    cases hw
    simp only [Fresh]
  | .other o, u, w, hu, hw => by
    simp only [unwrap] at hu
    cases hu
    simp only [Graph.enter, wrap] at hw
    cases hw
    simp only [Fresh]
theorem freshAll_of (cur : Current P) : ∀ (v u w : List (Val P V O)), unwrapAll dbl v = .ok u →
    wrapAll cur (G.enterAll u) = .ok w → FreshAll cur w
  | [], u, w, hu, hw => by
    simp only [unwrapAll] at hu
    cases hu
    simp only [Graph.enterAll, wrapAll] at hw
    cases hw
    simp only [FreshAll]
  | x :: v, u, w, hu, hw => by
    simp only [unwrapAll] at hu
    obtain ⟨c, hc, hu⟩ := bind_inv hu
    obtain ⟨d, hd, hu⟩ := bind_inv hu
    cases hu
    simp only [Graph.enterAll, wrapAll] at hw
    obtain ⟨c', hc', hw⟩ := bind_inv hw
    obtain ⟨d', hd', hw⟩ := bind_inv hw
    cases hw
    simp only [FreshAll]
    exact ⟨fresh_of cur x c c' hc hc', freshAll_of cur v d d' hd hd'⟩
end

theorem freshItems_of (cur : Current P) : ∀ (v u w : List (String × Val P V O)),
    onItems (unwrap dbl) v = .ok u → onItems (wrap cur) (G.enterItems u) = .ok w → FreshItems cur w
  | [], u, w, hu, hw => by
    simp only [onItems] at hu
    cases hu
    simp only [Graph.enterItems, onItems] at hw
    cases hw
    simp only [FreshItems]
  | (k, x) :: v, u, w, hu, hw => by
    simp only [onItems] at hu
    obtain ⟨c, hc, hu⟩ := bind_inv hu
    obtain ⟨d, hd, hu⟩ := bind_inv hu
    cases hu
    simp only [Graph.enterItems, onItems] at hw
    obtain ⟨c', hc', hw⟩ := bind_inv hw
    obtain ⟨d', hd', hw⟩ := bind_inv hw
    cases hw
    simp only [FreshItems]
    exact ⟨fresh_of (dbl := dbl) (G := G) cur x c c' hc hc', freshItems_of cur v d d' hd hd'⟩

/-- **C86, what a compiled function gets to see**: never a variable, never a tuple, never a tensor of
another protocol object, whatever the arguments are (except inside of dictionaries): two functions that
differ on such arguments only are the same when compiled. -/
theorem only_fresh (cur : Current P) (f g : Fn P V O)
    (h : ∀ args kwargs, FreshAll cur args → FreshItems cur kwargs → f args kwargs = g args kwargs) :
    function G dbl cur false f = function G dbl cur false g := by
  funext args kwargs
  unfold function
  rw [if_neg (by decide), if_neg (by decide)]
  cases h1 : unwrapAll dbl args with
  | error e => rfl
  | ok us =>
    rw [ok_bind, ok_bind]
    cases h2 : onItems (unwrap dbl) kwargs with
    | error e => rfl
    | ok ks =>
      rw [ok_bind, ok_bind]
      unfold graphFunction
      cases h3 : wrapAll cur (G.enterAll us) with
      | error e => rfl
      | ok ws =>
        rw [ok_bind, ok_bind]
        cases h4 : onItems (wrap cur) (G.enterItems ks) with
        | error e => rfl
        | ok js =>
          rw [ok_bind, ok_bind, h ws js (freshAll_of cur args us ws h1 h3)
            (freshItems_of cur kwargs ks js h2 h4)]

/-! ### Where compiled functions differ -/

/-- Values that are not tensors: numbers here, which TensorFlow keeps. -/
def numbers : Graph ℕ := ⟨id, some⟩

theorem numbers_faithful : numbers.Faithful (· = ·) :=
  ⟨fun _ => rfl, fun _ _ _ h1 h2 => h1.trans h2, fun _ => rfl, fun _ _ h => Option.some.inj h,
    fun _ _ _ _ => rfl⟩

/-- A function that returns its first argument. -/
def first : Fn ℕ ℕ ℕ
  | v :: _, _ => .ok v
  | [], _ => .error .raised

/-- Pond and ABY3. -/
def pond : Current ℕ := ⟨1, .pond⟩
def aby3 : Current ℕ := ⟨2, .aby3⟩

/-- **C86 does not hold for tuples**: a tuple comes back as a list, which compares unequal, cannot be a key
of a dictionary and has no named fields. -/
theorem tuples_false (dbl : ℕ → ℕ) : first [.tuple [.other 1, .other 2]] [] = .ok (.tuple [.other 1, .other 2]) ∧
    function numbers dbl pond false first [.tuple [.other 1, .other 2]] [] =
      .ok (.list [.other 1, .other 2]) := ⟨rfl, rfl⟩

/-- **C86 does not hold for tensors modulo a prime** (SecureNN's bits): the modulus is lost, later
operations compute modulo 2^64. -/
theorem modulus_false (dbl : ℕ → ℕ) : function numbers dbl pond false first
    [.tensor ⟨1, false, .pondPrivate ⟨.native .w64 (some 67), 60⟩ ⟨.native .w64 (some 67), 8⟩ false⟩] [] =
    .ok (.tensor ⟨1, false, .pondPrivate ⟨.native .w64 none, 60⟩ ⟨.native .w64 none, 8⟩ false⟩) := rfl

/-- **C86 does not hold for int100**: no function that takes such a tensor can be called. -/
theorem int100_false (G : Graph O) (dbl : V → V) (cur : Current P) (f : Fn P V O) (prot : P) (s0 s1 : V)
    (kwargs : List (String × Val P V O)) :
    function G dbl cur false f [.tensor ⟨prot, false, .pondPrivate ⟨.int100, s0⟩ ⟨.int100, s1⟩ true⟩] kwargs =
    .error .attribute := rfl

/-- **C86 does not hold for int128 in Pond**: the shares are converted to doubles, once going
in and once more coming out (where TensorFlow refuses them, since the conversion takes pairs of words: `dbl`
stands for both). -/
theorem pond_int128_false (dbl : ℕ → ℕ) : function numbers dbl pond false first
    [.tensor ⟨1, false, .pondPrivate ⟨.int128, 5⟩ ⟨.int128, 6⟩ false⟩] [] =
    .ok (.tensor ⟨1, false, .pondPrivate ⟨.int128, dbl (dbl 5)⟩ ⟨.int128, dbl (dbl 6)⟩ false⟩) := rfl

/-- A tensor of ABY3. -/
def shared : Tensor ℕ ℕ :=
  ⟨2, true, .aby3Private ⟨.native .w64 none, 1⟩ ⟨.native .w64 none, 2⟩ ⟨.native .w64 none, 2⟩
    ⟨.native .w64 none, 3⟩ ⟨.native .w64 none, 3⟩ ⟨.native .w64 none, 1⟩ true .arithmetic⟩

/-- A function that returns a dictionary. -/
def labelled : Fn ℕ ℕ ℕ
  | v :: _, _ => .ok (.dict [("y", v)])
  | [], _ => .error .raised

/-- **C86 does not hold for dictionaries of tensors**: they cannot be returned. -/
theorem dict_false (dbl : ℕ → ℕ) : labelled [.tensor shared] [] = .ok (.dict [("y", .tensor shared)]) ∧
    function numbers dbl aby3 false labelled [.tensor shared] [] = .error .type := ⟨rfl, rfl⟩

/-- A function that reads a variable: `read_value` of other tensors is an AttributeError. -/
def reads : Fn ℕ ℕ ℕ
  | .tensor t :: _, _ => if t.var then .ok (.tensor { t with var := false }) else .error .attribute
  | _, _ => .error .raised

/-- **C86 does not hold for functions that read or assign a variable they are given**: it is a plain tensor
inside. -/
theorem variable_false (dbl : ℕ → ℕ) :
    reads [.tensor shared] [] = .ok (.tensor { shared with var := false }) ∧
    function numbers dbl aby3 false reads [.tensor shared] [] = .error .attribute := ⟨rfl, rfl⟩

/-- **C86 does not hold for tensors of a protocol that is not the current one.** -/
theorem other_protocol_false (dbl : ℕ → ℕ) : first [.tensor shared] [] = .ok (.tensor shared) ∧
    function numbers dbl pond false first [.tensor shared] [] = .error .type := ⟨rfl, rfl⟩

/-! ### The hypotheses can be met -/

/-- A function of a list and a keyword argument: a tuple of the list, the keyword argument and a number. -/
def mixed : Fn ℕ ℕ ℕ
  | [v], [(_, w)] => .ok (.tuple [v, w, .other 7])
  | _, _ => .error .raised

theorem mixed_respects : Respects (· = ·) mixed := by
  intro args args' kwargs kwargs' h1 h2
  match args, args', kwargs, kwargs', h1, h2 with
  | [], [], k, k', _, _ => rfl
  | [v], [v'], [], [], _, _ => rfl
  | [v], [v'], [(a, w)], [(a', w')], h1, h2 =>
    simp only [SameAll, and_true] at h1
    simp only [SameItems, and_true] at h2
    simp only [mixed, SameResult, Same, SameAll, and_true]
    exact ⟨h1, h2.2⟩
  | [v], [v'], _ :: _ :: _, _ :: _ :: _, _, _ => rfl
  | [v], [v'], [], _ :: _, _, h2 => simp only [SameItems] at h2
  | [v], [v'], _ :: _, [], _, h2 => simp only [SameItems] at h2
  | [v], [v'], [_], _ :: _ :: _, _, h2 => simp only [SameItems, and_false] at h2
  | [v], [v'], _ :: _ :: _, [_], _, h2 => simp only [SameItems, and_false] at h2
  | [], _ :: _, _, _, h1, _ => simp only [SameAll] at h1
  | _ :: _, [], _, _, h1, _ => simp only [SameAll] at h1
  | [_], _ :: _ :: _, _, _, h1, _ => simp only [SameAll, and_false] at h1
  | _ :: _ :: _, [_], _, _, h1, _ => simp only [SameAll, and_false] at h1
  | _ :: _ :: _, _ :: _ :: _, _, _, _, _ => rfl

theorem shared_portable : shared.body.Portable .aby3 :=
  ⟨rfl, .native .w64 none, ⟨rfl, rfl, rfl, rfl, rfl, rfl⟩, trivial⟩

example (dbl : ℕ → ℕ) : SameResult (· = ·)
    (mixed [.list [.tensor shared, .tuple [.tensor shared]]] [("k", .other 3)])
    (function numbers dbl aby3 false mixed [.list [.tensor shared, .tuple [.tensor shared]]]
      [("k", .other 3)]) := by
  apply compiled_same_partial numbers_faithful aby3 false mixed mixed_respects
  · simp only [PortableAll, Portable, and_true]
    exact ⟨shared_portable, shared_portable⟩
  · simp only [PortableItems, Portable, and_true]
  · intro a h
    cases h
    simp only [Returnable, ReturnableAll, and_true]
    exact ⟨⟨shared_portable, shared_portable⟩, rfl, rfl⟩

example (dbl : ℕ → ℕ) :
    function numbers dbl aby3 false mixed [.list [.tensor shared, .tuple [.tensor shared]]]
      [("k", .other 3)] =
    .ok (.list [.list [.tensor { shared with var := false }, .list [.tensor { shared with var := false }]],
      .other 3, .other 7]) := rfl

end Verif.Runtime.Function
