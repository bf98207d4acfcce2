import Verif.Runtime.FunctionSpec

/-! # Lemmas about compiled functions -/

namespace Verif.Runtime.Function

variable {P V O : Type} {R : O → O → Prop} {G : Graph O} {dbl : V → V}

theorem ok_bind {α β : Type} (a : α) (f : α → Except Err β) : (Except.ok a >>= f) = f a := rfl

theorem err_bind {α β : Type} (e : Err) (f : α → Except Err β) : ((Except.error e : Except Err α) >>= f) =
    .error e := rfl

theorem nbits_factories {fam : Family} {f : Fac} (h : f.Kept fam) :
    ∃ n, f.nbits = .ok n ∧ factories n = .ok f := by
  cases f with
  | bool => exact ⟨0, rfl, rfl⟩
  | native w m =>
    cases m with
    | none => cases w <;> exact ⟨_, rfl, rfl⟩
    | some m => cases fam <;> exact h.elim
  | int100 => cases fam <;> exact h.elim
  | int128 => exact ⟨128, rfl, rfl⟩

theorem toNative_kept {f : Fac} (h : f.Kept .pond) (x : Back V) (hx : x.fac = f) : toNative dbl x = x.val := by
  unfold toNative
  rw [hx]
  cases f with
  | int128 => exact h.elim
  | _ => rfl

/-- A portable tensor survives. -/
theorem body_round {fam : Family} {b : Body V} (h : b.Portable fam) :
    ∃ c, bone dbl b = .ok c ∧ fromBone fam c = .ok b := by
  obtain ⟨hf, f, hu, hk⟩ := h
  obtain ⟨n, hn, hfac⟩ := nbits_factories hk
  subst hf
  cases b with
  | aby3Public v0 v1 v2 s =>
    obtain ⟨h0, h1, h2⟩ := hu
    refine ⟨.aby3Public s .pub n v0.val v1.val v2.val, ?_, ?_⟩
    · unfold bone; dsimp only; rw [h0, hn]; rfl
    · show fromBone .aby3 _ = _
      unfold fromBone; dsimp only; rw [hfac]
      obtain ⟨_, _⟩ := v0; obtain ⟨_, _⟩ := v1; obtain ⟨_, _⟩ := v2
      dsimp only at h0 h1 h2
      subst h0 h1 h2
      rfl
  | aby3Private s00 s01 s10 s11 s20 s21 s k =>
    obtain ⟨h0, h1, h2, h3, h4, h5⟩ := hu
    refine ⟨.aby3Private s k n s00.val s01.val s10.val s11.val s20.val s21.val, ?_, ?_⟩
    · unfold bone; dsimp only; rw [h0, hn]; rfl
    · show fromBone .aby3 _ = _
      unfold fromBone; dsimp only; rw [hfac]
      obtain ⟨_, _⟩ := s00; obtain ⟨_, _⟩ := s01; obtain ⟨_, _⟩ := s10
      obtain ⟨_, _⟩ := s11; obtain ⟨_, _⟩ := s20; obtain ⟨_, _⟩ := s21
      dsimp only at h0 h1 h2 h3 h4 h5
      subst h0 h1 h2 h3 h4 h5
      rfl
  | pondPublic v0 v1 s =>
    obtain ⟨h0, h1⟩ := hu
    refine ⟨.pondPublic s n v0.val v1.val, ?_, ?_⟩
    · unfold bone; dsimp only; rw [h0, hn, toNative_kept hk v0 h0, toNative_kept hk v1 h1]; rfl
    · show fromBone .pond _ = _
      unfold fromBone; dsimp only; rw [hfac]
      obtain ⟨_, _⟩ := v0; obtain ⟨_, _⟩ := v1
      dsimp only at h0 h1
      subst h0 h1
      rfl
  | pondPrivate v0 v1 s =>
    obtain ⟨h0, h1⟩ := hu
    refine ⟨.pondPrivate s n v0.val v1.val, ?_, ?_⟩
    · unfold bone; dsimp only; rw [h0, hn, toNative_kept hk v0 h0, toNative_kept hk v1 h1]; rfl
    · show fromBone .pond _ = _
      unfold fromBone; dsimp only; rw [hfac]
      obtain ⟨_, _⟩ := v0; obtain ⟨_, _⟩ := v1
      dsimp only at h0 h1
      subst h0 h1
      rfl
  | pondMasked s0 s1 s a a0 a1 al0 al1 ms =>
    obtain ⟨h0, h1, h2, h3, h4, h5, h6⟩ := hu
    refine ⟨.pondMasked ms n s n s0.val s1.val a.val a0.val a1.val al0.val al1.val, ?_, ?_⟩
    · unfold bone; dsimp only
      rw [h0, h2, hn, toNative_kept hk s0 h0, toNative_kept hk s1 h1, toNative_kept hk a h2,
        toNative_kept hk a0 h3, toNative_kept hk a1 h4, toNative_kept hk al0 h5, toNative_kept hk al1 h6]
      rfl
    · show fromBone .pond _ = _
      unfold fromBone; dsimp only; rw [hfac]
      obtain ⟨_, _⟩ := s0; obtain ⟨_, _⟩ := s1; obtain ⟨_, _⟩ := a; obtain ⟨_, _⟩ := a0
      obtain ⟨_, _⟩ := a1; obtain ⟨_, _⟩ := al0; obtain ⟨_, _⟩ := al1
      dsimp only at h0 h1 h2 h3 h4 h5 h6
      subst h0 h1 h2 h3 h4 h5 h6
      rfl

/-! ### The relation -/

mutual
theorem same_trans (ht : ∀ a b c, R a b → R b c → R a c) :
    ∀ (u v w : Val P V O), Same R u v → Same R v w → Same R u w
  | .tensor t, v, w, h1, h2 => by
    cases v <;> simp only [Same] at h1
    cases w <;> simp only [Same] at h2 ⊢
    exact h1.trans h2
  | .bone t, v, w, h1, h2 => by
    cases v <;> simp only [Same] at h1
    cases w <;> simp only [Same] at h2 ⊢
    exact h1.trans h2
  | .other t, v, w, h1, h2 => by
    cases v <;> simp only [Same] at h1
    cases w <;> simp only [Same] at h2 ⊢
    exact ht _ _ _ h1 h2
  | .list l, v, w, h1, h2 => by
    cases v <;> simp only [Same] at h1
    all_goals
      cases w <;> simp only [Same] at h2 ⊢
      all_goals exact sameAll_trans ht _ _ _ h1 h2
  | .tuple l, v, w, h1, h2 => by
    cases v <;> simp only [Same] at h1
    all_goals
      cases w <;> simp only [Same] at h2 ⊢
      all_goals exact sameAll_trans ht _ _ _ h1 h2
  | .dict l, v, w, h1, h2 => by
    cases v <;> simp only [Same] at h1
    cases w <;> simp only [Same] at h2 ⊢
    exact sameItems_trans ht _ _ _ h1 h2
theorem sameAll_trans (ht : ∀ a b c, R a b → R b c → R a c) :
    ∀ (u v w : List (Val P V O)), SameAll R u v → SameAll R v w → SameAll R u w
  | [], v, w, h1, h2 => by
    cases v <;> simp only [SameAll] at h1
    cases w <;> simp only [SameAll] at h2 ⊢
  | x :: u, v, w, h1, h2 => by
    cases v <;> simp only [SameAll] at h1
    cases w <;> simp only [SameAll] at h2 ⊢
    exact ⟨same_trans ht _ _ _ h1.1 h2.1, sameAll_trans ht _ _ _ h1.2 h2.2⟩
theorem sameItems_trans (ht : ∀ a b c, R a b → R b c → R a c) :
    ∀ (u v w : List (String × Val P V O)), SameItems R u v → SameItems R v w → SameItems R u w
  | [], v, w, h1, h2 => by
    cases v <;> simp only [SameItems] at h1
    cases w <;> simp only [SameItems] at h2 ⊢
  | (k, x) :: u, v, w, h1, h2 => by
    cases v <;> simp only [SameItems] at h1
    cases w <;> simp only [SameItems] at h2 ⊢
    exact ⟨h1.1.trans h2.1, same_trans ht _ _ _ h1.2.1 h2.2.1, sameItems_trans ht _ _ _ h1.2.2 h2.2.2⟩
end

mutual
theorem same_enter (ha : ∀ o, R o (G.arg o)) : ∀ v : Val P V O, Same R v (G.enter v)
  | .tensor t => by simp only [Graph.enter, Same]
  | .bone t => by simp only [Graph.enter, Same]
  | .other o => by simp only [Graph.enter, Same]; exact ha o
  | .list l => by simp only [Graph.enter, Same]; exact sameAll_enter ha l
  | .tuple l => by simp only [Graph.enter, Same]; exact sameAll_enter ha l
  | .dict l => by simp only [Graph.enter, Same]; exact sameItems_enter ha l
theorem sameAll_enter (ha : ∀ o, R o (G.arg o)) : ∀ l : List (Val P V O), SameAll R l (G.enterAll l)
  | [] => by simp only [Graph.enterAll, SameAll]
  | v :: l => by simp only [Graph.enterAll, SameAll]; exact ⟨same_enter ha v, sameAll_enter ha l⟩
theorem sameItems_enter (ha : ∀ o, R o (G.arg o)) :
    ∀ l : List (String × Val P V O), SameItems R l (G.enterItems l)
  | [] => by simp only [Graph.enterItems, SameItems]
  | (k, v) :: l => by
    simp only [Graph.enterItems, SameItems, true_and]; exact ⟨same_enter ha v, sameItems_enter ha l⟩
end

mutual
theorem same_refl (hr : ∀ o, R o o) : ∀ v : Val P V O, Same R v v
  | .tensor t => by simp only [Same]
  | .bone t => by simp only [Same]
  | .other o => by simp only [Same]; exact hr o
  | .list l => by simp only [Same]; exact sameAll_refl hr l
  | .tuple l => by simp only [Same]; exact sameAll_refl hr l
  | .dict l => by simp only [Same]; exact sameItems_refl hr l
theorem sameAll_refl (hr : ∀ o, R o o) : ∀ l : List (Val P V O), SameAll R l l
  | [] => by simp only [SameAll]
  | v :: l => by simp only [SameAll]; exact ⟨same_refl hr v, sameAll_refl hr l⟩
theorem sameItems_refl (hr : ∀ o, R o o) : ∀ l : List (String × Val P V O), SameItems R l l
  | [] => by simp only [SameItems]
  | (k, v) :: l => by simp only [SameItems, true_and]; exact ⟨same_refl hr v, sameItems_refl hr l⟩
end

/-! ### Arguments -/

mutual
/-- Taken apart, into the graph, put together: the same arguments. -/
theorem arg_round (ha : ∀ o, R o (G.arg o)) (cur : Current P) :
    ∀ v : Val P V O, Portable cur.family v →
      ∃ u w, unwrap dbl v = .ok u ∧ wrap cur (G.enter u) = .ok w ∧ Same R v w
  | .tensor t, h => by
    simp only [Portable] at h
    obtain ⟨c, hc, hb⟩ := body_round (dbl := dbl) h
    refine ⟨.bone c, .tensor ⟨cur.prot, false, t.body⟩, ?_, ?_, ?_⟩
    · simp only [unwrap, hc, ok_bind]; rfl
    · simp only [Graph.enter, wrap, hb, ok_bind]; rfl
    · simp only [Same]
  | .bone b, h => by simp only [Portable] at h
  | .other o, h => ⟨.other o, .other (G.arg o), rfl, rfl, by simp only [Same]; exact ha o⟩
  | .dict l, h => by
    refine ⟨.dict l, .dict (G.enterItems l), rfl, rfl, ?_⟩
    simp only [Same]; exact sameItems_enter ha l
  | .list l, h => by
    simp only [Portable] at h
    obtain ⟨us, ws, hu, hw, hs⟩ := args_round ha cur l h
    refine ⟨.list us, .list ws, ?_, ?_, ?_⟩
    · simp only [unwrap, hu, ok_bind]; rfl
    · simp only [Graph.enter, wrap, hw, ok_bind]; rfl
    · simp only [Same]; exact hs
  | .tuple l, h => by
    simp only [Portable] at h
    obtain ⟨us, ws, hu, hw, hs⟩ := args_round ha cur l h
    refine ⟨.list us, .list ws, ?_, ?_, ?_⟩
    · simp only [unwrap, hu, ok_bind]; rfl
    · simp only [Graph.enter, wrap, hw, ok_bind]; rfl
    · simp only [Same]; exact hs
theorem args_round (ha : ∀ o, R o (G.arg o)) (cur : Current P) :
    ∀ l : List (Val P V O), PortableAll cur.family l →
      ∃ us ws, unwrapAll dbl l = .ok us ∧ wrapAll cur (G.enterAll us) = .ok ws ∧ SameAll R l ws
  | [], _ => ⟨[], [], rfl, rfl, by simp only [SameAll]⟩
  | v :: l, h => by
    simp only [PortableAll] at h
    obtain ⟨u, w, hu, hw, hs⟩ := arg_round ha cur v h.1
    obtain ⟨us, ws, hus, hws, hss⟩ := args_round ha cur l h.2
    refine ⟨u :: us, w :: ws, ?_, ?_, ?_⟩
    · simp only [unwrapAll, hu, hus, ok_bind]; rfl
    · simp only [Graph.enterAll, wrapAll, hw, hws, ok_bind]; rfl
    · simp only [SameAll]; exact ⟨hs, hss⟩
end

theorem kwargs_round (ha : ∀ o, R o (G.arg o)) (cur : Current P) :
    ∀ l : List (String × Val P V O), PortableItems cur.family l →
      ∃ us ws, onItems (unwrap dbl) l = .ok us ∧ onItems (wrap cur) (G.enterItems us) = .ok ws ∧
        SameItems R l ws
  | [], _ => ⟨[], [], rfl, rfl, by simp only [SameItems]⟩
  | (k, v) :: l, h => by
    simp only [PortableItems] at h
    obtain ⟨u, w, hu, hw, hs⟩ := arg_round (dbl := dbl) ha cur v h.1
    obtain ⟨us, ws, hus, hws, hss⟩ := kwargs_round ha cur l h.2
    refine ⟨(k, u) :: us, (k, w) :: ws, ?_, ?_, ?_⟩
    · simp only [onItems, hu, hus, ok_bind]; rfl
    · simp only [Graph.enterItems, onItems, hw, hws, ok_bind]; rfl
    · simp only [SameItems, true_and]; exact ⟨hs, hss⟩

/-! ### Results -/

theorem conv_ok {o : O} (h : (G.res o).isSome) : ∃ o', G.res o = some o' ∧ G.conv o = .ok o' := by
  unfold Graph.conv
  cases hr : G.res o with
  | none => rw [hr] at h; cases h
  | some o' => exact ⟨o', rfl, rfl⟩

mutual
theorem plain_leave (hres : ∀ o o', G.res o = some o' → R o o') :
    ∀ v : Val P V O, Plain G v → ∃ w, G.leave v = .ok w ∧ Same R v w
  | .tensor _, h => by simp only [Plain] at h
  | .bone _, h => by simp only [Plain] at h
  | .other o, h => by
    simp only [Plain] at h
    obtain ⟨o', h1, h2⟩ := conv_ok h
    refine ⟨.other o', ?_, ?_⟩
    · simp only [Graph.leave, h2, ok_bind]; rfl
    · simp only [Same]; exact hres _ _ h1
  | .list l, h => by
    simp only [Plain] at h
    obtain ⟨w, h1, h2⟩ := plainAll_leave hres l h
    refine ⟨.list w, ?_, ?_⟩
    · simp only [Graph.leave, h1, ok_bind]; rfl
    · simp only [Same]; exact h2
  | .tuple l, h => by
    simp only [Plain] at h
    obtain ⟨w, h1, h2⟩ := plainAll_leave hres l h
    refine ⟨.tuple w, ?_, ?_⟩
    · simp only [Graph.leave, h1, ok_bind]; rfl
    · simp only [Same]; exact h2
  | .dict l, h => by
    simp only [Plain] at h
    obtain ⟨w, h1, h2⟩ := plainItems_leave hres l h
    refine ⟨.dict w, ?_, ?_⟩
    · simp only [Graph.leave, h1, ok_bind]; rfl
    · simp only [Same]; exact h2
theorem plainAll_leave (hres : ∀ o o', G.res o = some o' → R o o') :
    ∀ l : List (Val P V O), PlainAll G l → ∃ w, G.leaveAll l = .ok w ∧ SameAll R l w
  | [], _ => ⟨[], rfl, by simp only [SameAll]⟩
  | v :: l, h => by
    simp only [PlainAll] at h
    obtain ⟨w, h1, h2⟩ := plain_leave hres v h.1
    obtain ⟨ws, h3, h4⟩ := plainAll_leave hres l h.2
    refine ⟨w :: ws, ?_, ?_⟩
    · simp only [Graph.leaveAll, h1, h3, ok_bind]; rfl
    · simp only [SameAll]; exact ⟨h2, h4⟩
theorem plainItems_leave (hres : ∀ o o', G.res o = some o' → R o o') :
    ∀ l : List (String × Val P V O), PlainItems G l → ∃ w, G.leaveItems l = .ok w ∧ SameItems R l w
  | [], _ => ⟨[], rfl, by simp only [SameItems]⟩
  | (k, v) :: l, h => by
    simp only [PlainItems] at h
    obtain ⟨w, h1, h2⟩ := plain_leave hres v h.1
    obtain ⟨ws, h3, h4⟩ := plainItems_leave hres l h.2
    refine ⟨(k, w) :: ws, ?_, ?_⟩
    · simp only [Graph.leaveItems, h1, h3, ok_bind]; rfl
    · simp only [SameItems, true_and]; exact ⟨h2, h4⟩
end

mutual
/-- Taken apart, out of the graph, put together: the same result. -/
theorem result_round (hres : ∀ o o', G.res o = some o' → R o o') (cur : Current P) :
    ∀ v : Val P V O, Returnable G cur.family v →
      ∃ u w x, unwrap dbl v = .ok u ∧ G.leave u = .ok w ∧ wrap cur w = .ok x ∧ Same R v x
  | .tensor t, h => by
    simp only [Returnable] at h
    obtain ⟨c, hc, hb⟩ := body_round (dbl := dbl) h
    refine ⟨.bone c, .bone c, .tensor ⟨cur.prot, false, t.body⟩, ?_, ?_, ?_, ?_⟩
    · simp only [unwrap, hc, ok_bind]; rfl
    · simp only [Graph.leave]
    · simp only [wrap, hb, ok_bind]; rfl
    · simp only [Same]
  | .bone b, h => by simp only [Returnable] at h
  | .other o, h => by
    simp only [Returnable] at h
    obtain ⟨o', h1, h2⟩ := conv_ok h
    refine ⟨.other o, .other o', .other o', rfl, ?_, rfl, ?_⟩
    · simp only [Graph.leave, h2, ok_bind]; rfl
    · simp only [Same]; exact hres _ _ h1
  | .dict l, h => by
    simp only [Returnable] at h
    obtain ⟨w, h1, h2⟩ := plainItems_leave hres l h
    refine ⟨.dict l, .dict w, .dict w, rfl, ?_, rfl, ?_⟩
    · simp only [Graph.leave, h1, ok_bind]; rfl
    · simp only [Same]; exact h2
  | .list l, h => by
    simp only [Returnable] at h
    obtain ⟨us, ws, xs, hu, hw, hx, hs⟩ := results_round hres cur l h
    refine ⟨.list us, .list ws, .list xs, ?_, ?_, ?_, ?_⟩
    · simp only [unwrap, hu, ok_bind]; rfl
    · simp only [Graph.leave, hw, ok_bind]; rfl
    · simp only [wrap, hx, ok_bind]; rfl
    · simp only [Same]; exact hs
  | .tuple l, h => by
    simp only [Returnable] at h
    obtain ⟨us, ws, xs, hu, hw, hx, hs⟩ := results_round hres cur l h
    refine ⟨.list us, .list ws, .list xs, ?_, ?_, ?_, ?_⟩
    · simp only [unwrap, hu, ok_bind]; rfl
    · simp only [Graph.leave, hw, ok_bind]; rfl
    · simp only [wrap, hx, ok_bind]; rfl
    · simp only [Same]; exact hs
theorem results_round (hres : ∀ o o', G.res o = some o' → R o o') (cur : Current P) :
    ∀ l : List (Val P V O), ReturnableAll G cur.family l →
      ∃ us ws xs, unwrapAll dbl l = .ok us ∧ G.leaveAll us = .ok ws ∧ wrapAll cur ws = .ok xs ∧
        SameAll R l xs
  | [], _ => ⟨[], [], [], rfl, rfl, rfl, by simp only [SameAll]⟩
  | v :: l, h => by
    simp only [ReturnableAll] at h
    obtain ⟨u, w, x, hu, hw, hx, hs⟩ := result_round hres cur v h.1
    obtain ⟨us, ws, xs, hus, hws, hxs, hss⟩ := results_round hres cur l h.2
    refine ⟨u :: us, w :: ws, x :: xs, ?_, ?_, ?_, ?_⟩
    · simp only [unwrapAll, hu, hus, ok_bind]; rfl
    · simp only [Graph.leaveAll, hw, hws, ok_bind]; rfl
    · simp only [wrapAll, hx, hxs, ok_bind]; rfl
    · simp only [SameAll]; exact ⟨hs, hss⟩
end

/-! ### Results that are the same can be returned alike -/

mutual
theorem plain_same (hk : ∀ o o', R o o' → (G.res o).isSome → (G.res o').isSome) :
    ∀ v w : Val P V O, Same R v w → Plain G v → Plain G w
  | .tensor _, _, _, h => by simp only [Plain] at h
  | .bone _, _, _, h => by simp only [Plain] at h
  | .other o, w, hs, h => by
    cases w <;> simp only [Same] at hs
    simp only [Plain] at h ⊢; exact hk _ _ hs h
  | .list l, w, hs, h => by
    simp only [Plain] at h
    cases w <;> simp only [Same] at hs
    all_goals simp only [Plain]; exact plainAll_same hk _ _ hs h
  | .tuple l, w, hs, h => by
    simp only [Plain] at h
    cases w <;> simp only [Same] at hs
    all_goals simp only [Plain]; exact plainAll_same hk _ _ hs h
  | .dict l, w, hs, h => by
    simp only [Plain] at h
    cases w <;> simp only [Same] at hs
    simp only [Plain]; exact plainItems_same hk _ _ hs h
theorem plainAll_same (hk : ∀ o o', R o o' → (G.res o).isSome → (G.res o').isSome) :
    ∀ v w : List (Val P V O), SameAll R v w → PlainAll G v → PlainAll G w
  | [], w, hs, _ => by
    cases w <;> simp only [SameAll] at hs
    simp only [PlainAll]
  | x :: v, w, hs, h => by
    cases w <;> simp only [SameAll] at hs
    simp only [PlainAll] at h ⊢
    exact ⟨plain_same hk _ _ hs.1 h.1, plainAll_same hk _ _ hs.2 h.2⟩
theorem plainItems_same (hk : ∀ o o', R o o' → (G.res o).isSome → (G.res o').isSome) :
    ∀ v w : List (String × Val P V O), SameItems R v w → PlainItems G v → PlainItems G w
  | [], w, hs, _ => by
    cases w <;> simp only [SameItems] at hs
    simp only [PlainItems]
  | (k, x) :: v, w, hs, h => by
    cases w <;> simp only [SameItems] at hs
    simp only [PlainItems] at h ⊢
    exact ⟨plain_same hk _ _ hs.2.1 h.1, plainItems_same hk _ _ hs.2.2 h.2⟩
end

mutual
theorem returnable_same (hk : ∀ o o', R o o' → (G.res o).isSome → (G.res o').isSome) {cur : Family} :
    ∀ v w : Val P V O, Same R v w → Returnable G cur v → Returnable G cur w
  | .tensor _, w, hs, h => by
    cases w <;> simp only [Same] at hs
    simp only [Returnable] at h ⊢; rw [← hs]; exact h
  | .bone _, _, _, h => by simp only [Returnable] at h
  | .other o, w, hs, h => by
    cases w <;> simp only [Same] at hs
    simp only [Returnable] at h ⊢; exact hk _ _ hs h
  | .list l, w, hs, h => by
    simp only [Returnable] at h
    cases w <;> simp only [Same] at hs
    all_goals simp only [Returnable]; exact returnableAll_same hk _ _ hs h
  | .tuple l, w, hs, h => by
    simp only [Returnable] at h
    cases w <;> simp only [Same] at hs
    all_goals simp only [Returnable]; exact returnableAll_same hk _ _ hs h
  | .dict l, w, hs, h => by
    simp only [Returnable] at h
    cases w <;> simp only [Same] at hs
    simp only [Returnable]; exact plainItems_same hk _ _ hs h
theorem returnableAll_same (hk : ∀ o o', R o o' → (G.res o).isSome → (G.res o').isSome) {cur : Family} :
    ∀ v w : List (Val P V O), SameAll R v w → ReturnableAll G cur v → ReturnableAll G cur w
  | [], w, hs, _ => by
    cases w <;> simp only [SameAll] at hs
    simp only [ReturnableAll]
  | x :: v, w, hs, h => by
    cases w <;> simp only [SameAll] at hs
    simp only [ReturnableAll] at h ⊢
    exact ⟨returnable_same hk _ _ hs.1 h.1, returnableAll_same hk _ _ hs.2 h.2⟩
end

end Verif.Runtime.Function
