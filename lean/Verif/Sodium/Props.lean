import Verif.Sodium.Model
import Mathlib.Tactic.Ring
import Mathlib.Data.List.GetD
import Mathlib.Logic.Equiv.Basic

/-!
# C81: sealed tensors

Everything holds for whatever libsodium computes (`B : Box`).
-/

namespace Verif.Sodium

variable (B : Box)

/-- The number of elements fits the shape. -/
def Plain.Wf {d : Dtype} (x : Plain d) : Prop := x.data.length = x.shape.prod

/-- The number of bytes fits the shape. -/
def Bytes.Wf (c : Bytes) : Prop := c.data.length = c.shape.prod

/-- Sizes libsodium asks for. -/
structure Sizes (nonce pk sk : List Byte) : Prop where
  nonce : nonce.length = nonceBytes
  pk : pk.length = publicKeyBytes
  sk : sk.length = secretKeyBytes

/-! ## Helper lemmas -/

theorem toBytes_length {d : Dtype} (x : BitVec (8 * d.size)) : (toBytes x).length = d.size := by
  simp [toBytes]

theorem getLsbD_ofBytes (d : Dtype) (bs : List Byte) (i : ℕ) (hi : i < 8 * d.size) :
    (ofBytes d bs).getLsbD i = (bs.getD (i / 8) 0).getLsbD (i % 8) := by
  rw [ofBytes, BitVec.getLsbD_cast, BitVec.getLsbD_ofBoolListLE, List.getD_eq_getElem?_getD,
    List.getElem?_map, List.getElem?_range hi]
  rfl

theorem ofBytes_toBytes {d : Dtype} (x : BitVec (8 * d.size)) : ofBytes d (toBytes x) = x := by
  apply BitVec.eq_of_getLsbD_eq
  intro i hi
  have h8 : i / 8 < d.size := by omega
  rw [getLsbD_ofBytes d _ i hi, List.getD_eq_getElem?_getD, toBytes, List.getElem?_map, List.getElem?_range h8]
  simp only [Option.map_some, Option.getD_some, BitVec.getLsbD_extractLsb']
  have h1 : i % 8 < 8 := Nat.mod_lt _ (by decide)
  have h2 : 8 * (i / 8) + i % 8 = i := Nat.div_add_mod i 8
  simp [h1, h2]

theorem toBytes_ofBytes {d : Dtype} (bs : List Byte) (h : bs.length = d.size) :
    toBytes (ofBytes d bs) = bs := by
  apply List.ext_getElem
  · rw [toBytes_length, h]
  · intro k h1 h2
    rw [toBytes_length] at h1
    simp only [toBytes, List.getElem_map, List.getElem_range]
    apply BitVec.eq_of_getLsbD_eq
    intro i hi
    have h3 : 8 * k + i < 8 * d.size := by omega
    have h4 : (8 * k + i) / 8 = k := by omega
    have h5 : (8 * k + i) % 8 = i := by omega
    rw [BitVec.getLsbD_extractLsb', getLsbD_ofBytes d _ _ h3, h4, h5, List.getD_eq_getElem _ _ h2]
    simp [hi]

theorem elements_flatMap {d : Dtype} (l : List (BitVec (8 * d.size))) :
    elements d l.length (l.flatMap toBytes) = l := by
  induction l with
  | nil => rfl
  | cons x l ih =>
    rw [elements, List.length_cons, List.range_succ_eq_map, List.map_cons, List.map_map]
    congr 1
    · rw [Nat.zero_mul, List.drop_zero, List.flatMap_cons, List.take_left' (toBytes_length x),
        ofBytes_toBytes]
    · conv_rhs => rw [← ih]
      rw [elements]
      apply List.map_congr_left
      intro k _
      simp only [Function.comp]
      rw [List.flatMap_cons, show (k + 1) * d.size = (toBytes x).length + k * d.size by
        rw [toBytes_length]; ring, List.drop_length_add_append]

theorem flatMap_elements {d : Dtype} (n : ℕ) (bs : List Byte) (h : bs.length = n * d.size) :
    (elements d n bs).flatMap toBytes = bs := by
  induction n generalizing bs with
  | zero =>
    have : bs = [] := List.length_eq_zero_iff.1 (by omega)
    subst this; rfl
  | succ n ih =>
    have hs : d.size ≤ bs.length := by rw [h]; exact Nat.le_mul_of_pos_left _ (Nat.succ_pos n)
    rw [elements, List.range_succ_eq_map, List.map_cons, List.map_map, List.flatMap_cons,
      Nat.zero_mul, List.drop_zero, toBytes_ofBytes _ (by rw [List.length_take]; omega)]
    conv_rhs => rw [← List.take_append_drop d.size bs]
    congr 1
    have := ih (bs.drop d.size) (by rw [List.length_drop, h, Nat.succ_mul]; omega)
    conv_rhs => rw [← this]
    rw [elements]
    congr 1
    apply List.map_congr_left
    intro k _
    simp only [Function.comp]
    rw [List.drop_drop, show (k + 1) * d.size = d.size + k * d.size by ring]

theorem crypt_crypt (k : B.Key) (nonce m : List Byte) : crypt B k nonce (crypt B k nonce m) = m := by
  apply List.ext_getElem
  · simp [crypt]
  · intro i h1 h2
    simp [crypt, BitVec.xor_assoc]

theorem crypt_length (k : B.Key) (nonce m : List Byte) : (crypt B k nonce m).length = m.length := by
  simp [crypt]

theorem crypt_get (k : B.Key) (nonce m : List Byte) (i : ℕ) :
    (crypt B k nonce m)[i]? = m[i]?.map fun x => x ^^^ B.stream k nonce i := by
  simp [crypt]

theorem open_iff_box (c mac nonce pk sk m : List Byte) :
    boxOpenDetached B c mac nonce pk sk = some m ↔ boxDetached B m nonce pk sk = some (c, mac) := by
  unfold boxOpenDetached boxDetached
  cases B.key pk sk with
  | none => simp
  | some k =>
    simp only [Option.bind_some, Option.map_some, Option.some.injEq, Prod.mk.injEq]
    constructor
    · intro h
      split at h
      · rename_i ht
        cases h
        rw [crypt_crypt]
        exact ⟨rfl, ht⟩
      · cases h
    · rintro ⟨rfl, ht⟩
      rw [if_pos ht, crypt_crypt]

theorem flatMap_length {d : Dtype} (l : List (BitVec (8 * d.size))) :
    (l.flatMap toBytes).length = l.length * d.size := by
  induction l with
  | nil => simp
  | cons x l ih => rw [List.flatMap_cons, List.length_append, ih, toBytes_length, List.length_cons]; ring

theorem seal_eq {d : Dtype} (hd : d.supported = true) (x : Plain d) {nonce pk sk : List Byte}
    (hs : Sizes nonce pk sk) :
    sealT B x nonce pk sk
      = sealed x.shape d.size (boxDetached B (x.data.flatMap toBytes) nonce pk sk) := by
  unfold sealT
  rw [if_neg (by simp [hd]), if_neg (not_not.2 hs.nonce), if_neg (not_not.2 hs.pk),
    if_neg (not_not.2 hs.sk)]

/-! ## The theorems -/

/-- **Exactly what was sealed.** Opening yields a tensor of the given type if and only if sealing
that tensor, with the keys in the same roles, gives this ciphertext and this authenticator; for all
ciphertexts, also those nobody sealed. -/
theorem unseal_iff (d : Dtype) (hd : d.supported = true) (c : Bytes) (hc : c.Wf)
    (mac nonce pk sk : List Byte) (hm : mac.length = macBytes) (hs : Sizes nonce pk sk)
    (y : Plain d) :
    openT B d c mac nonce pk sk = .ok y ↔ y.Wf ∧ sealT B y nonce pk sk = .ok (c, mac) := by
  rw [seal_eq B hd y hs]
  unfold openT
  rw [if_neg (by simp [hd])]
  constructor
  · intro h
    split at h
    · cases h
    rename_i hl
    have hl := not_not.1 hl
    rw [if_neg (not_not.2 hm), if_neg (not_not.2 hs.nonce), if_neg (not_not.2 hs.pk),
      if_neg (not_not.2 hs.sk)] at h
    have hshape : c.shape = c.shape.dropLast ++ [d.size] := by
      obtain ⟨ys, hys⟩ := List.getLast?_eq_some_iff.1 hl
      rw [hys, List.dropLast_concat]
    cases ho : boxOpenDetached B c.data mac nonce pk sk with
    | none => rw [ho] at h; cases h
    | some m =>
      rw [ho] at h
      simp only [Except.ok.injEq] at h
      subst h
      have hb := (open_iff_box B _ _ _ _ _ _).1 ho
      have hmlen : m.length = c.shape.dropLast.prod * d.size := by
        have : m.length = c.data.length := by
          unfold boxDetached at hb
          cases hk : B.key pk sk with
          | none => rw [hk] at hb; cases hb
          | some k =>
            rw [hk] at hb
            simp only [Option.map_some, Option.some.injEq, Prod.mk.injEq] at hb
            rw [← hb.1, crypt_length]
        rw [this, hc, hshape, List.prod_append, List.dropLast_concat]; simp
      refine ⟨by simp [Plain.Wf, elements], ?_⟩
      dsimp only
      rw [flatMap_elements _ _ hmlen, hb, sealed, ← hshape]
  · rintro ⟨hy, h⟩
    cases hb : boxDetached B (y.data.flatMap toBytes) nonce pk sk with
    | none => rw [hb] at h; cases h
    | some p =>
      obtain ⟨c', mac'⟩ := p
      rw [hb] at h
      simp only [sealed, Except.ok.injEq, Prod.mk.injEq] at h
      obtain ⟨rfl, rfl⟩ := h
      rw [if_neg (by simp), if_neg (not_not.2 hm), if_neg (not_not.2 hs.nonce),
        if_neg (not_not.2 hs.pk), if_neg (not_not.2 hs.sk)]
      have ho := (open_iff_box B _ _ _ _ _ _).2 hb
      dsimp only at ho ⊢
      rw [ho]
      dsimp only
      rw [List.dropLast_concat, ← hy, elements_flatMap]

/-- **Round trip.** What the sender seals for the receiver, the receiver opens to the same tensor:
every supported type, every shape (also empty), every value, every nonce. -/
theorem unseal_seal {d : Dtype} (x : Plain d) (hx : x.Wf)
    (nonce skS skR : List Byte) (c : Bytes) (mac : List Byte)
    (hsS : Sizes nonce (B.pub skR) skS) (hsR : Sizes nonce (B.pub skS) skR)
    (htag : ∀ k n m, (B.tag k n m).length = macBytes)
    (h : sealT B x nonce (B.pub skR) skS = .ok (c, mac)) :
    openT B d c mac nonce (B.pub skS) skR = .ok x := by
  have hd : d.supported = true := by
    unfold sealT at h
    split at h
    · cases h
    · rename_i hd; simpa using hd
  have hsame : sealT B x nonce (B.pub skS) skR = .ok (c, mac) := by
    rw [seal_eq B hd x hsR]
    rw [seal_eq B hd x hsS] at h
    unfold boxDetached at h ⊢
    rw [B.agree skS skR]
    exact h
  have hwf : c.Wf ∧ mac.length = macBytes := by
    rw [seal_eq B hd x hsS] at h
    unfold boxDetached at h
    cases hk : B.key (B.pub skR) skS with
    | none => rw [hk] at h; cases h
    | some k =>
      rw [hk] at h
      simp only [sealed, Option.map_some, Except.ok.injEq, Prod.mk.injEq] at h
      obtain ⟨rfl, rfl⟩ := h
      refine ⟨?_, htag _ _ _⟩
      show (crypt B k nonce _).length = _
      rw [crypt_length, flatMap_length, hx, List.prod_append]; simp
  exact (unseal_iff B d hd c hwf.1 mac nonce _ _ hwf.2 hsR x).2 ⟨hx, hsame⟩

/-- Sealing succeeds for every supported type unless libsodium refuses the public key. -/
theorem seal_succeeds {d : Dtype} (hd : d.supported = true) (x : Plain d) (nonce pk sk : List Byte)
    (hs : Sizes nonce pk sk) (hk : (B.key pk sk).isSome) :
    ∃ c mac, sealT B x nonce pk sk = .ok (c, mac) ∧ c.shape = x.shape ++ [d.size] := by
  obtain ⟨k, hk⟩ := Option.isSome_iff_exists.1 hk
  rw [seal_eq B hd x hs]
  unfold boxDetached
  rw [hk]
  exact ⟨_, _, rfl, rfl⟩

/-- **The ciphertext tells nothing but type size and shape** as long as the key stream is uniform:
for two tensors of one shape, a permutation of the key streams turns the ciphertexts and
authenticators of one into those of the other. -/
theorem seal_hides {d : Dtype} (x y : Plain d) (hx : x.Wf) (hy : y.Wf) (hxy : x.shape = y.shape)
    (nonce pk sk : List Byte) :
    ∃ σ : Equiv.Perm (ℕ → Byte), ∀ s : ℕ → Byte,
      sealT { B with stream := fun _ _ => s } x nonce pk sk
        = sealT { B with stream := fun _ _ => σ s } y nonce pk sk := by
  let dx := x.data.flatMap toBytes
  let dy := y.data.flatMap toBytes
  have hlen : dx.length = dy.length := by
    rw [flatMap_length, flatMap_length, hx, hy, hxy]
  let f : (ℕ → Byte) → ℕ → Byte := fun s i => s i ^^^ (dx.getD i 0 ^^^ dy.getD i 0)
  have hf : ∀ s, f (f s) = s := by
    intro s; funext i
    show s i ^^^ (dx.getD i 0 ^^^ dy.getD i 0) ^^^ (dx.getD i 0 ^^^ dy.getD i 0) = s i
    rw [BitVec.xor_assoc, BitVec.xor_self, BitVec.xor_zero]
  refine ⟨⟨f, f, hf, hf⟩, fun s => ?_⟩
  have hc : ∀ k, crypt { B with stream := fun _ _ => s } k nonce dx
      = crypt { B with stream := fun _ _ => f s } k nonce dy := by
    intro k
    apply List.ext_getElem?
    intro i
    rw [crypt_get, crypt_get]
    by_cases h1 : i < dx.length
    · have h2 : i < dy.length := hlen ▸ h1
      rw [List.getElem?_eq_getElem h1, List.getElem?_eq_getElem h2]
      show some (dx[i] ^^^ s i) = some (dy[i] ^^^ (s i ^^^ (dx.getD i 0 ^^^ dy.getD i 0)))
      rw [List.getD_eq_getElem dx 0 h1, List.getD_eq_getElem dy 0 h2, BitVec.xor_comm (s i),
        BitVec.xor_comm (dx[i]) (dy[i]), BitVec.xor_assoc (dy[i]), ← BitVec.xor_assoc (dy[i]),
        BitVec.xor_self, BitVec.zero_xor]
    · rw [List.getElem?_eq_none (by omega), List.getElem?_eq_none (by omega)]
      rfl
  have hbox : boxDetached { B with stream := fun _ _ => s } dx nonce pk sk
      = boxDetached { B with stream := fun _ _ => f s } dy nonce pk sk := by
    show Option.map (fun k => (crypt { B with stream := fun _ _ => s } k nonce dx,
      B.tag k nonce (crypt { B with stream := fun _ _ => s } k nonce dx))) (B.key pk sk)
      = Option.map (fun k => (crypt { B with stream := fun _ _ => f s } k nonce dy,
      B.tag k nonce (crypt { B with stream := fun _ _ => f s } k nonce dy))) (B.key pk sk)
    congr 1
    funext k
    rw [hc k]
  have hfin : sealed x.shape d.size (boxDetached { B with stream := fun _ _ => s } dx nonce pk sk)
      = sealed y.shape d.size (boxDetached { B with stream := fun _ _ => f s } dy nonce pk sk) := by
    rw [hbox, hxy]
  unfold sealT
  exact congrArg (fun r => if (!d.supported) = true then _ else if nonce.length ≠ nonceBytes then _
    else if pk.length ≠ publicKeyBytes then _ else if sk.length ≠ secretKeyBytes then _ else r) hfin

/-! ## Where the claim fails -/

/-- The type is not authenticated: what was sealed as one type opens as any other of the same size,
with the bits read differently. -/
theorem retype_false (d e : Dtype) (hd : d.supported = true) (he : e.supported = true)
    (hde : d.size = e.size) (x : Plain d) (hx : x.Wf) (nonce pk sk : List Byte)
    (hs : Sizes nonce pk sk) (htag : ∀ k n m, (B.tag k n m).length = macBytes) (c : Bytes)
    (mac : List Byte) (h : sealT B x nonce pk sk = .ok (c, mac)) :
    openT B e c mac nonce pk sk
      = .ok ⟨x.shape, x.data.map fun v => v.cast (by rw [hde])⟩ := by
  have hcast : (x.data.map fun v => v.cast (by rw [hde] : 8 * d.size = 8 * e.size)).flatMap toBytes
      = x.data.flatMap toBytes := by
    rw [List.flatMap_map]
    congr 1
    funext v
    apply List.ext_getElem
    · rw [toBytes_length, toBytes_length, hde]
    · intro k _ _
      simp only [toBytes, List.getElem_map, List.getElem_range]
      apply BitVec.eq_of_getLsbD_eq
      intro i _
      simp [BitVec.getLsbD_extractLsb']
  have hwf : c.Wf ∧ mac.length = macBytes := by
    rw [seal_eq B hd x hs] at h
    unfold boxDetached at h
    cases hk : B.key pk sk with
    | none => rw [hk] at h; cases h
    | some k =>
      rw [hk] at h
      simp only [sealed, Option.map_some, Except.ok.injEq, Prod.mk.injEq] at h
      obtain ⟨rfl, rfl⟩ := h
      refine ⟨?_, htag _ _ _⟩
      show (crypt B k nonce _).length = _
      rw [crypt_length, flatMap_length, hx, List.prod_append]; simp
  refine (unseal_iff B e he c hwf.1 mac nonce pk sk hwf.2 hs _).2 ⟨?_, ?_⟩
  · simpa [Plain.Wf] using hx
  · rw [seal_eq B he _ hs]
    rw [seal_eq B hd x hs] at h
    dsimp only
    rw [hcast, ← hde]
    exact h

/-- Nor is the shape: the same bytes in any other shape that ends in the size of the type are
accepted, and the receiver gets a tensor of that shape. -/
theorem reshape_false (d : Dtype) (hd : d.supported = true) (x : Plain d) (hx : x.Wf)
    (nonce pk sk : List Byte) (hs : Sizes nonce pk sk)
    (htag : ∀ k n m, (B.tag k n m).length = macBytes) (c : Bytes) (mac : List Byte)
    (h : sealT B x nonce pk sk = .ok (c, mac)) (s : List ℕ) (hsx : s.prod = x.shape.prod) :
    openT B d ⟨s ++ [d.size], c.data⟩ mac nonce pk sk = .ok ⟨s, x.data⟩ := by
  rw [seal_eq B hd x hs] at h
  have hb : ∃ c' mac', boxDetached B (x.data.flatMap toBytes) nonce pk sk = some (c', mac') ∧
      c.data = c' ∧ mac = mac' ∧ c'.length = x.shape.prod * d.size ∧ mac'.length = macBytes := by
    unfold boxDetached at h ⊢
    cases hk : B.key pk sk with
    | none => rw [hk] at h; cases h
    | some k =>
      rw [hk] at h
      simp only [sealed, Option.map_some, Except.ok.injEq, Prod.mk.injEq] at h
      obtain ⟨rfl, rfl⟩ := h
      exact ⟨_, _, rfl, rfl, rfl, by rw [crypt_length, flatMap_length, hx], htag _ _ _⟩
  obtain ⟨c', mac', hb, hcd, hmac, hlen, hml⟩ := hb
  refine (unseal_iff B d hd _ ?_ mac nonce pk sk (by rw [hmac]; exact hml) hs _).2 ⟨?_, ?_⟩
  · show c.data.length = (s ++ [d.size]).prod
    rw [hcd, hlen, List.prod_append, hsx]; simp
  · show x.data.length = s.prod
    rw [hsx]; exact hx
  · rw [seal_eq B hd _ hs]
    dsimp only
    rw [hb, hmac, hcd]
    rfl

/-- Reflection: what `a` sealed for `b`, `a` accepts as sealed by `b`. -/
theorem reflection_false {d : Dtype} (x : Plain d) (hx : x.Wf) (nonce skA skB : List Byte) (c : Bytes)
    (mac : List Byte) (hs : Sizes nonce (B.pub skB) skA)
    (htag : ∀ k n m, (B.tag k n m).length = macBytes)
    (h : sealT B x nonce (B.pub skB) skA = .ok (c, mac)) :
    openT B d c mac nonce (B.pub skB) skA = .ok x := by
  have hd : d.supported = true := by
    unfold sealT at h
    split at h
    · cases h
    · rename_i hd; simpa using hd
  have := retype_false B d d hd hd rfl x hx nonce _ _ hs htag c mac h
  simpa using this

/-- With a nonce used twice the xor of the ciphertexts is the xor of the plaintexts. -/
theorem nonce_reuse_false {d : Dtype} (x y : Plain d) (nonce pk sk : List Byte) (cx cy : Bytes)
    (mx my : List Byte) (hx : sealT B x nonce pk sk = .ok (cx, mx))
    (hy : sealT B y nonce pk sk = .ok (cy, my)) (i : ℕ) (a b : Byte)
    (ha : (x.data.flatMap toBytes)[i]? = some a) (hb : (y.data.flatMap toBytes)[i]? = some b) :
    ∃ u v, cx.data[i]? = some u ∧ cy.data[i]? = some v ∧ u ^^^ v = a ^^^ b := by
  have get : ∀ (z : Plain d) (c : Bytes) (m : List Byte), sealT B z nonce pk sk = .ok (c, m) →
      ∃ k, B.key pk sk = some k ∧ c.data = crypt B k nonce (z.data.flatMap toBytes) := by
    intro z c m h
    unfold sealT at h
    split at h; · cases h
    split at h; · cases h
    split at h; · cases h
    split at h; · cases h
    unfold boxDetached at h
    cases hk : B.key pk sk with
    | none => rw [hk] at h; cases h
    | some k =>
      rw [hk] at h
      simp only [sealed, Option.map_some, Except.ok.injEq, Prod.mk.injEq] at h
      obtain ⟨rfl, _⟩ := h
      exact ⟨k, rfl, rfl⟩
  obtain ⟨k, hk, h1⟩ := get x cx mx hx
  obtain ⟨k', hk', h2⟩ := get y cy my hy
  obtain rfl : k = k' := Option.some.inj (hk.symm.trans hk')
  refine ⟨a ^^^ B.stream k nonce i, b ^^^ B.stream k nonce i, ?_, ?_, ?_⟩
  · rw [h1, crypt, List.getElem?_mapIdx, ha]; rfl
  · rw [h2, crypt, List.getElem?_mapIdx, hb]; rfl
  · rw [BitVec.xor_comm b, ← BitVec.xor_assoc, BitVec.xor_assoc a, BitVec.xor_self,
      BitVec.xor_zero]

/-- Booleans cannot be sealed. -/
theorem bool_false (x : Plain .bool) (nonce pk sk : List Byte) :
    sealT B x nonce pk sk = .error .dtype := rfl

/-- A ciphertext whose last dimension is not known when the graph is built cannot be opened, of
whatever size it will be. -/
theorem unknown_shape_false (d : Dtype) (l : List (Option ℕ)) :
    openShapeFn d none = .error .shape ∧ openShapeFn d (some (l ++ [none])) = .error .shape := by
  constructor
  · rfl
  · simp [openShapeFn]

/-! ## The hypotheses can be met -/

/-- A toy libsodium. -/
def demoBox : Box where
  Key := List Byte
  pub a := a.map fun x => x + 1
  key pk sk := some (List.zipWith (fun x y => x * y) pk (sk.map fun x => x + 1))
  stream k n i := k.getD i 7 + n.getD i 3
  tag k _ c := List.replicate 15 (k.headD 0) ++ [c.foldl (fun s x => 3 * s + x) 5]
  agree a b := by
    congr 1
    exact List.zipWith_comm_of_comm (fun x y => BitVec.mul_comm x y)

/-- A sealed 2x1 tensor of 16-bit numbers, opened. -/
example : ∃ c mac,
    sealT demoBox (⟨[2, 1], [0x1234, 0xfffe]⟩ : Plain .int16) (List.replicate 24 9)
      (demoBox.pub (List.replicate 32 5)) (List.replicate 32 4) = .ok (c, mac) ∧
    openT demoBox .int16 c mac (List.replicate 24 9) (demoBox.pub (List.replicate 32 4))
      (List.replicate 32 5) = .ok ⟨[2, 1], [0x1234, 0xfffe]⟩ := by
  have hs : Sizes (List.replicate 24 (9 : Byte)) (demoBox.pub (List.replicate 32 5))
      (List.replicate 32 4) := ⟨by simp [nonceBytes], by simp [demoBox, publicKeyBytes],
        by simp [secretKeyBytes]⟩
  have hs' : Sizes (List.replicate 24 (9 : Byte)) (demoBox.pub (List.replicate 32 4))
      (List.replicate 32 5) := ⟨by simp [nonceBytes], by simp [demoBox, publicKeyBytes],
        by simp [secretKeyBytes]⟩
  obtain ⟨c, mac, h, _⟩ := seal_succeeds demoBox (d := .int16) rfl ⟨[2, 1], [0x1234, 0xfffe]⟩
    _ _ _ hs rfl
  exact ⟨c, mac, h, unseal_seal demoBox _ (by simp [Plain.Wf]) _ _ _ c mac hs hs'
    (fun k n m => by simp [demoBox, macBytes]) h⟩

end Verif.Sodium
