import Verif.Aby3.DiskLemmas

/-!
# C73: private tensors written to disk are read back

Whatever was written before, and wherever the servers run, reading gives the values written, record after
record and over again. It does not if the number of records is not a multiple of the batch, if the tensor was
not scaled or not shared arithmetically, or if a write was interrupted.
-/

namespace Verif.Aby3.Disk

open Verif.Tensor

/-! ## Specification -/

/-- A call of `tfe.write`: prefix, tensor, `append`. -/
abbrev Call := String × Priv × Bool

/-- The files after a sequence of writes. -/
def runWrites (host : Fin 3 → ℕ) (d : Files) (hist : List Call) : Files :=
  hist.foldl (fun d c => write host c.2.1 c.1 c.2.2 d) d

/-- What a prefix stands for after a sequence of writes: the tensors since the last one that was not
appended. -/
def kept (p : String) (hist : List Call) : List Priv :=
  hist.foldl (fun acc c => if c.1 = p then (if c.2.2 then acc ++ [c.2.1] else [c.2.1]) else acc) []

/-- A tensor of integers whose six shares have shape `s`. -/
def Priv.IsInt (x : Priv) (s : List ℕ) : Prop := ∀ i j, ∃ t, x.shares i j = .int t ∧ t.shape = s

/-- The tensor with the entries of `x` at the positions given by `f`. -/
def ReadsAs (y x : Priv) (idx idx' : List ℕ) : Prop := ∀ i j, (y.shares i j).word idx = (x.shares i j).word idx'

/-! ## Writing -/

/-- **The order of the six writes does not matter.** -/
theorem write_order (host : Fin 3 → ℕ) (x : Priv) (pre : String) (append : Bool) (d : Files) (ops : List (Fin 3 × Fin 2))
    (h : ops.Perm allShares) : writeSome host x pre append ops d = write host x pre append d := by
  funext m n
  have hn : ops.Nodup := h.nodup_iff.2 (by decide)
  by_cases e : ∃ i j, m = host i ∧ n = fileName pre i j
  · obtain ⟨i, j, rfl, rfl⟩ := e
    rw [write_own, writeSome_mem host x pre append i j ops d hn (h.mem_iff.2 (mem_allShares i j))]
  · have key : ∀ o : Fin 3 × Fin 2, ¬(m = host o.1 ∧ n = fileName pre o.1 o.2) := fun o ho => e ⟨o.1, o.2, ho⟩
    rw [write, writeSome_other _ _ _ _ _ _ ops d fun o _ => key o, writeSome_other _ _ _ _ _ _ allShares d fun o _ => key o]

/-- The files of a prefix after a history. -/
theorem runWrites_own (host : Fin 3 → ℕ) (p : String) (i : Fin 3) (j : Fin 2) (hist : List Call) : ∀ (d : Files) (xs : List Priv),
    d (host i) (fileName p i j) = (if xs = [] then none else some (xs.map fun x => x.shares i j)) →
    runWrites host d hist (host i) (fileName p i j) =
      (if hist.foldl (fun acc c => if c.1 = p then (if c.2.2 then acc ++ [c.2.1] else [c.2.1]) else acc) xs = [] then none
       else some ((hist.foldl (fun acc c => if c.1 = p then (if c.2.2 then acc ++ [c.2.1] else [c.2.1]) else acc) xs).map fun x => x.shares i j)) := by
  induction hist with
  | nil => exact fun d xs h => h
  | cons c hist ih =>
      intro d xs h
      rw [runWrites, List.foldl_cons, List.foldl_cons]
      refine ih _ _ ?_
      by_cases hp : c.1 = p
      · rw [if_pos hp, ← hp, write_own, hp, h]
        cases c.2.2 with
        | false => simp [newFile]
        | true =>
            by_cases hx : xs = []
            · simp [newFile, hx]
            · simp [newFile, hx]
      · rw [if_neg hp, write_other _ _ _ _ _ _ _ _ (fun e => hp e.symm)]
        exact h

/-- **What a server's machine holds depends on its own shares only**: two histories that differ in the other
servers' shares leave the same files on the machine of server `i`, if it is on its own. -/
theorem server_files (host : Fin 3 → ℕ) (i : Fin 3) (hi : ∀ i', i' ≠ i → host i' ≠ host i) :
    ∀ (hist hist' : List Call) (d d' : Files),
      List.Forall₂ (fun c c' => c.1 = c'.1 ∧ c.2.2 = c'.2.2 ∧ c.2.1.shares i = c'.2.1.shares i) hist hist' →
      d (host i) = d' (host i) → runWrites host d hist (host i) = runWrites host d' hist' (host i)
  | [], _, d, d', h, e => by
      cases h
      exact e
  | c :: hist, _, d, d', h, e => by
      cases h with
      | @cons _ c' _ hist' hc hr =>
        rw [runWrites, runWrites, List.foldl_cons, List.foldl_cons]
        refine server_files host i hi hist hist' _ _ hr ?_
        funext n
        by_cases hn : ∃ j, n = fileName c.1 i j
        · obtain ⟨j, rfl⟩ := hn
          rw [write_own]
          rw [hc.1, write_own, e, hc.2.1, hc.2.2]
        · have k1 : ∀ o ∈ allShares, ¬(host i = host o.1 ∧ n = fileName c.1 o.1 o.2) := by
            rintro ⟨a, b⟩ _ ⟨h1, h2⟩
            by_cases ha : a = i
            · subst ha
              exact hn ⟨b, h2⟩
            · exact hi a ha h1.symm
          rw [write, writeSome_other _ _ _ _ _ _ _ _ k1, write, writeSome_other _ _ _ _ _ _ _ _ (by rw [← hc.1]; exact k1), e]

/-! ## Reading -/

theorem records_ok (d : Files) (m : ℕ) (i : Fin 3) (j : Fin 2) (f : String → List Rec) : ∀ ps : List String,
    (∀ p ∈ ps, d m (fileName p i j) = some (f p)) → records d m i j ps = .ok (ps.flatMap f)
  | [], _ => rfl
  | p :: ps, h => by
      rw [records, h p List.mem_cons_self, records_ok d m i j f ps fun q hq => h q (List.mem_cons_of_mem _ hq), List.flatMap_cons]

/-- The records of all prefixes, share by share. -/
theorem records_kept (host : Fin 3 → ℕ) (d : Files) (hist : List Call) (ps : List String) (i : Fin 3) (j : Fin 2)
    (hd : ∀ p ∈ ps, d (host i) (fileName p i j) = none) (hw : ∀ p ∈ ps, kept p hist ≠ []) :
    records (runWrites host d hist) (host i) i j ps = .ok ((ps.flatMap fun p => kept p hist).map fun x => x.shares i j) := by
  rw [records_ok _ _ i j (fun p => (kept p hist).map fun x => x.shares i j), List.map_flatMap]
  intro p hp
  have := runWrites_own host p i j hist d [] (by rw [hd p hp, if_pos rfl])
  rw [this]
  exact if_neg (hw p hp)

/-- The tensors behind the shares. -/
noncomputable def tens (x : Priv) (i : Fin 3) (j : Fin 2) : Ten (BitVec 64) :=
  match x.shares i j with
  | .int t => t
  | .bool _ => ⟨[], fun _ => 0⟩

theorem tens_spec {x : Priv} {s : List ℕ} (h : x.IsInt s) (i : Fin 3) (j : Fin 2) :
    x.shares i j = .int (tens x i j) ∧ (tens x i j).shape = s := by
  obtain ⟨t, e1, e2⟩ := h i j
  unfold tens
  rw [e1]
  exact ⟨rfl, e2⟩

theorem map_tens {s : List ℕ} (i : Fin 3) (j : Fin 2) (xs : List Priv) (h : ∀ x ∈ xs, x.IsInt s) :
    (xs.map fun x => x.shares i j) = (xs.map fun x => tens x i j).map .int := by
  rw [List.map_map]
  exact List.map_congr_left fun x hx => (tens_spec (h x hx) i j).1

/-- The `n`-th tensor, when the batch has the right number of entries. -/
theorem tensorAt_kept (host : Fin 3 → ℕ) (d : Files) (hist : List Call) (ps : List String) (k n : ℕ) (out s : List ℕ) (xs : List Priv)
    (hxs : xs = ps.flatMap fun p => kept p hist) (hd : ∀ p ∈ ps, ∀ i j, d (host i) (fileName p i j) = none)
    (hw : ∀ p ∈ ps, kept p hist ≠ []) (hne : xs ≠ []) (hk : 0 < k) (hint : ∀ x ∈ xs, x.IsInt s) :
    (out.prod = min k (xs.length - n % batches k xs.length * k) * s.prod →
      ∃ y, tensorAt host (runWrites host d hist) ps k out n = .ok y ∧ y.scaled = true ∧ y.kind = .arithmetic ∧ y.IsInt out ∧
        ∀ idx x, InShape out idx → xs[n % batches k xs.length * k + flat out idx / s.prod]? = some x →
          ReadsAs y x idx (unflat s (flat out idx % s.prod))) ∧
    (out.prod ≠ min k (xs.length - n % batches k xs.length * k) * s.prod →
      tensorAt host (runWrites host d hist) ps k out n = .error .invalid) := by
  have hsh : ∀ i j, ∀ t ∈ xs.map fun x => tens x i j, t.shape = s := by
    intro i j t ht
    obtain ⟨x, hx, rfl⟩ := List.mem_map.1 ht
    exact (tens_spec (hint x hx) i j).2
  have hshare : ∀ i j, shareAt host (runWrites host d hist) ps k out n i j = batchAt k out ((xs.map fun x => tens x i j).map .int) n := by
    intro i j
    rw [shareAt, records_kept host d hist ps i j (fun p hp => hd p hp i j) hw, ← hxs, map_tens i j xs hint]
  have hch := fun i j => batchAt_chunk k out s (xs.map fun x => tens x i j) n hk (by simpa using hne) (hsh i j)
  simp only [List.length_map] at hch
  constructor
  · intro hp
    choose t t1 t2 t3 using fun i j => (hch i j).2.1 hp
    obtain ⟨y, y1, y2, y3, y4⟩ := tensorAt_ok host (runWrites host d hist) ps k out n t fun i j => by rw [hshare]; exact t1 i j
    refine ⟨y, y1, y2, y3, fun i j => ⟨t i j, y4 i j, t2 i j⟩, fun idx x hi hx i j => ?_⟩
    rw [y4]
    show (t i j).get idx = _
    rw [t3 i j idx (tens x i j) hi (by rw [List.getElem?_map, hx]; rfl),
      (tens_spec (hint x (List.mem_of_getElem? hx)) i j).1]
    rfl
  · intro hp
    exact tensorAt_error _ _ _ _ _ _ _ (by rw [hshare]; exact (hch 0 0).2.2 hp)

/-- Equal shares give equal openings. -/
theorem open_word {y x : Priv} {idx idx' : List ℕ} (h : ReadsAs y x idx idx') (p : Option (Fin 3)) :
    y.openWith Rec.word idx p = x.openWith Rec.word idx' p := by
  rcases p with _ | p
  · simp [Priv.openWith, h 0 0, h 1 0, h 2 0]
  · fin_cases p <;> simp [Priv.openWith, h 0 0, h 0 1, h 1 0, h 1 1, h 2 0, h 2 1]

/-- `q` batches of `m` records. -/
theorem tensorAt_batches (host : Fin 3 → ℕ) (d : Files) (hist : List Call) (ps : List String) (k : ℕ) (out s : List ℕ) (m q : ℕ)
    (xs : List Priv) (hxs : xs = ps.flatMap fun p => kept p hist) (hd : ∀ p ∈ ps, ∀ i j, d (host i) (fileName p i j) = none)
    (hw : ∀ p ∈ ps, kept p hist ≠ []) (hint : ∀ x ∈ xs, x.IsInt s) (hlen : xs.length = q * m) (hm : 0 < m) (hq : 0 < q)
    (hk : k = m ∨ q = 1 ∧ m ≤ k) (hout : out.prod = m * s.prod) (n : ℕ) :
    ∃ y, tensorAt host (runWrites host d hist) ps k out n = .ok y ∧ y.scaled = true ∧ y.kind = .arithmetic ∧ y.IsInt out ∧
        ∀ idx, InShape out idx → ∃ h : n % q * m + flat out idx / s.prod < xs.length,
          ReadsAs y xs[n % q * m + flat out idx / s.prod] idx (unflat s (flat out idx % s.prod)) := by
  have hk0 : 0 < k := by rcases hk with h | h <;> omega
  have hne : xs ≠ [] := fun e => by
    rw [e] at hlen
    have := Nat.mul_pos hq hm
    simp at hlen
    omega
  have hnq : n % q < q := Nat.mod_lt _ hq
  have hle : n % q * m + m ≤ q * m := by
    have := Nat.mul_le_mul_right m (Nat.succ_le_of_lt hnq)
    rwa [Nat.succ_mul] at this
  have hc : n % batches k xs.length * k = n % q * m ∧ min k (xs.length - n % q * m) = m := by
    rcases hk with h | ⟨h1, h2⟩
    · have : batches m (q * m) = q := by
        rw [batches, show q * m + m - 1 = (m - 1) + m * q by rw [Nat.mul_comm m q]; omega, Nat.add_mul_div_left _ _ hm,
          Nat.div_eq_of_lt (by omega)]
        omega
      rw [h, hlen, this]
      exact ⟨rfl, by omega⟩
    · subst h1
      have : batches k xs.length = 1 := by
        rw [batches, hlen, Nat.one_mul, show m + k - 1 = (m - 1) + k * 1 by omega, Nat.add_mul_div_left _ _ hk0,
          Nat.div_eq_of_lt (by omega)]
      rw [this, hlen, Nat.mod_one]
      exact ⟨by simp, by omega⟩
  obtain ⟨y, y1, y2, y3, y4, y5⟩ := (tensorAt_kept host d hist ps k n out s xs hxs hd hw hne hk0 hint).1
    (by rw [hc.1, hc.2, hout])
  refine ⟨y, y1, y2, y3, y4, fun idx hi => ?_⟩
  have hlt := flat_lt _ _ hi
  have hs0 : 0 < s.prod := Nat.pos_of_ne_zero fun e => by rw [hout, e] at hlt; simp at hlt
  have hdiv : flat out idx / s.prod < m := by rw [Nat.div_lt_iff_lt_mul hs0, ← hout]; exact hlt
  have hx : n % q * m + flat out idx / s.prod < xs.length := by omega
  exact ⟨hx, y5 idx _ hi (by rw [hc.1]; exact List.getElem?_eq_getElem hx)⟩

/-- **Reading gives back what was written, record after record, over again.** `xs` are the tensors that the
prefixes stand for, all of shape `s`; there are `q` batches of `m` of them. The `n`-th tensor read has, in
row-major order, the entries of batch `n` modulo `q`, for every player. -/
theorem read_back (host : Fin 3 → ℕ) (d : Files) (hist : List Call) (ps : List String) (fileBatch b : ℕ) (rest s : List ℕ) (m q : ℕ)
    (xs : List Priv) (hxs : xs = ps.flatMap fun p => kept p hist) (hd : ∀ p ∈ ps, ∀ i j, d (host i) (fileName p i j) = none)
    (hw : ∀ p ∈ ps, kept p hist ≠ []) (hint : ∀ x ∈ xs, x.IsInt s) (hlen : xs.length = q * m) (hm : 0 < m) (hq : 0 < q)
    (hk : b / fileBatch = m ∨ q = 1 ∧ m ≤ b / fileBatch) (hout : (b :: rest).prod = m * s.prod) :
    ∃ g, read false host (runWrites host d hist) ps fileBatch (b :: rest) = (b :: rest, .ok g) ∧
      ∀ n, ∃ y, g n = .ok y ∧ y.scaled = true ∧ y.kind = .arithmetic ∧ y.IsInt (b :: rest) ∧
        ∀ idx, InShape (b :: rest) idx → ∃ x, xs[n % q * m + flat (b :: rest) idx / s.prod]? = some x ∧
          ∀ p, y.openWith Rec.word idx p = x.openWith Rec.word (unflat s (flat (b :: rest) idx % s.prod)) p := by
  have hk0 : 0 < b / fileBatch := by rcases hk with h | h <;> omega
  have hfb : fileBatch ≠ 0 := fun e => by rw [e, Nat.div_zero] at hk0; omega
  refine ⟨tensorAt host (runWrites host d hist) ps (b / fileBatch) (b :: rest), ?_, fun n => ?_⟩
  · simp only [read, Bool.false_eq_true, if_false]
    rw [if_neg hfb, if_neg (by omega)]
  · obtain ⟨y, y1, y2, y3, y4, y5⟩ := tensorAt_batches host d hist ps _ (b :: rest) s m q xs hxs hd hw hint hlen hm hq hk hout n
    refine ⟨y, y1, y2, y3, y4, fun idx hi => ?_⟩
    obtain ⟨h, e⟩ := y5 idx hi
    exact ⟨_, List.getElem?_eq_getElem h, fun p => open_word e p⟩

/-- Openings of 128-bit words. -/
theorem open_wide {y x : Priv} {idx idx' : List ℕ} {s s' : List ℕ} (hy : y.IsInt s) (hx : x.IsInt s')
    (h0 : ReadsAs y x (idx ++ [0]) (idx' ++ [0])) (h1 : ReadsAs y x (idx ++ [1]) (idx' ++ [1])) (p : Option (Fin 3)) :
    y.openWith Rec.wide idx p = x.openWith Rec.wide idx' p := by
  have key : ∀ i j, (y.shares i j).wide idx = (x.shares i j).wide idx' := by
    intro i j
    obtain ⟨t, e1, _⟩ := hy i j
    obtain ⟨u, e2, _⟩ := hx i j
    have f0 := h0 i j
    have f1 := h1 i j
    rw [e1, e2] at f0 f1 ⊢
    have f0' : t.get (idx ++ [0]) = u.get (idx' ++ [0]) := f0
    have f1' : t.get (idx ++ [1]) = u.get (idx' ++ [1]) := f1
    show I128.load (t.get (idx ++ [0]), t.get (idx ++ [1])) = I128.load (u.get (idx' ++ [0]), u.get (idx' ++ [1]))
    rw [f0', f1']
  rcases p with _ | p
  · simp [Priv.openWith, key]
  · fin_cases p <;> simp [Priv.openWith, key]

theorem inShape_snoc : ∀ {s idx : List ℕ} {d l : ℕ}, InShape s idx → l < d → InShape (s ++ [d]) (idx ++ [l])
  | [], [], _, _, _, h => ⟨h, trivial⟩
  | _ :: _, _ :: _, _, _, h, hl => ⟨h.1, inShape_snoc h.2 hl⟩
  | [], _ :: _, _, _, h, _ => absurd h (by simp [InShape])
  | _ :: _, [], _, _, h, _ => absurd h (by simp [InShape])

/-- **The same with 128-bit words.** The caller's list has one more entry afterwards. -/
theorem read_back_wide (host : Fin 3 → ℕ) (d : Files) (hist : List Call) (ps : List String) (fileBatch b : ℕ) (rest s : List ℕ) (m q : ℕ)
    (xs : List Priv) (hxs : xs = ps.flatMap fun p => kept p hist) (hd : ∀ p ∈ ps, ∀ i j, d (host i) (fileName p i j) = none)
    (hw : ∀ p ∈ ps, kept p hist ≠ []) (hint : ∀ x ∈ xs, x.IsInt (s ++ [2])) (hlen : xs.length = q * m) (hm : 0 < m) (hq : 0 < q)
    (hk : b / fileBatch = m ∨ q = 1 ∧ m ≤ b / fileBatch) (hout : (b :: rest).prod = m * s.prod) :
    ∃ g, read true host (runWrites host d hist) ps fileBatch (b :: rest) = (b :: rest ++ [2], .ok g) ∧
      ∀ n, ∃ y, g n = .ok y ∧ y.scaled = true ∧ y.kind = .arithmetic ∧ y.IsInt (b :: rest ++ [2]) ∧
        ∀ idx, InShape (b :: rest) idx → ∃ x, xs[n % q * m + flat (b :: rest) idx / s.prod]? = some x ∧
          ∀ p, y.openWith Rec.wide idx p = x.openWith Rec.wide (unflat s (flat (b :: rest) idx % s.prod)) p := by
  have hk0 : 0 < b / fileBatch := by rcases hk with h | h <;> omega
  have hfb : fileBatch ≠ 0 := fun e => by rw [e, Nat.div_zero] at hk0; omega
  refine ⟨tensorAt host (runWrites host d hist) ps (b / fileBatch) (b :: rest ++ [2]), ?_, fun n => ?_⟩
  · simp only [read, if_true, List.cons_append]
    rw [if_neg hfb, if_neg (by omega)]
  · obtain ⟨y, y1, y2, y3, y4, y5⟩ := tensorAt_batches host d hist ps _ (b :: rest ++ [2]) (s ++ [2]) m q xs hxs hd hw hint hlen hm hq hk
      (by rw [List.prod_append, List.prod_append, hout, Nat.mul_assoc]) n
    refine ⟨y, y1, y2, y3, y4, fun idx hi => ?_⟩
    have hl := I128.inShape_length hi
    have hlt := flat_lt _ _ hi
    have hs0 : 0 < s.prod := Nat.pos_of_ne_zero fun e => by rw [hout, e] at hlt; simp at hlt
    have hdiv : ∀ l < 2, flat (b :: rest ++ [2]) (idx ++ [l]) / (s ++ [2]).prod = flat (b :: rest) idx / s.prod ∧
        unflat (s ++ [2]) (flat (b :: rest ++ [2]) (idx ++ [l]) % (s ++ [2]).prod) = unflat s (flat (b :: rest) idx % s.prod) ++ [l] := by
      intro l hl2
      rw [I128.flat_snoc hl, List.prod_append, List.prod_singleton]
      generalize flat (b :: rest) idx = f
      have hd := Nat.mod_add_div f s.prod
      have hmod : f % s.prod < s.prod := Nat.mod_lt _ hs0
      have e : f * 2 + l = (f % s.prod * 2 + l) + s.prod * 2 * (f / s.prod) := by
        have : f * 2 = f % s.prod * 2 + s.prod * 2 * (f / s.prod) := by
          rw [Nat.mul_right_comm, ← Nat.add_mul, hd]
        omega
      have hb : f % s.prod * 2 + l < s.prod * 2 := by omega
      rw [e, Nat.add_mul_div_left _ _ (by omega), Nat.div_eq_of_lt hb, Nat.zero_add, Nat.add_mul_mod_self_left, Nat.mod_eq_of_lt hb]
      exact ⟨rfl, I128.unflat_snoc' hl2 hmod⟩
    obtain ⟨h, e0⟩ := y5 (idx ++ [0]) (inShape_snoc hi (by decide))
    obtain ⟨_, e1⟩ := y5 (idx ++ [1]) (inShape_snoc hi (by decide))
    simp only [hdiv 0 (by decide)] at h e0
    simp only [hdiv 1 (by decide)] at e1
    exact ⟨_, List.getElem?_eq_getElem h, fun p => open_wide y4 (hint _ (List.getElem_mem h)) e0 e1 p⟩

/-- **One tensor, written and read.** -/
theorem write_read (host : Fin 3 → ℕ) (d : Files) (p : String) (x : Priv) (b : ℕ) (rest : List ℕ) (hb : 0 < b)
    (hd : ∀ i j, d (host i) (fileName p i j) = none) (hint : x.IsInt (b :: rest)) :
    ∃ g, read false host (write host x p false d) [p] b (b :: rest) = (b :: rest, .ok g) ∧
      ∀ n, ∃ y, g n = .ok y ∧ y.scaled = true ∧ y.kind = .arithmetic ∧ y.IsInt (b :: rest) ∧
        ∀ idx, InShape (b :: rest) idx → ∀ pl, y.openWith Rec.word idx pl = x.openWith Rec.word idx pl := by
  obtain ⟨g, g1, g2⟩ := read_back host d [(p, x, false)] [p] b b rest (b :: rest) 1 1 [x] (by simp [kept])
    (by simpa using hd) (by simp [kept]) (by simpa using hint) rfl (by decide) (by decide) (.inl (Nat.div_self hb)) (by simp)
  refine ⟨g, g1, fun n => ?_⟩
  obtain ⟨y, y1, y2, y3, y4, y5⟩ := g2 n
  refine ⟨y, y1, y2, y3, y4, fun idx hi pl => ?_⟩
  obtain ⟨x', e1, e2⟩ := y5 idx hi
  have hlt := flat_lt _ _ hi
  rw [Nat.mod_one, Nat.zero_mul, Nat.zero_add, Nat.div_eq_of_lt hlt] at e1
  simp only [List.getElem?_cons_zero, Option.some.injEq] at e1
  rw [e2, ← e1, Nat.mod_eq_of_lt hlt, unflat_flat _ _ hi]

/-- **Rows**: with `file_batch` the number of rows of each record, row `r` of the `n`-th tensor is the row
number `(n mod q) * k * file_batch + r` of all records one below the other. -/
theorem read_rows (host : Fin 3 → ℕ) (d : Files) (hist : List Call) (ps : List String) (fileBatch k q : ℕ) (rest : List ℕ)
    (xs : List Priv) (hxs : xs = ps.flatMap fun p => kept p hist) (hd : ∀ p ∈ ps, ∀ i j, d (host i) (fileName p i j) = none)
    (hw : ∀ p ∈ ps, kept p hist ≠ []) (hint : ∀ x ∈ xs, x.IsInt (fileBatch :: rest)) (hlen : xs.length = q * k) (hk : 0 < k)
    (hq : 0 < q) (hf : 0 < fileBatch) :
    ∃ g, read false host (runWrites host d hist) ps fileBatch (k * fileBatch :: rest) = (k * fileBatch :: rest, .ok g) ∧
      ∀ n, ∃ y, g n = .ok y ∧ y.scaled = true ∧ y.kind = .arithmetic ∧ y.IsInt (k * fileBatch :: rest) ∧
        ∀ r idx, r < k * fileBatch → InShape rest idx → ∃ x, xs[n % q * k + r / fileBatch]? = some x ∧
          ∀ p, y.openWith Rec.word (r :: idx) p = x.openWith Rec.word (r % fileBatch :: idx) p := by
  obtain ⟨g, g1, g2⟩ := read_back host d hist ps fileBatch (k * fileBatch) rest (fileBatch :: rest) k q xs hxs hd hw hint hlen hk hq
    (.inl (Nat.mul_div_cancel _ hf)) (by simp only [List.prod_cons]; ring)
  refine ⟨g, g1, fun n => ?_⟩
  obtain ⟨y, y1, y2, y3, y4, y5⟩ := g2 n
  refine ⟨y, y1, y2, y3, y4, fun r idx hr hi => ?_⟩
  obtain ⟨x, e1, e2⟩ := y5 (r :: idx) ⟨hr, hi⟩
  have hlt := flat_lt _ _ hi
  have hp : 0 < rest.prod := by omega
  have h1 : flat (k * fileBatch :: rest) (r :: idx) = r * rest.prod + flat rest idx := rfl
  have h2 : (r * rest.prod + flat rest idx) / rest.prod = r := by
    rw [Nat.add_comm, Nat.add_mul_div_right _ _ hp, Nat.div_eq_of_lt hlt, Nat.zero_add]
  have h3 : (r * rest.prod + flat rest idx) / (fileBatch * rest.prod) = r / fileBatch := by
    rw [Nat.mul_comm fileBatch, ← Nat.div_div_eq_div_mul, h2]
  have h4 : (r * rest.prod + flat rest idx) % (fileBatch * rest.prod) = r % fileBatch * rest.prod + flat rest idx := by
    have := Nat.mod_add_div (r * rest.prod + flat rest idx) (fileBatch * rest.prod)
    rw [h3] at this
    have e := Nat.mod_add_div r fileBatch
    have : (r * rest.prod + flat rest idx) % (fileBatch * rest.prod) + fileBatch * (r / fileBatch) * rest.prod =
        r * rest.prod + flat rest idx := by rw [Nat.mul_right_comm]; exact this
    have e' : r * rest.prod = r % fileBatch * rest.prod + fileBatch * (r / fileBatch) * rest.prod := by rw [← Nat.add_mul, e]
    omega
  refine ⟨x, by rw [← e1, h1, List.prod_cons, h3], fun p => ?_⟩
  rw [e2, h1, List.prod_cons, h4]
  have h5 : unflat (fileBatch :: rest) (r % fileBatch * rest.prod + flat rest idx) = r % fileBatch :: idx := by
    show (r % fileBatch * rest.prod + flat rest idx) / rest.prod :: unflat rest ((r % fileBatch * rest.prod + flat rest idx) % rest.prod) = _
    rw [Nat.add_comm, Nat.add_mul_div_right _ _ hp, Nat.div_eq_of_lt hlt, Nat.zero_add, Nat.add_mul_mod_self_right,
      Nat.mod_eq_of_lt hlt, unflat_flat _ _ hi]
  rw [h5]

/-! ## Where it fails -/

/-- **Records left over raise**: if the number of records is not a multiple of the batch, the whole batches of
the first pass are read, and then `InvalidArgumentError` ends the generator, although it is meant to repeat. -/
theorem read_remainder_false (host : Fin 3 → ℕ) (d : Files) (hist : List Call) (ps : List String) (k q r : ℕ) (out s : List ℕ)
    (xs : List Priv) (hxs : xs = ps.flatMap fun p => kept p hist) (hd : ∀ p ∈ ps, ∀ i j, d (host i) (fileName p i j) = none)
    (hw : ∀ p ∈ ps, kept p hist ≠ []) (hint : ∀ x ∈ xs, x.IsInt s) (hlen : xs.length = q * k + r) (hr : 0 < r) (hrk : r < k)
    (hout : out.prod = k * s.prod) (hs : s.prod ≠ 0) :
    (∀ n < q, ∃ y, tensorAt host (runWrites host d hist) ps k out n = .ok y) ∧
      tensorAt host (runWrites host d hist) ps k out q = .error .invalid := by
  have hne : xs ≠ [] := fun e => by rw [e] at hlen; simp at hlen; omega
  have hb : batches k xs.length = q + 1 := by
    rw [batches, hlen, show q * k + r + k - 1 = (r - 1) + k * (q + 1) by rw [Nat.mul_add, Nat.mul_comm k q]; omega,
      Nat.add_mul_div_left _ _ (by omega), Nat.div_eq_of_lt (by omega), Nat.zero_add]
  have key := fun n => tensorAt_kept host d hist ps k n out s xs hxs hd hw hne (by omega) hint
  rw [hb] at key
  constructor
  · intro n hn
    obtain ⟨y, y1, _⟩ := (key n).1 (by
      rw [Nat.mod_eq_of_lt (by omega), hlen, Nat.min_eq_left, hout]
      have := Nat.mul_le_mul_right k (Nat.succ_le_of_lt hn)
      rw [Nat.succ_mul] at this
      omega)
    exact ⟨y, y1⟩
  · refine (key q).2 ?_
    rw [Nat.mod_eq_of_lt (by omega), hlen, Nat.add_sub_cancel_left, Nat.min_eq_right (by omega), hout]
    intro e
    have := Nat.eq_of_mul_eq_mul_right (Nat.pos_of_ne_zero hs) e
    omega

/-- **With 128-bit words a shape list can be used only once**: `read` has appended to it, and the tensors of
the second `read` with the same list raise. -/
theorem read_shared_list_false (host : Fin 3 → ℕ) (d : Files) (hist : List Call) (ps : List String) (fileBatch b : ℕ) (rest s : List ℕ)
    (k q : ℕ) (xs : List Priv) (hxs : xs = ps.flatMap fun p => kept p hist) (hd : ∀ p ∈ ps, ∀ i j, d (host i) (fileName p i j) = none)
    (hw : ∀ p ∈ ps, kept p hist ≠ []) (hint : ∀ x ∈ xs, x.IsInt (s ++ [2])) (hlen : xs.length = q * k) (hk0 : 0 < k) (hq : 0 < q)
    (hk : b / fileBatch = k) (hout : (b :: rest).prod = k * s.prod) (hs : s.prod ≠ 0) :
    ∃ g, (read true host (runWrites host d hist) ps fileBatch
        (read true host (runWrites host d hist) ps fileBatch (b :: rest)).1).2 = .ok g ∧ g 0 = .error .invalid := by
  have hfb : fileBatch ≠ 0 := fun e => by rw [e, Nat.div_zero] at hk; omega
  have hne : xs ≠ [] := fun e => by
    rw [e] at hlen
    have := Nat.mul_pos hq hk0
    simp at hlen
    omega
  refine ⟨tensorAt host (runWrites host d hist) ps k (b :: rest ++ [2] ++ [2]), ?_, ?_⟩
  · simp only [read, if_true, List.cons_append]
    rw [if_neg hfb, if_neg (by omega), hk]
  · refine (tensorAt_kept host d hist ps k 0 _ _ xs hxs hd hw hne hk0 hint).2 ?_
    have h1 : k ≤ q * k := Nat.le_mul_of_pos_left k hq
    rw [Nat.zero_mod, Nat.zero_mul, Nat.sub_zero, hlen, Nat.min_eq_left h1]
    simp only [List.prod_append, List.prod_singleton, hout]
    intro e
    have h2 : 0 < k * s.prod := Nat.mul_pos hk0 (Nat.pos_of_ne_zero hs)
    rw [← Nat.mul_assoc] at e
    omega

/-- **Unscaled tensors come back divided by the scaling factor.** -/
theorem read_unscaled_false (frac : ℕ) (host : Fin 3 → ℕ) (d : Files) (p : String) (x : Priv) (b : ℕ) (rest : List ℕ) (hb : 0 < b)
    (hd : ∀ i j, d (host i) (fileName p i j) = none) (hint : x.IsInt (b :: rest)) (hx : x.scaled = false) :
    ∃ g, read false host (write host x p false d) [p] b (b :: rest) = (b :: rest, .ok g) ∧
      ∃ y, g 0 = .ok y ∧ ∀ idx, InShape (b :: rest) idx → ∀ pl,
        decoded frac y.scaled (y.openWith Rec.word idx pl) = decoded frac x.scaled (x.openWith Rec.word idx pl) / 2 ^ frac := by
  obtain ⟨g, g1, g2⟩ := write_read host d p x b rest hb hd hint
  obtain ⟨y, y1, y2, _, _, y5⟩ := g2 0
  refine ⟨g, g1, y, y1, fun idx hi pl => ?_⟩
  rw [y5 idx hi pl, y2, hx]
  simp [decoded]

/-- A sharing with the same three words at every index. -/
def constant (s : List ℕ) (w : Fin 3 → BitVec 64) (scaled : Bool) (kind : Kind) : Priv :=
  ⟨fun i j => .int ⟨s, fun _ => w ⟨(i.val + j.val) % 3, Nat.mod_lt _ (by decide)⟩⟩, scaled, kind⟩

theorem constant_isInt (s : List ℕ) (w : Fin 3 → BitVec 64) (scaled : Bool) (kind : Kind) : (constant s w scaled kind).IsInt s :=
  fun _ _ => ⟨_, rfl, rfl⟩

/-- **Boolean sharings come back as arithmetic ones**: the bits 1, 1, 1, a sharing of 1, open to 3. -/
theorem read_boolean_false (host : Fin 3 → ℕ) (d : Files) (p : String) (hd : ∀ i j, d (host i) (fileName p i j) = none) :
    ∃ x : Priv, x.kind = .boolean ∧
      (x.shares 0 0).word [0] ^^^ (x.shares 0 1).word [0] ^^^ (x.shares 2 0).word [0] = 1 ∧
      ∃ g, read false host (write host x p false d) [p] 1 [1] = ([1], .ok g) ∧ ∃ y, g 0 = .ok y ∧ y.kind = .arithmetic ∧
        ∀ pl, y.openWith Rec.word [0] pl = 3 := by
  obtain ⟨g, g1, g2⟩ := write_read host d p (constant [1] (fun _ => 1) false .boolean) 1 [] (by decide) hd (constant_isInt _ _ _ _)
  obtain ⟨y, y1, _, y3, _, y5⟩ := g2 0
  refine ⟨constant [1] (fun _ => 1) false .boolean, rfl, by decide, g, g1, y, y1, y3, fun pl => ?_⟩
  rw [y5 [0] (by simp [InShape]) pl]
  rcases pl with _ | pl
  · decide
  · fin_cases pl <;> decide

/-- **Tensors of booleans (`bool_factory`) can be written but not read.** -/
theorem read_bool_false (host : Fin 3 → ℕ) (d : Files) (p : String) (x : Priv) (t : Ten Bool) (hx : x.shares 0 0 = .bool t) (k : ℕ) (hk : 0 < k)
    (out : List ℕ) : tensorAt host (write host x p false d) [p] k out 0 = .error .invalid := by
  refine tensorAt_error _ _ _ _ _ _ _ ?_
  have : write host x p false d (host 0) (fileName p 0 0) = some [.bool t] := by
    rw [write_own, hx]
    rfl
  obtain ⟨k, rfl⟩ := Nat.exists_eq_succ_of_ne_zero (Nat.pos_iff_ne_zero.1 hk)
  simp [shareAt, records, this, batchAt, decodeAll]

theorem records_congr (d d' : Files) (m : ℕ) (i : Fin 3) (j : Fin 2) : ∀ ps : List String,
    (∀ p ∈ ps, d m (fileName p i j) = d' m (fileName p i j)) → records d m i j ps = records d' m i j ps
  | [], _ => rfl
  | p :: ps, h => by
      rw [records, records, h p List.mem_cons_self, records_congr d d' m i j ps fun q hq => h q (List.mem_cons_of_mem _ hq)]

/-- Reading depends on the files of the prefixes only. -/
theorem tensorAt_congr (host : Fin 3 → ℕ) (d d' : Files) (ps : List String) (h : ∀ p ∈ ps, ∀ i j, d (host i) (fileName p i j) = d' (host i) (fileName p i j))
    (k : ℕ) (out : List ℕ) (n : ℕ) : tensorAt host d ps k out n = tensorAt host d' ps k out n := by
  have : ∀ i j, shareAt host d ps k out n i j = shareAt host d' ps k out n i j := fun i j => by
    rw [shareAt, shareAt, records_congr d d' (host i) i j ps fun p hp => h p hp i j]
  unfold tensorAt
  simp only [this]

/-- The shares of `y` where a write got through, and of `x` elsewhere. -/
def mixed (x y : Priv) (S : Fin 3 → Fin 2 → Bool) : Priv :=
  ⟨fun i j => if S i j then y.shares i j else x.shares i j, x.scaled, x.kind⟩

/-- **An interrupted overwrite leaves neither the old nor the new tensor, and reading it raises nothing.**
A zero is overwritten by a seven, and some but not all of the six writes are carried out, whichever: then
some server opens a number that is neither. -/
theorem write_crash_false (host : Fin 3 → ℕ) (d : Files) (p : String) (hd : ∀ i j, d (host i) (fileName p i j) = none)
    (ops : List (Fin 3 × Fin 2)) (hn : ops.Nodup) (h0 : ops ≠ []) (h1 : ∃ o, o ∉ ops) :
    ∃ x y : Priv, (∀ pl, x.openWith Rec.word [0] pl = 0) ∧ (∀ pl, y.openWith Rec.word [0] pl = 7) ∧
      ∃ g, read false host (writeSome host y p false ops (write host x p false d)) [p] 1 [1] = ([1], .ok g) ∧ ∃ z, g 0 = .ok z ∧
        ∃ i, z.openWith Rec.word [0] (some i) ≠ 0 ∧ z.openWith Rec.word [0] (some i) ≠ 7 := by
  let x := constant [1] ![0, 0, 0] true .arithmetic
  let y := constant [1] ![1, 2, 4] true .arithmetic
  let S : Fin 3 → Fin 2 → Bool := fun i j => decide ((i, j) ∈ ops)
  have hint : (mixed x y S).IsInt [1] := by
    intro i j
    simp only [mixed]
    split
    · exact constant_isInt _ _ _ _ i j
    · exact constant_isInt _ _ _ _ i j
  obtain ⟨g, g1, g2⟩ := write_read host d p (mixed x y S) 1 [] (by decide) hd hint
  obtain ⟨z, z1, _, _, _, z5⟩ := g2 0
  refine ⟨x, y, ?_, ?_, _, rfl, z, ?_, ?_⟩
  · rintro (_ | pl)
    · decide
    · fin_cases pl <;> decide
  · rintro (_ | pl)
    · decide
    · fin_cases pl <;> decide
  · have e : g = tensorAt host (write host (mixed x y S) p false d) [p] 1 [1] := by
      have := congrArg Prod.snd g1
      simp only [read, Bool.false_eq_true, if_false] at this
      simpa using this.symm
    rw [e] at z1
    rw [← z1]
    show tensorAt host _ [p] 1 [1] 0 = _
    refine tensorAt_congr _ _ _ _ ?_ _ _ _
    intro q hq i j
    cases List.mem_singleton.1 hq
    rw [write_own]
    by_cases hm : (i, j) ∈ ops
    · rw [writeSome_mem host y p false i j ops _ hn hm]
      simp [newFile, mixed, S, hm]
    · rw [writeSome_other host y p false _ _ ops _, write_own]
      · simp [newFile, mixed, S, hm]
      · rintro ⟨a, b⟩ ho ⟨_, e2⟩
        obtain ⟨_, rfl, rfl⟩ := fileName_inj e2
        exact hm ho
  · have hS : ∃ i j, S i j = true := by
      obtain ⟨⟨i, j⟩, r, e⟩ := List.exists_cons_of_ne_nil h0
      exact ⟨i, j, by simp [S, e]⟩
    have hS' : ∃ i j, S i j = false := by
      obtain ⟨⟨i, j⟩, ho⟩ := h1
      exact ⟨i, j, by simp [S, ho]⟩
    have hz := fun pl => z5 [0] (by simp [InShape]) pl
    simp only [hz]
    have key : ∀ a b c e f h : Bool, (∃ i j, ![![a, b], ![c, e], ![f, h]] i j = true) → (∃ i j, ![![a, b], ![c, e], ![f, h]] i j = false) →
        ∃ i, (mixed x y ![![a, b], ![c, e], ![f, h]]).openWith Rec.word [0] (some i) ≠ 0 ∧
          (mixed x y ![![a, b], ![c, e], ![f, h]]).openWith Rec.word [0] (some i) ≠ 7 := by decide +kernel
    have hfun : S = ![![S 0 0, S 0 1], ![S 1 0, S 1 1], ![S 2 0, S 2 1]] := by
      funext i j
      fin_cases i <;> fin_cases j <;> rfl
    rw [hfun] at hS hS' ⊢
    exact key _ _ _ _ _ _ hS hS'

/-- **An interrupted append spoils everything appended later**: after a zero, the first write of an append
of seven, and a complete append of another zero, the second tensor read opens to one on server 0, and nothing
raises. -/
theorem append_crash_false (host : Fin 3 → ℕ) (d : Files) (p : String) (hd : ∀ i j, d (host i) (fileName p i j) = none) :
    ∃ x y : Priv, (∀ pl, x.openWith Rec.word [0] pl = 0) ∧
      ∃ z, tensorAt host (write host x p true (writeSome host y p true [(0, 0)] (write host x p false d))) [p] 1 [1] 1 = .ok z ∧
        z.openWith Rec.word [0] (some 0) = 1 := by
  let x := constant [1] ![0, 0, 0] true .arithmetic
  let y := constant [1] ![1, 2, 4] true .arithmetic
  let t : BitVec 64 → Ten (BitVec 64) := fun v => ⟨[1], fun _ => v⟩
  have hx : ∀ i j, x.shares i j = .int (t 0) := by
    intro i j
    fin_cases i <;> fin_cases j <;> rfl
  have h00 : write host x p true (writeSome host y p true [(0, 0)] (write host x p false d)) (host 0) (fileName p 0 0) =
      some [.int (t 0), .int (t 1), .int (t 0)] := by
    rw [write_own, writeSome_mem _ _ _ _ _ _ _ _ (by simp) (by simp), write_own, hx]
    rfl
  have hij : ∀ i j, (i, j) ≠ ((0 : Fin 3), (0 : Fin 2)) →
      write host x p true (writeSome host y p true [(0, 0)] (write host x p false d)) (host i) (fileName p i j) =
        some [.int (t 0), .int (t 0)] := by
    intro i j hne
    rw [write_own, writeSome_other, write_own, hx]
    · rfl
    · rintro ⟨a, b⟩ ho ⟨_, e2⟩
      obtain ⟨_, rfl, rfl⟩ := fileName_inj e2
      exact hne (List.mem_singleton.1 ho)
  have s00 : ∃ u, shareAt host (write host x p true (writeSome host y p true [(0, 0)] (write host x p false d))) [p] 1 [1] 1 0 0 = .ok u ∧
      u.get [0] = 1 := by
    rw [shareAt, records, h00]
    obtain ⟨u, e1, _, e3⟩ := (batchAt_chunk 1 [1] [1] [t 0, t 1, t 0] 1 (by decide) (by simp) (by simp [t])).2.1 (by decide)
    exact ⟨u, e1, by rw [e3 [0] (t 1) (by simp [InShape]) (by simp [batches, flat])]⟩
  have sij : ∀ i j, (i, j) ≠ ((0 : Fin 3), (0 : Fin 2)) → ∃ u,
      shareAt host (write host x p true (writeSome host y p true [(0, 0)] (write host x p false d))) [p] 1 [1] 1 i j = .ok u ∧
      u.get [0] = 0 := by
    intro i j hne
    rw [shareAt, records, hij i j hne]
    obtain ⟨u, e1, _, e3⟩ := (batchAt_chunk 1 [1] [1] [t 0, t 0] 1 (by decide) (by simp) (by simp [t])).2.1 (by decide)
    exact ⟨u, e1, by rw [e3 [0] (t 0) (by simp [InShape]) (by simp [batches, flat])]⟩
  have key : ∀ i j, ∃ u,
      shareAt host (write host x p true (writeSome host y p true [(0, 0)] (write host x p false d))) [p] 1 [1] 1 i j = .ok u ∧
      u.get [0] = if (i, j) = ((0 : Fin 3), (0 : Fin 2)) then 1 else 0 := by
    intro i j
    by_cases e : (i, j) = ((0 : Fin 3), (0 : Fin 2))
    · cases e
      exact s00
    · rw [if_neg e]
      exact sij i j e
  choose u u1 u2 using key
  obtain ⟨z, z1, _, _, z4⟩ := tensorAt_ok host _ [p] 1 [1] 1 u u1
  refine ⟨x, y, ?_, z, z1, ?_⟩
  · rintro (_ | pl)
    · decide
    · fin_cases pl <;> decide
  · simp only [Priv.openWith, z4, Rec.word, u2]
    decide

/-! ## The hypotheses can be met -/

/-- Two prefixes, one overwritten and appended to: three records of two rows, read three at a time. -/
example : ∃ g, read false (fun _ => 0) (runWrites (fun _ => 0) (fun _ _ => none)
      [("a", constant [2, 3] ![9, 9, 9] true .arithmetic, true), ("b", constant [2, 3] ![1, 2, 3] true .arithmetic, true),
       ("a", constant [2, 3] ![4, 5, 6] true .arithmetic, false), ("a", constant [2, 3] ![7, 8, 9] true .arithmetic, true)])
      ["a", "b"] 2 [6, 3] = ([6, 3], .ok g) ∧ ∀ n, ∃ y, g n = .ok y ∧ y.openWith Rec.word [2, 1] none = 24 := by
  have hk : (["a", "b"].flatMap fun p => kept p
      [("a", constant [2, 3] ![9, 9, 9] true .arithmetic, true), ("b", constant [2, 3] ![1, 2, 3] true .arithmetic, true),
       ("a", constant [2, 3] ![4, 5, 6] true .arithmetic, false), ("a", constant [2, 3] ![7, 8, 9] true .arithmetic, true)]) =
      [constant [2, 3] ![4, 5, 6] true .arithmetic, constant [2, 3] ![7, 8, 9] true .arithmetic, constant [2, 3] ![1, 2, 3] true .arithmetic] := by
    simp [kept]
  obtain ⟨g, g1, g2⟩ := read_rows (fun _ => 0) (fun _ _ => none)
      [("a", constant [2, 3] ![9, 9, 9] true .arithmetic, true), ("b", constant [2, 3] ![1, 2, 3] true .arithmetic, true),
       ("a", constant [2, 3] ![4, 5, 6] true .arithmetic, false), ("a", constant [2, 3] ![7, 8, 9] true .arithmetic, true)]
      ["a", "b"] 2 3 1 [3] _ hk.symm (fun _ _ _ _ => rfl) (by simp [kept])
      (by
        intro x hx
        simp only [List.mem_cons, List.not_mem_nil, or_false] at hx
        rcases hx with rfl | rfl | rfl <;> exact constant_isInt _ _ _ _) rfl (by decide) (by decide) (by decide)
  refine ⟨g, g1, fun n => ?_⟩
  obtain ⟨y, y1, _, _, _, y5⟩ := g2 n
  obtain ⟨x, e1, e2⟩ := y5 2 [1] (by decide) (by simp [InShape])
  refine ⟨y, y1, ?_⟩
  rw [e2 none]
  rw [Nat.mod_one] at e1
  have : x = constant [2, 3] ![7, 8, 9] true .arithmetic := by simpa using e1.symm
  rw [this]
  decide

end Verif.Aby3.Disk
