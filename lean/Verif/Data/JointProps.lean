import Verif.Data.Joint
import Verif.Data.Props

/-!
# C91: joint training on split data

`pass c qs` is what a round should hand out: from every owner, in turn, the batches of its `c`-th pass.
-/

namespace Verif.Data

variable {B R L : Type}

/-! ## Specification -/

/-- An owner whose data are repeated for ever, as an endless sequence of batches, together with the number
of batches that are drawn from it in a row. -/
abbrev Endless (B : Type) := (ℕ → B) × ℕ

/-- The `c`-th portions of all owners, one owner after the other. -/
def pass (c : ℕ) (qs : List (Endless B)) : List B :=
  qs.flatMap fun q => (List.range q.2).map fun i => q.1 (c * q.2 + i)

/-- The `DataOwner` object for such an owner. -/
def Endless.provider (q : Endless B) : Provider B := ⟨fun i => some (q.1 i), some q.2⟩

/-- The elements of `g` from the `k`-th on, at most `c` of them; a `RuntimeError` when there are no more. -/
def series (g : ℕ → Option B) : ℕ → ℕ → List (Except Err B)
  | 0, _ => []
  | c + 1, k =>
    match g k with
    | none => [.error .runtime]
    | some b => .ok b :: series g c (k + 1)

/-! ## Lemmas -/

/-- The iterator has delivered `k` elements. -/
def Reader.At (src : ℕ → Option B) (k : ℕ) (r : Reader B) : Prop :=
  src 0 = some r.owner.first ∧ (k = 0 → r.started = false ∧ r.owner.pos = 1) ∧
    (0 < k → r.started = true ∧ r.owner.pos = k)

theorem Reader.At.next {src : ℕ → Option B} {k : ℕ} {r : Reader B} (h : r.At src k) :
    (r.next src).1 = src k ∧ ((src k).isSome → (r.next src).2.At src (k + 1)) := by
  obtain ⟨h0, h1, h2⟩ := h
  unfold Reader.next Owner.next
  rcases Nat.eq_zero_or_pos k with rfl | hk0
  · obtain ⟨hs, hp⟩ := h1 rfl
    rw [hs]
    refine ⟨?_, fun _ => ⟨?_, ?_, ?_⟩⟩
    · simp [h0]
    · simpa using h0
    · omega
    · intro _; simp [hp]
  · obtain ⟨hs, hp⟩ := h2 hk0
    rw [hs, hp, if_pos rfl]
    cases hk : src k with
    | none => exact ⟨rfl, fun h => by cases h⟩
    | some b => exact ⟨rfl, fun _ => ⟨h0, by omega, fun _ => ⟨rfl, rfl⟩⟩⟩

theorem draw_endless {f : ℕ → B} {n k : ℕ} {r : Reader B} (h : r.At (fun i => some (f i)) k) :
    (draw (fun i => some (f i)) n r).1 = (List.range n).map (fun i => .ok (f (k + i))) ∧
      ∃ r', (draw (fun i => some (f i)) n r).2 = some r' ∧ r'.At (fun i => some (f i)) (k + n) := by
  induction n generalizing k r with
  | zero => exact ⟨rfl, r, rfl, h⟩
  | succ n ih =>
    obtain ⟨h1, h2⟩ := h.next
    obtain ⟨h3, r', h4, h5⟩ := ih (h2 rfl)
    unfold draw
    rw [h1]
    refine ⟨?_, r', h4, by rwa [show k + (n + 1) = k + 1 + n by omega]⟩
    dsimp only
    rw [h3, List.range_succ_eq_map, List.map_cons, List.map_map]
    congr 1
    refine List.map_congr_left fun i _ => ?_
    show _ = Except.ok (f (k + (i + 1)))
    rw [show k + (i + 1) = k + 1 + i by omega]

/-- The team after `c` rounds. -/
def Team.At (c : ℕ) (qs : List (Endless B)) (t : Team B) : Prop :=
  List.Forall₂ (fun (q : Endless B) (s : Provider B × Reader B) => s.1 = q.provider ∧ s.2.At q.provider.src (c * q.2)) qs t

theorem round_endless {c : ℕ} {qs : List (Endless B)} {t : Team B} (h : t.At c qs) :
    (round t).1 = (pass c qs).map .ok ∧ ∃ t', (round t).2 = some t' ∧ Team.At (c + 1) qs t' := by
  unfold Team.At at h ⊢
  induction h with
  | nil => exact ⟨rfl, [], rfl, .nil⟩
  | @cons q s qs t hq ht ih =>
    obtain ⟨p, r⟩ := s
    obtain ⟨hp, hr⟩ := hq
    dsimp only at hp hr
    subst hp
    obtain ⟨h1, r', h2, h3⟩ := draw_endless (n := q.2) hr
    obtain ⟨h4, t', h5, h6⟩ := ih
    unfold round
    dsimp only [Endless.provider]
    rw [h2]
    dsimp only
    refine ⟨?_, (⟨fun i => some (q.1 i), some q.2⟩, r') :: t', ?_, .cons ⟨rfl, ?_⟩ h6⟩
    · rw [h1, h4]
      unfold pass
      rw [List.flatMap_cons, List.map_append, List.map_map]
      rfl
    · rw [h5]; rfl
    · dsimp only
      rwa [Nat.succ_mul]

theorem assemble_endless {qs : List (Endless B)} {t : Team B} (h : assemble (qs.map Endless.provider) = .ok t) :
    Team.At 0 qs t := by
  unfold Team.At
  induction qs generalizing t with
  | nil => cases h; exact .nil
  | cons q qs ih =>
    rw [List.map_cons] at h
    unfold assemble at h
    simp only [Endless.provider, Owner.init, bind, Except.bind, pure, Except.pure] at h
    split at h
    · cases h
    · rename_i t' ht
      cases h
      refine .cons ⟨rfl, rfl, fun _ => ⟨rfl, rfl⟩, fun h => ?_⟩ (ih ht)
      simp at h

theorem assemble_ok (qs : List (Endless B)) : ∃ t, assemble (qs.map Endless.provider) = .ok t := by
  induction qs with
  | nil => exact ⟨_, rfl⟩
  | cons q qs ih =>
    obtain ⟨t, ht⟩ := ih
    rw [List.map_cons]
    unfold assemble
    simp only [Endless.provider, Owner.init, bind, Except.bind, pure, Except.pure]
    rw [ht]
    exact ⟨_, rfl⟩

theorem horizontal_at {c k : ℕ} {qs : List (Endless B)} {t : Team B} (h : t.At k qs) :
    horizontal c t = ((List.range c).flatMap fun e => pass (k + e) qs).map .ok := by
  induction c generalizing k t with
  | zero => rfl
  | succ c ih =>
    obtain ⟨h1, t', h2, h3⟩ := round_endless h
    unfold horizontal
    rw [h2]
    dsimp only
    rw [h1, ih h3, List.range_succ_eq_map, List.flatMap_cons, List.map_append, List.flatMap_map]
    congr 2
    refine List.flatMap_congr fun e _ => ?_
    rw [show k + 1 + e = k + (e + 1) by omega]

theorem pass_length (c : ℕ) (qs : List (Endless B)) : (pass c qs).length = (qs.map Prod.snd).sum := by
  induction qs with
  | nil => rfl
  | cons q qs ih =>
    unfold pass at ih ⊢
    rw [List.flatMap_cons, List.length_append, ih]
    simp

/-! ## C91, horizontal split -/

/-- **C91** (horizontal split, what is handed out). From owners whose data are repeated for ever, the `e`-th
round of `horizontal_combine` takes as many *batches* as the owner has announced *samples*, from one owner
after the other. -/
theorem horizontal_rounds (qs : List (Endless B)) (c : ℕ) :
    ∃ t, assemble (qs.map Endless.provider) = .ok t ∧
      horizontal c t = ((List.range c).flatMap fun e => pass e qs).map .ok := by
  obtain ⟨t, ht⟩ := assemble_ok qs
  refine ⟨t, ht, ?_⟩
  rw [horizontal_at (assemble_endless ht)]
  simp only [Nat.zero_add]

theorem flat_slice {A : Type} {f : ℕ → List A} {S : ℕ} (hS : ∀ e, (f e).length = S) {c e : ℕ} (he : e < c) :
    (((List.range c).flatMap f).drop (e * S)).take S = f e := by
  induction c generalizing f e with
  | zero => omega
  | succ c ih =>
    rw [List.range_succ_eq_map, List.flatMap_cons, List.flatMap_map]
    cases e with
    | zero =>
      rw [Nat.zero_mul, List.drop_zero, List.take_append_of_le_length (hS 0).ge]
      exact List.take_of_length_le (hS 0).le
    | succ e =>
      rw [Nat.succ_mul, Nat.add_comm, ← List.drop_drop, List.drop_append_of_le_length (hS 0).ge,
        List.drop_of_length_le (hS 0).le, List.nil_append]
      exact ih (f := fun e => f (e + 1)) (fun e => hS (e + 1)) (by omega)

/-- **C91** (horizontal split, epochs). With as many steps to an epoch as all owners announce together, the
`e`-th epoch sees the `e`-th portion of every owner. -/
theorem horizontal_epoch (qs : List (Endless B)) {c e : ℕ} (he : e < c) {t : Team B}
    (ht : assemble (qs.map Endless.provider) = .ok t) :
    ((horizontal c t).drop (e * (qs.map Prod.snd).sum)).take (qs.map Prod.snd).sum = (pass e qs).map .ok := by
  obtain ⟨t', ht', h⟩ := horizontal_rounds qs c
  rw [ht] at ht'
  cases ht'
  rw [h, ← List.map_drop, ← List.map_take, flat_slice (fun e => pass_length e qs) he]

/-- **C91** (horizontal split, only the first owner is used). Until the first owner has delivered as many
batches as it has samples, no other owner is asked. -/
theorem horizontal_first_only (q : Endless B) (qs : List (Endless B)) {c n : ℕ} (hc : 0 < c) (hn : n < q.2) {t : Team B}
    (ht : assemble ((q :: qs).map Endless.provider) = .ok t) : (horizontal c t)[n]? = some (.ok (q.1 n)) := by
  obtain ⟨t', ht', h⟩ := horizontal_rounds (q :: qs) c
  rw [ht] at ht'
  cases ht'
  obtain ⟨c, rfl⟩ : ∃ d, c = d + 1 := ⟨c - 1, by omega⟩
  rw [h, List.range_succ_eq_map, List.flatMap_cons, List.map_append]
  have h1 : ∀ l : List B, (pass 0 (q :: qs)).map Except.ok ++ l.map (Except.ok (ε := Err)) =
      (List.range q.2).map (fun i => Except.ok (q.1 i)) ++ ((pass 0 qs).map .ok ++ l.map .ok) := fun l => by
    unfold pass
    rw [List.flatMap_cons, List.map_append, List.map_map, List.append_assoc]
    congr 2
    funext i
    simp
  rw [h1, List.getElem?_append_left (by simpa using hn), List.getElem?_map, List.getElem?_range hn]
  rfl

/-- An owner of the samples `a`, ..., `b - 1` of the training set, in batches of `batch`, whose batches are the
sequence `f`. -/
def Owns (raw : Bool → Raw R L) (sh : Shuffle) (batch a b : ℕ) (f : ℕ → List (Rec R L)) : Prop :=
  ∃ (ds : DS) (disk : Disk R L),
    ((DS.mk' batch true).bind fun d => d.getitem (.slice (Slc.of a b))) = .ok ds ∧ Right raw disk ∧
      ∀ i, session raw sh true true ds disk i = .ok (some (f i))

/-- The record of sample `n`. -/
def sample (raw : Bool → Raw R L) (n : ℕ) : Rec R L := ⟨(raw true).images[n]?, (raw true).labels[n]?⟩

/-- Such an owner follows a schedule over its own samples. -/
theorem owns_schedule {raw : Bool → Raw R L} {sh : Shuffle} {batch a b : ℕ} (hb : 0 < batch)
    (hraw : (raw true).Ok true) (hab : a < b) (hbN : b ≤ 60000) {f : ℕ → List (Rec R L)}
    (h : Owns raw sh batch a b f) :
    ∃ idx : ℕ → List ℕ, Schedule (b - a) batch true (fun i => some (idx i)) ∧
      ∀ i, f i = (idx i).map fun n => sample raw (a + n) := by
  obtain ⟨ds, disk, hds, hr, hf⟩ := h
  obtain ⟨-, idx, hs, hsess⟩ := horizontal_split raw sh batch hb true hraw a b hab hbN ds hds
  have hsome : ∀ i, ∃ l, idx i = some l ∧ f i = l.map fun n => sample raw (a + n) := fun i => by
    have := hsess true true disk (.inl rfl) hr i
    rw [hf i] at this
    cases hi : idx i with
    | none => rw [hi] at this; cases this
    | some l =>
      rw [hi] at this
      refine ⟨l, rfl, ?_⟩
      simpa [sample] using this
  choose idx' h1 h2 using hsome
  refine ⟨idx', ?_, h2⟩
  rw [show (fun i => some (idx' i)) = idx from funext fun i => (h1 i).symm]
  exact hs

/-- **C91** (horizontal split, false). The example `horizontal-training.py`: three owners of 20000 samples each,
batches of 128, five epochs of 468 steps. Every step of the training sees samples of the first owner only; the
40000 samples of the other two are never used. -/
theorem horizontal_example_false {raw : Bool → Raw R L} {sh : Shuffle} (hraw : (raw true).Ok true)
    {f₀ f₁ f₂ : ℕ → List (Rec R L)} (h₀ : Owns raw sh 128 0 20000 f₀) {t : Team (List (Rec R L))}
    (ht : assemble ([(f₀, 20000), (f₁, 20000), (f₂, 20000)].map Endless.provider) = .ok t) {c : ℕ} (hc : 0 < c) :
    ∀ n < 5 * (60000 / 128), ∃ l : List ℕ, (∀ x ∈ l, x < 20000) ∧ l.length = 128 ∧
      (horizontal c t)[n]? = some (.ok (l.map (sample raw))) := by
  intro n hn
  obtain ⟨idx, hs, hf⟩ := owns_schedule (by decide) hraw (by decide) (Nat.le_of_ble_eq_true rfl) h₀
  refine ⟨idx n, fun x hx => hs.range n _ rfl x hx, hs.size n _ rfl, ?_⟩
  have := horizontal_first_only (f₀, 20000) [(f₁, 20000), (f₂, 20000)] hc (n := n)
    (by norm_num at hn; show n < 20000; omega) ht
  rw [this, show (f₀, 20000).1 n = f₀ n from rfl, hf n]
  simp

/-- One owner of a horizontal split: the samples `a`, ..., `b - 1` and the sequence of batches. -/
structure Share (R L : Type) where
  a : ℕ
  b : ℕ
  f : ℕ → List (Rec R L)

/-- **C91** (horizontal split, `_partial`). If the owners announce the number of their *batches* instead of the
number of their samples, every epoch sees, from every owner in turn, batches of its own samples, no sample
twice, and all samples of owners whose number of samples the batch size divides. -/
theorem horizontal_pass_partial {raw : Bool → Raw R L} {sh : Shuffle} {batch : ℕ} (hb : 0 < batch)
    (hraw : (raw true).Ok true) (os : List (Share R L))
    (hos : ∀ o ∈ os, o.a < o.b ∧ o.b ≤ 60000 ∧ Owns raw sh batch o.a o.b o.f)
    (hdis : os.Pairwise fun o o' => o.b ≤ o'.a) (e : ℕ) :
    ∃ ns : List (List ℕ),
      pass e (os.map fun o => (o.f, (o.b - o.a) / batch)) = ns.map (fun l => l.map (sample raw)) ∧
        (∀ l ∈ ns, l.length = batch) ∧ ns.flatten.Nodup ∧ (∀ x ∈ ns.flatten, ∃ o ∈ os, o.a ≤ x ∧ x < o.b) ∧
        ∀ o ∈ os, batch ∣ o.b - o.a → ∀ x, o.a ≤ x → x < o.b → x ∈ ns.flatten := by
  induction os with
  | nil => exact ⟨[], rfl, by simp, by simp, by simp, by simp⟩
  | cons o os ih =>
    obtain ⟨ns, h1, h2, h3, h4, h5⟩ := ih (fun o' ho' => hos o' (by simp [ho'])) (List.pairwise_cons.1 hdis).2
    obtain ⟨hab, hbN, how⟩ := hos o (by simp)
    obtain ⟨idx, hs, hf⟩ := owns_schedule hb hraw hab hbN how
    set m := (o.b - o.a) / batch with hm
    set ls := (List.range m).map fun i => (idx (e * m + i)).map (o.a + ·) with hls
    have hdiv : ∀ i < m, (e * m + i) / m = e := fun i hi => by
      rw [Nat.mul_comm, Nat.mul_add_div (by omega), Nat.div_eq_of_lt hi, Nat.add_zero]
    have hmem : ∀ x, x ∈ ls.flatten ↔ ∃ i < m, ∃ n ∈ idx (e * m + i), o.a + n = x := fun x => by
      rw [hls]
      simp only [List.mem_flatten, List.mem_map, List.mem_range]
      constructor
      · rintro ⟨_, ⟨i, hi, rfl⟩, hx⟩
        obtain ⟨n, hn, rfl⟩ := List.mem_map.1 hx
        exact ⟨i, hi, n, hn, rfl⟩
      · rintro ⟨i, hi, n, hn, rfl⟩
        exact ⟨_, ⟨i, hi, rfl⟩, List.mem_map.2 ⟨n, hn, rfl⟩⟩
    have hrange : ∀ x ∈ ls.flatten, o.a ≤ x ∧ x < o.b := fun x hx => by
      obtain ⟨i, -, n, hn, rfl⟩ := (hmem x).1 hx
      have := hs.range _ _ rfl n hn
      omega
    refine ⟨ls ++ ns, ?_, ?_, ?_, ?_, ?_⟩
    · rw [List.map_append, ← h1]
      unfold pass
      rw [List.map_cons, List.flatMap_cons]
      congr 1
      rw [hls, List.map_map]
      refine List.map_congr_left fun i _ => ?_
      show o.f _ = _
      rw [hf]
      simp [hm, Function.comp_def]
    · intro l hl
      rcases List.mem_append.1 hl with hl | hl
      · obtain ⟨i, -, rfl⟩ := List.mem_map.1 hl
        rw [List.length_map]
        exact hs.size _ _ rfl
      · exact h2 l hl
    · rw [List.flatten_append]
      refine List.nodup_append.2 ⟨?_, h3, ?_⟩
      · rw [List.nodup_flatten]
        constructor
        · intro l hl
          obtain ⟨i, -, rfl⟩ := List.mem_map.1 hl
          exact (hs.once _ _ rfl).map fun x y h => by simpa using h
        · rw [hls, List.pairwise_map]
          refine List.Pairwise.imp_of_mem (R := fun i j => i < j) ?_ List.pairwise_lt_range
          intro i j hi hj hij
          have hi' := List.mem_range.1 hi
          have hj' := List.mem_range.1 hj
          have hd := hs.apart (e * m + i) (e * m + j) _ _ rfl rfl (by omega) (by
            rw [← hm, hdiv i hi', hdiv j hj'])
          intro x hx hy
          obtain ⟨n, hn, rfl⟩ := List.mem_map.1 hx
          obtain ⟨n', hn', he⟩ := List.mem_map.1 hy
          have : n' = n := by omega
          subst this
          exact hd hn hn'
      · intro x hx y hy hxy
        subst hxy
        obtain ⟨o', ho', h6, h7⟩ := h4 x hy
        have := (List.pairwise_cons.1 hdis).1 o' ho'
        have := hrange x hx
        omega
    · intro x hx
      rw [List.flatten_append] at hx
      rcases List.mem_append.1 hx with hx | hx
      · exact ⟨o, by simp, hrange x hx⟩
      · obtain ⟨o', ho', h⟩ := h4 x hx
        exact ⟨o', by simp [ho'], h⟩
    · intro o' ho' hdvd x hx1 hx2
      rw [List.flatten_append, List.mem_append]
      rcases List.mem_cons.1 ho' with rfl | ho'
      · left
        obtain ⟨i, l, hi, hl, hn⟩ := hs.cover hdvd e (.inl rfl) (x - o'.a) (by omega)
        have hl : idx i = l := by simpa using hl
        subst hl
        have hmpos : 0 < m := by
          rw [hm]
          exact Nat.div_pos (Nat.le_of_dvd (by omega) hdvd) hb
        rw [← hm] at hi
        have hi' : i = e * m + i % m := by
          have := Nat.div_add_mod i m
          rw [hi] at this
          rw [Nat.mul_comm e m]; omega
        refine (hmem x).2 ⟨i % m, Nat.mod_lt _ hmpos, x - o'.a, ?_, by omega⟩
        rwa [← hi']
      · exact .inr (h5 o' ho' hdvd x hx1 hx2)

/-! ## C91, vertical split -/

theorem glueAll_map {x y z w : ℕ → Rec R L} (h : ∀ n, glue (x n) (y n) (z n) = some (w n)) (l : List ℕ) :
    glueAll (l.map x) (l.map y) (l.map z) = .ok (l.map w) := by
  induction l with
  | nil => rfl
  | cons n l ih => simp only [List.map_cons, glueAll, h, ih]

theorem vertical_at {p₀ p₁ p₂ : Provider (List (Rec R L))} {rest : Team (List (Rec R L))} {idx : ℕ → Option (List ℕ)}
    {x y z w : ℕ → Rec R L} (hx : ∀ i, p₀.src i = (idx i).map (List.map x))
    (hy : ∀ i, p₁.src i = (idx i).map (List.map y)) (hz : ∀ i, p₂.src i = (idx i).map (List.map z))
    (hw : ∀ i l, idx i = some l → ∀ n ∈ l, glue (x n) (y n) (z n) = some (w n))
    {c k : ℕ} {r₀ r₁ r₂ : Reader (List (Rec R L))} (h₀ : r₀.At p₀.src k) (h₁ : r₁.At p₁.src k)
    (h₂ : r₂.At p₂.src k) :
    vertical c ((p₀, r₀) :: (p₁, r₁) :: (p₂, r₂) :: rest) = series (fun i => (idx i).map (List.map w)) c k := by
  induction c generalizing k r₀ r₁ r₂ with
  | zero => rfl
  | succ c ih =>
    obtain ⟨e₀, n₀⟩ := h₀.next
    obtain ⟨e₁, n₁⟩ := h₁.next
    obtain ⟨e₂, n₂⟩ := h₂.next
    unfold vertical series
    rw [e₀, e₁, e₂]
    rw [hx] at n₀ ⊢
    rw [hy] at n₁ ⊢
    rw [hz] at n₂ ⊢
    cases hk : idx k with
    | none => rfl
    | some l =>
      rw [hk] at n₀ n₁ n₂
      dsimp only [Option.map_some]
      have hg : glueAll (l.map x) (l.map y) (l.map z) = .ok (l.map w) := by
        have hl := hw k l hk
        clear hk n₀ n₁ n₂
        induction l with
        | nil => rfl
        | cons n l ihl =>
          simp only [List.map_cons, glueAll, hl n (by simp), ihl fun m hm => hl m (by simp [hm])]
      rw [hg]
      dsimp only
      rw [ih (n₀ rfl) (n₁ rfl) (n₂ rfl)]

/-- The owner of rows `a`, ..., `b - 1` of the images, and of the labels if `label`. -/
def OwnsRows (raw : Bool → Raw R L) (sh : Shuffle) (batch : ℕ) (train : Bool) (a b : ℕ) (label : Bool)
    (p : Provider (List (Rec R L))) : Prop :=
  ∃ (ds : DS) (disk : Disk R L),
    ((DS.mk' batch train).bind fun d => d.getitem (.vertical (Slc.of a b))) = .ok ds ∧ Right raw disk ∧
      ∀ i, session raw sh true label ds disk i = .ok (p.src i)

theorem assemble_cons {p : Provider B} {ps : List (Provider B)} {t : Team B} (h : assemble (p :: ps) = .ok t) :
    ∃ r t', t = (p, r) :: t' ∧ r.At p.src 0 ∧ assemble ps = .ok t' := by
  unfold assemble Owner.init at h
  simp only [bind, Except.bind, pure, Except.pure] at h
  cases h0 : p.src 0 with
  | none => rw [h0] at h; cases h
  | some b =>
    rw [h0] at h
    dsimp only at h
    cases ht : assemble ps with
    | error e => rw [ht] at h; cases h
    | ok t' =>
      rw [ht] at h
      cases h
      exact ⟨_, _, rfl, ⟨h0, fun _ => ⟨rfl, rfl⟩, fun h => absurd h (by simp)⟩, rfl⟩

/-- **C91** (vertical split). Three owners hold the rows `0`, ..., `a - 1` with the labels, `a`, ..., `b - 1` and
`b`, ..., `27` of all images. `vertical_combine` yields whole images with their own labels, batch by batch on a
proper schedule; for the training data for ever, for the test data once, and then it raises `RuntimeError`
instead of stopping. Owners beyond the third are ignored. -/
theorem vertical_joined (raw : Bool → Raw R L) (sh : Shuffle) {batch : ℕ} (hb : 0 < batch) (train : Bool)
    (hraw : (raw train).Ok train) {a b : ℕ} (hab : a ≤ b) (hb28 : b ≤ 28) :
    ∃ idx, Schedule (total train) batch train idx ∧
      ∀ (p₀ p₁ p₂ : Provider (List (Rec R L))) (extra : List (Provider (List (Rec R L)))) (t : Team (List (Rec R L))),
        OwnsRows raw sh batch train 0 a true p₀ → OwnsRows raw sh batch train a b false p₁ →
        OwnsRows raw sh batch train b 28 false p₂ → assemble (p₀ :: p₁ :: p₂ :: extra) = .ok t →
        ∀ c, vertical c t = series (fun i => (idx i).map fun l => l.map fun n =>
          ⟨(raw train).images[n]?, (raw train).labels[n]?⟩) c 0 := by
  obtain ⟨idx, hs, hv, -⟩ := vertical_aligned raw sh batch hb train hraw
  refine ⟨idx, hs, ?_⟩
  rintro p₀ p₁ p₂ extra t ⟨d₀, k₀, hd₀, hr₀, hp₀⟩ ⟨d₁, k₁, hd₁, hr₁, hp₁⟩ ⟨d₂, k₂, hd₂, hr₂, hp₂⟩ ht c
  obtain ⟨r₀, t₁, rfl, h₀, ht⟩ := assemble_cons ht
  obtain ⟨r₁, t₂, rfl, h₁, ht⟩ := assemble_cons ht
  obtain ⟨r₂, t₃, rfl, h₂, ht⟩ := assemble_cons ht
  have e₀ := fun i => (hp₀ i).symm.trans (hv 0 a true true k₀ d₀ (by omega) (by omega) (.inl rfl) hr₀ hd₀ i)
  have e₁ := fun i => (hp₁ i).symm.trans (hv a b true false k₁ d₁ hab hb28 (.inl rfl) hr₁ hd₁ i)
  have e₂ := fun i => (hp₂ i).symm.trans (hv b 28 true false k₂ d₂ hb28 le_rfl (.inl rfl) hr₂ hd₂ i)
  refine vertical_at (fun i => Except.ok.inj (e₀ i)) (fun i => Except.ok.inj (e₁ i))
    (fun i => Except.ok.inj (e₂ i)) ?_ h₀ h₁ h₂
  intro i l hi n hn
  have hN := hs.range i l hi n hn
  have hi : n < (raw train).images.length := by rw [hraw.images]; exact hN
  have hl : n < (raw train).labels.length := by rw [hraw.labels]; exact hN
  simp only [List.getElem?_eq_getElem hi, List.getElem?_eq_getElem hl, Option.map_some, if_true, glue]
  rw [rows_join a b 28 hab hb28, rows_join 0 a 28 (by omega) (by omega),
    rows_whole _ (hraw.rows _ (List.getElem_mem hi))]

theorem series_get {g : ℕ → Option B} {c k n : ℕ} (hn : n < c) (h : ∀ i ≤ n, (g (k + i)).isSome) :
    (series g c k)[n]? = (g (k + n)).map .ok := by
  induction n generalizing c k with
  | zero =>
    obtain ⟨c, rfl⟩ : ∃ d, c = d + 1 := ⟨c - 1, by omega⟩
    unfold series
    obtain ⟨b, hb⟩ := Option.isSome_iff_exists.1 (h 0 le_rfl)
    rw [Nat.add_zero] at hb
    simp only [Nat.add_zero, hb]
    rfl
  | succ n ih =>
    obtain ⟨c, rfl⟩ : ∃ d, c = d + 1 := ⟨c - 1, by omega⟩
    unfold series
    obtain ⟨b, hb⟩ := Option.isSome_iff_exists.1 (h 0 (by omega))
    rw [Nat.add_zero] at hb
    rw [hb]
    dsimp only
    rw [List.getElem?_cons_succ, ih (by omega) (fun i hi => by
      have := h (i + 1) (by omega)
      rwa [show k + (i + 1) = k + 1 + i by omega] at this), show k + 1 + n = k + (n + 1) by omega]

theorem series_end {g : ℕ → Option B} {c k m : ℕ} (hm : m < c) (h : ∀ i, (g (k + i)).isSome ↔ i < m) :
    (series g c k).length = m + 1 ∧ (series g c k)[m]? = some (.error .runtime) := by
  induction m generalizing c k with
  | zero =>
    obtain ⟨c, rfl⟩ : ∃ d, c = d + 1 := ⟨c - 1, by omega⟩
    unfold series
    have : g k = none := by
      cases hg : g k with
      | none => rfl
      | some b => exact absurd ((h 0).1 (by rw [Nat.add_zero, hg]; rfl)) (by omega)
    rw [this]
    exact ⟨rfl, rfl⟩
  | succ m ih =>
    obtain ⟨c, rfl⟩ : ∃ d, c = d + 1 := ⟨c - 1, by omega⟩
    unfold series
    obtain ⟨b, hb⟩ := Option.isSome_iff_exists.1 ((h 0).2 (by omega))
    rw [Nat.add_zero] at hb
    rw [hb]
    dsimp only
    obtain ⟨h1, h2⟩ := ih (c := c) (k := k + 1) (by omega) (fun i => by
      rw [show k + 1 + i = k + (i + 1) by omega, h]; omega)
    exact ⟨by rw [List.length_cons, h1], by rw [List.getElem?_cons_succ, h2]⟩

/-- **C91** (vertical split, training data). Every step of the training finds a batch of whole images with their own
labels; no sample comes twice in a pass. -/
theorem vertical_train (raw : Bool → Raw R L) (sh : Shuffle) {batch : ℕ} (hb : 0 < batch) (hB : batch ≤ 60000)
    (hraw : (raw true).Ok true) {a b : ℕ} (hab : a ≤ b) (hb28 : b ≤ 28) :
    ∃ idx : ℕ → List ℕ, Schedule 60000 batch true (fun i => some (idx i)) ∧
      ∀ (p₀ p₁ p₂ : Provider (List (Rec R L))) (extra : List (Provider (List (Rec R L)))) (t : Team (List (Rec R L))),
        OwnsRows raw sh batch true 0 a true p₀ → OwnsRows raw sh batch true a b false p₁ →
        OwnsRows raw sh batch true b 28 false p₂ → assemble (p₀ :: p₁ :: p₂ :: extra) = .ok t →
        ∀ c n, n < c → (vertical c t)[n]? = some (.ok ((idx n).map (sample raw))) := by
  obtain ⟨idx, hs, h⟩ := vertical_joined raw sh hb true hraw hab hb28
  have hsome : ∀ i, (idx i).isSome := fun i => (hs.more i).2
    ⟨(Nat.div_pos hB hb).ne', .inl rfl⟩
  choose idx' h' using fun i => Option.isSome_iff_exists.1 (hsome i)
  refine ⟨idx', ?_, ?_⟩
  · rw [show (fun i => some (idx' i)) = idx from funext fun i => (h' i).symm]
    exact hs
  · intro p₀ p₁ p₂ extra t h₀ h₁ h₂ ht c n hn
    rw [h p₀ p₁ p₂ extra t h₀ h₁ h₂ ht c, series_get hn (fun i _ => by rw [h']; rfl), Nat.zero_add, h']
    rfl

/-- **C91** (vertical split, false). With test data the generator does not stop after the last batch: it raises
`RuntimeError` to its consumer. -/
theorem vertical_end_false (raw : Bool → Raw R L) (sh : Shuffle) {batch : ℕ} (hb : 0 < batch)
    (hraw : (raw false).Ok false) (hB : batch ≤ 10000) {a b : ℕ} (hab : a ≤ b) (hb28 : b ≤ 28)
    {p₀ p₁ p₂ : Provider (List (Rec R L))} {t : Team (List (Rec R L))}
    (h₀ : OwnsRows raw sh batch false 0 a true p₀) (h₁ : OwnsRows raw sh batch false a b false p₁)
    (h₂ : OwnsRows raw sh batch false b 28 false p₂) (ht : assemble [p₀, p₁, p₂] = .ok t) {c : ℕ}
    (hc : 10000 / batch < c) :
    (vertical c t).length = 10000 / batch + 1 ∧ (vertical c t)[10000 / batch]? = some (.error .runtime) := by
  obtain ⟨idx, hs, h⟩ := vertical_joined raw sh hb false hraw hab hb28
  rw [h p₀ p₁ p₂ [] t h₀ h₁ h₂ ht c]
  refine series_end hc fun i => ?_
  rw [Nat.zero_add, Option.isSome_map, hs.more i]
  have := (Nat.div_pos hB hb).ne'
  have ht : total false = 10000 := rfl
  rw [ht]
  simp [this]

/-- **C91** (vertical split, false). With fewer than three owners there is no batch at all. -/
theorem vertical_two_false (t : Team (List (Rec R L))) (ht : t.length < 3) (c : ℕ) :
    vertical (c + 1) t = [.error .index] := by
  match t, ht with
  | [], _ => rfl
  | [_], _ => rfl
  | [_, _], _ => rfl

/-- **C91** (horizontal split, false). An owner that does not announce its number of samples (the default) makes
the combination fail. -/
theorem horizontal_unnumbered_false (p : Provider B) (r : Reader B) (t : Team B) (h : p.num = none) (c : ℕ) :
    horizontal (c + 1) ((p, r) :: t) = [.error .type] := by
  unfold horizontal round
  rw [h]

/-- **C91** (horizontal split, false). Test data of an owner end in a `RuntimeError` if fewer batches are left than
are asked for: the next owner is never reached. -/
theorem horizontal_end_false {p : Provider B} {r : Reader B} {t : Team B} {m n : ℕ} (hp : p.num = some n)
    (hr : r.At p.src 0) (h : ∀ i, (p.src i).isSome ↔ i < m) (hm : m < n) (c : ℕ) :
    (horizontal (c + 1) ((p, r) :: t)).length = m + 1 ∧
      (horizontal (c + 1) ((p, r) :: t))[m]? = some (.error .runtime) := by
  have key : ∀ {n m k r}, Reader.At p.src k r → (∀ i, (p.src (k + i)).isSome ↔ i < m) → m < n →
      draw p.src n r = (series p.src n k, none) := by
    intro n
    induction n with
    | zero => intro m k r _ _ hm; omega
    | succ n ih =>
      intro m k r hr h hm
      obtain ⟨e, hn⟩ := hr.next
      unfold draw series
      rw [e]
      cases hk : p.src k with
      | none => rfl
      | some b =>
        dsimp only
        have hm0 : 0 < m := (h 0).1 (by rw [Nat.add_zero, hk]; rfl)
        rw [ih (m := m - 1) (hn (by rw [hk]; rfl)) (fun i => by
          rw [show k + 1 + i = k + (i + 1) by omega, h]; omega) (by omega)]
  have hd := key hr (fun i => by rw [Nat.zero_add]; exact h i) hm
  have : horizontal (c + 1) ((p, r) :: t) = series p.src n 0 := by
    unfold horizontal round
    rw [hp]
    dsimp only
    rw [hd]
  rw [this]
  exact series_end hm (fun i => by rw [Nat.zero_add]; exact h i)

/-! ## Examples -/

theorem demo_owns (sh : Shuffle) (batch a b : ℕ) (hb : 0 < batch) (hab : a < b) (hbN : b ≤ 60000) (hB : batch ≤ b - a) :
    ∃ f, Owns demoRaw sh batch a b f := by
  have hb' : ¬ batch = 0 := by omega
  have hds : ∃ ds, ((DS.mk' batch true).bind fun d => d.getitem (.slice (Slc.of a b))) = .ok ds := by
    simp only [DS.mk', if_neg hb', Except.bind, DS.getitem]
    exact ⟨_, rfl⟩
  obtain ⟨ds, hds⟩ := hds
  obtain ⟨-, idx, hs, h⟩ := horizontal_split demoRaw sh batch hb true (demoRaw_ok true) a b hab hbN ds hds
  have hsome : ∀ i, (idx i).isSome := fun i => (hs.more i).2 ⟨(Nat.div_pos hB hb).ne', .inl rfl⟩
  choose idx' h' using fun i => Option.isSome_iff_exists.1 (hsome i)
  exact ⟨fun i => _, ds, _, hds, right_empty _, fun i => by
    rw [h true true _ (.inl rfl) (right_empty _) i, h' i]; rfl⟩

example (sh : Shuffle) : ∃ f₀ f₁ f₂ t, Owns demoRaw sh 128 0 20000 f₀ ∧ Owns demoRaw sh 128 20000 40000 f₁ ∧
    Owns demoRaw sh 128 40000 60000 f₂ ∧
    assemble ([(f₀, 20000), (f₁, 20000), (f₂, 20000)].map Endless.provider) = .ok t ∧
    ∃ l : List ℕ, (∀ x ∈ l, x < 20000) ∧ (horizontal 1 t)[2339]? = some (.ok (l.map (sample demoRaw))) := by
  obtain ⟨f₀, h₀⟩ := demo_owns sh 128 0 20000 (by decide) (by decide) (by decide) (by decide)
  obtain ⟨f₁, h₁⟩ := demo_owns sh 128 20000 40000 (by decide) (by decide) (by decide) (by decide)
  obtain ⟨f₂, h₂⟩ := demo_owns sh 128 40000 60000 (by decide) (by decide) (by decide) (by decide)
  obtain ⟨t, ht⟩ := assemble_ok [(f₀, 20000), (f₁, 20000), (f₂, 20000)]
  obtain ⟨l, h3, -, h4⟩ := horizontal_example_false (demoRaw_ok true) h₀ ht (c := 1) (by decide) 2339 (by decide)
  exact ⟨f₀, f₁, f₂, t, h₀, h₁, h₂, ht, l, h3, h4⟩

end Verif.Data
