import Verif.Crt.Model
import Mathlib.Data.Fintype.Card

/-!
# Samplers

Models `operations/secure_random/generators.h` (the rejection sampler and its keystream) and the
samplers of the tensor factories built on it. Words have an arbitrary width `w`.
-/

namespace Verif.Sampling

variable {w : ℕ}

/-- One raw word in `Generator<T>::Uniform(low, high)` (generators.h:60-91), called by `GenerateData`
with `high = maxval - 1` (52, 117). `none`: the word is rejected and replaced by another. The unsigned
arithmetic is modulo `2^w` (for 8 and 16 bits C++ computes in `int`, with the same results). -/
def uniform (minval maxval raw : BitVec w) : Option (BitVec w) :=
  let low := minval
  let high := maxval - 1#w
  let range := high - low + 1#w
  let unsignedMax := BitVec.allOnes w
  let intsToReject := (unsignedMax - range + 1#w) % range
  let zone := unsignedMax - intsToReject
  if zone < raw then none else some (low + raw % range)

/-- The loop `while (unsign > zone)` (generators.h:79-86): the first accepted word decides. `none`: all
the given words were rejected. -/
def draw (minval maxval : BitVec w) : List (BitVec w) → Option (BitVec w)
  | [] => none
  | raw :: rest =>
    match uniform minval maxval raw with
    | some v => some v
    | none => draw minval maxval rest

/-! ## Keystream positions (generators.h:101-147) -/

/-- The state of `SeededGenerator`: `block_counter_`, `inner_block_index_`. -/
structure Gen where
  /-- `uint32 block_counter_` -/
  counter : BitVec 32
  /-- `uint32 inner_block_index_` -/
  inner : ℕ

/-- The constructor (generators.h:106-113): `block_counter_ = bytes_count_ / 64 + 1`; an element has
`size` bytes. -/
def Gen.start (count size : ℕ) : Gen := ⟨BitVec.ofNat 32 (count * size / 64 + 1), 0⟩

/-- A position in the ChaCha20 keystream: the 32-bit block number and the element within the block. -/
abbrev Pos : Type := BitVec 32 × ℕ

/-- `GetNextValidData` (generators.h:122-134): the position that is read, and the new state. `E` is
`elements_per_block_ = 64 / sizeof(T)`. -/
def Gen.next (E : ℕ) (g : Gen) : Pos × Gen :=
  let g' := if g.inner + 1 = E then ⟨g.counter + 1, 0⟩ else g
  ((g'.counter, g'.inner), ⟨g'.counter, g'.inner + 1⟩)

/-- Output element `i` before rejection: `randombytes_buf_deterministic` (generators.h:116) fills the
buffer from block 0 on. -/
def primary (E i : ℕ) : Pos := (BitVec.ofNat 32 (i / E), i % E)

/-- The positions read by `n` calls of `GetNextValidData`. -/
def Gen.reads (E : ℕ) : ℕ → Gen → List Pos
  | 0, _ => []
  | n + 1, g => (g.next E).1 :: Gen.reads E n (g.next E).2

/-- All positions that a run of `Uniform` reads, in order: element `i` reads its primary position and
then as many replacements as it has rejections. -/
def runReads (E : ℕ) : ℕ → List ℕ → Gen → List Pos
  | _, [], _ => []
  | i, rej :: rest, g =>
    primary E i :: (Gen.reads E rej g ++
      runReads E (i + 1) rest ((fun g => (g.next E).2)^[rej] g))

/-- A whole call of the sampler for a tensor of `rejections.length` elements of `size` bytes each;
entry `i` of the list says how many words in a row are rejected for element `i`. -/
def keystream (size : ℕ) (rejections : List ℕ) : List Pos :=
  runReads (64 / size) 0 rejections (Gen.start rejections.length size)

/-! ## Factories -/

/-- `sample_uniform` / `sample_seeded_uniform` of a native factory (native.py:107-131, 133-180), and of
`int128` (int128.py:114-139): `minval = type.min`, `maxval = type.max`, exclusive. -/
def nativeUniform (raw : BitVec w) : Option (BitVec w) :=
  uniform (BitVec.intMin w) (BitVec.intMax w) raw

/-- The same with an explicit modulus (native.py:81-91): `[0, p)`. -/
def explicitUniform (p : ℕ) (raw : BitVec w) : Option (BitVec w) :=
  uniform 0#w (BitVec.ofNat w p) raw

/-- `sample_bounded` of a native factory (native.py:182-201); `none` of the outer option: the
assertion `2 ** bitlength <= self.max` fails. -/
def nativeBounded (bitlength : ℕ) (raw : BitVec w) : Option (Option (BitVec w)) :=
  if 2 ^ bitlength ≤ 2 ^ (w - 1) - 1 then some (uniform 0#w (BitVec.ofNat w (2 ^ bitlength)) raw)
  else none

/-- `sample_uniform` of the boolean factory (boolfactory.py:80-103, 105-133): `[0, 2)` as 32-bit words,
cast to bool. -/
def boolUniform (raw : BitVec 32) : Option Bool :=
  (uniform 0#32 2#32 raw).map fun v => v != 0#32

/-- `sample_uniform` of a CRT factory (int100.py:191-226): residue `i` from `[0, m_i)`, from its own
words. -/
def crtUniform {k : ℕ} (m : Fin k → ℕ) (raw : Fin k → BitVec 32) (i : Fin k) : Option ℤ :=
  (uniform 0#32 (BitVec.ofNat 32 (m i)) (raw i)).map fun v => v.toInt

/-- `sample_seeded_uniform` of a CRT factory (int100.py:228-261). The comprehension variable `mi` is
not in scope; the name refers to the loop variable of line 43, so that every residue is drawn from
`[0, m)` for the last modulus `m`. -/
def crtSeededUniform {k : ℕ} (m : Fin (k + 1) → ℕ) (raw : Fin (k + 1) → BitVec 32) (i : Fin (k + 1)) :
    Option ℤ :=
  (uniform 0#32 (BitVec.ofNat 32 (m (Fin.last k))) (raw i)).map fun v => v.toInt

/-- `_construct_value_from_sampler` of the odd rings (odd_tensor.py:296-310): a word from
`[min + 1, max)`, plus one if it is negative. -/
def oddUniform (raw : BitVec w) : Option (BitVec w) :=
  (uniform (BitVec.intMin w + 1#w) (BitVec.intMax w) raw).map fun v =>
    if v.toInt < 0 then v + 1#w else v

end Verif.Sampling
