import Verif.Aby3.Model
import Verif.I128.Model

/-!
# Writing private tensors to files and reading them back

Models `tfe.write` and `tfe.read` of the ABY3 protocol (aby3.py:1621-1629, 4723-4787) and the kernel behind
them (operations/dataset/write_record.cc:20-46).

Simplifications. A record is the serialised tensor; `tf.io.serialize_tensor` and `tf.io.parse_tensor` are
inverse to each other and the latter checks the type of the entries. Opening a file for writing succeeds
(the kernel ignores the status and would use a null pointer otherwise). A missing file raises with the first
batch, not when it is reached. The files are not written while they are being read; `prefetch` and
`buffer_size` change nothing. Dimensions are natural numbers.
-/

namespace Verif.Aby3.Disk

open Verif.Tensor

/-- A serialised tensor (`tf.io.serialize_tensor`, aby3.py:4732): of 64-bit integers, or of booleans (the
values of `bool_factory`). A tensor of 128-bit words is stored as integers with a last dimension of two
(tensor/int128.py:33-60). -/
inductive Rec
  | int (t : Ten (BitVec 64))
  | bool (t : Ten Bool)

/-- Exceptions. -/
inductive DErr
  /-- `ZeroDivisionError` -/
  | zeroDivision
  /-- `IndexError` -/
  | index
  /-- `tf.errors.NotFoundError` -/
  | notFound
  /-- `tf.errors.InvalidArgumentError` -/
  | invalid
  /-- `RuntimeError`: the generator was left by `StopIteration` -/
  | stop
  deriving DecidableEq

/-- `ShareType` (aby3_tensors.py). -/
inductive Kind
  | arithmetic
  | boolean
  deriving DecidableEq

/-- An `ABY3PrivateTensor`: the values of its six shares, `is_scaled` and `share_type`
(aby3_tensors.py:389-420). -/
structure Priv where
  shares : Fin 3 → Fin 2 → Rec
  scaled : Bool
  kind : Kind

/-- The files of all machines: records by machine and path, `none` if there is no such file. -/
abbrev Files := ℕ → String → Option (List Rec)

/-- `"{}_share{}{}".format(filename_prefix, i, j)` (aby3.py:4731, 4765). -/
def fileName (pre : String) (i : Fin 3) (j : Fin 2) : String := pre ++ "_share" ++ toString i.val ++ toString j.val

/-- `WriteRecordOp::Compute` (write_record.cc:23-45): a new file with one record, or one more record at the
end of the file, which is created if necessary. -/
def writeRecord (d : Files) (m : ℕ) (name : String) (r : Rec) (append : Bool) : Files := fun m' n' =>
  if m' = m ∧ n' = name then (if append then some ((d m name).getD [] ++ [r]) else some [r]) else d m' n'

/-- Some of the six writes of `_write_private` (aby3.py:4723-4735), in the order of the list. `host i` is the
machine of server `i`; several servers may share one. -/
def writeSome (host : Fin 3 → ℕ) (x : Priv) (pre : String) (append : Bool) : List (Fin 3 × Fin 2) → Files → Files
  | [], d => d
  | (i, j) :: rest, d => writeSome host x pre append rest (writeRecord d (host i) (fileName pre i j) (x.shares i j) append)

/-- The writes in the order of the loops (aby3.py:4727-4729). -/
def allShares : List (Fin 3 × Fin 2) := [(0, 0), (0, 1), (1, 0), (1, 1), (2, 0), (2, 1)]

/-- `tfe.write(x, filename_prefix, append)` (aby3.py:1621-1624, 4723-4734). -/
def write (host : Fin 3 → ℕ) (x : Priv) (pre : String) (append : Bool) (d : Files) : Files :=
  writeSome host x pre append allShares d

/-- `tf.data.TFRecordDataset([...])` over the files of one share (aby3.py:4763-4769). -/
def records (d : Files) (m : ℕ) (i : Fin 3) (j : Fin 2) : List String → Except DErr (List Rec)
  | [] => .ok []
  | p :: ps =>
      match d m (fileName p i j) with
      | none => .error .notFound
      | some rs =>
          match records d m i j ps with
          | .error e => .error e
          | .ok rest => .ok (rs ++ rest)

/-- `dataset.map(decode)` (aby3.py:4752-4753, 4770) on the records of one batch. -/
def decodeAll : List Rec → Except DErr (List (Ten (BitVec 64)))
  | [] => .ok []
  | .bool _ :: _ => .error .invalid
  | .int t :: rest =>
      match decodeAll rest with
      | .error e => .error e
      | .ok ts => .ok (t :: ts)

/-- `dataset.batch` stacks the elements of a batch, which must all have the same shape (aby3.py:4771). -/
def stackBatch : List (Ten (BitVec 64)) → Except DErr (Ten (BitVec 64))
  | [] => .error .stop
  | t :: ts =>
      if ∀ u ∈ ts, u.shape = t.shape then
        .ok ⟨(t :: ts).length :: t.shape, fun idx =>
          match idx with
          | [] => 0
          | r :: rest => ((t :: ts).getD r t).get rest⟩
      else .error .invalid

/-- The number of batches in one pass over `N` records; the last one may be smaller. -/
def batches (k N : ℕ) : ℕ := (N + k - 1) / k

/-- `next` on the iterator of one share, for the `n`-th time (aby3.py:4770-4775): batch `n` modulo the number
of batches (`repeat`), stacked and reshaped. With no records the repetition ends at once. -/
def batchAt (k : ℕ) (out : List ℕ) (rs : List Rec) (n : ℕ) : Except DErr (Ten (BitVec 64)) :=
  if rs = [] then .error .stop
  else
    match decodeAll ((rs.drop (n % batches k rs.length * k)).take k) with
    | .error e => .error e
    | .ok ts =>
        match stackBatch ts with
        | .error e => .error e
        | .ok b =>
            match Tensor.reshape b out with
            | none => .error .invalid
            | some t => .ok t

/-- One share of the `n`-th tensor. -/
def shareAt (host : Fin 3 → ℕ) (d : Files) (ps : List String) (k : ℕ) (out : List ℕ) (n : ℕ) (i : Fin 3) (j : Fin 2) :
    Except DErr (Ten (BitVec 64)) :=
  match records d (host i) i j ps with
  | .error e => .error e
  | .ok rs => batchAt k out rs n

/-- `encode_tensor` (aby3.py:4777-4788): the `n`-th tensor is made of the `n`-th element of each of the six
iterators, in the order of the loops, and is always called scaled and arithmetic. After an exception the
generator ends. -/
def tensorAt (host : Fin 3 → ℕ) (d : Files) (ps : List String) (k : ℕ) (out : List ℕ) (n : ℕ) : Except DErr Priv := do
  let a ← shareAt host d ps k out n 0 0
  let b ← shareAt host d ps k out n 0 1
  let c ← shareAt host d ps k out n 1 0
  let e ← shareAt host d ps k out n 1 1
  let f ← shareAt host d ps k out n 2 0
  let g ← shareAt host d ps k out n 2 1
  return ⟨![![.int a, .int b], ![.int c, .int e], ![.int f, .int g]], true, .arithmetic⟩

/-- `tfe.read(filenames_prefix, file_batch, output_shape)` (aby3.py:1626-1629, 4737-4787): what has become of
the caller's `output_shape`, and the generator. `wide` is `prot.default_nbits == 128`. -/
def read (wide : Bool) (host : Fin 3 → ℕ) (d : Files) (ps : List String) (fileBatch : ℕ) (out : List ℕ) :
    List ℕ × Except DErr (ℕ → Except DErr Priv) :=
  let out := if wide then out ++ [2] else out
  (out,
    match out with
    | [] => .error .index
    | b :: _ =>
        if fileBatch = 0 then .error .zeroDivision
        else if b / fileBatch = 0 then .error .invalid
        else .ok (tensorAt host d ps (b / fileBatch) out))

/-! ## Opening -/

/-- The word of a 64-bit tensor at an index; booleans have none. -/
def Rec.word (r : Rec) (idx : List ℕ) : BitVec 64 :=
  match r with
  | .int t => t.get idx
  | .bool _ => 0

/-- The word of a 128-bit tensor at an index. -/
def Rec.wide (r : Rec) (idx : List ℕ) : BitVec 128 :=
  match r with
  | .int t => (I128.words t).get idx
  | .bool _ => 0

/-- `_reconstruct` (aby3.py:899-936) of an arithmetic sharing at one index, with the words taken by `val`;
`none` is a player that is not one of the servers. -/
def Priv.openWith {W : Type} [Add W] (val : Rec → List ℕ → W) (x : Priv) (idx : List ℕ) : Option (Fin 3) → W
  | some 0 => val (x.shares 0 0) idx + val (x.shares 0 1) idx + val (x.shares 2 0) idx
  | some 1 => val (x.shares 1 0) idx + val (x.shares 1 1) idx + val (x.shares 0 0) idx
  | some 2 => val (x.shares 2 0) idx + val (x.shares 2 1) idx + val (x.shares 1 0) idx
  | none => val (x.shares 0 0) idx + val (x.shares 1 0) idx + val (x.shares 2 0) idx

/-- `_decode` (aby3.py:833-840): a scaled tensor is divided by the scaling factor. -/
def decoded {w : ℕ} (frac : ℕ) (scaled : Bool) (v : BitVec w) : ℚ :=
  if scaled then (v.toInt : ℚ) / 2 ^ frac else v.toInt

end Verif.Aby3.Disk
