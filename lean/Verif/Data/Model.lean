import Mathlib.Logic.Equiv.Fin.Basic

/-!
# Data sets split among owners, and what an owner hands out

Models `tf_encrypted/keras/datasets/mnist.py` (the classes `MnistDataset`, `HMnistDataset`,
`VMnistDataset`), the record files of `keras/datasets/convert.py` and `player/data_owner.py`.

`R` is one row of pixels of an image, `L` a label; an image is a list of rows.  Simplifications:
the arithmetic of `normalize` (division by 255, one-hot labels) is dropped, it is applied to every
sample by itself; the bytes of an image (`tostring`, `decode_raw`) are kept as the list of rows they
encode, so `tf.reshape` to `[batch, row, 28, 1]` succeeds exactly when every image has `row` rows; a
tuple index is modelled with its first two components, `[:, a:b]`.
-/

namespace Verif.Data

/-- Exceptions. -/
inductive Err
  /-- `IndexError` -/
  | index
  /-- `TypeError` (`None - 0`) -/
  | type
  /-- `ZeroDivisionError` -/
  | zeroDivision
  /-- `ValueError` (a slice step of zero) -/
  | value
  /-- `AssertionError` -/
  | assertion
  /-- `UnboundLocalError` -/
  | unbound
  /-- `InvalidArgumentError` of TensorFlow -/
  | invalidArgument
  /-- `StopIteration` out of a constructor -/
  | stopIteration
  /-- `RuntimeError`: `StopIteration` inside a generator (PEP 479) -/
  | runtime
  deriving DecidableEq, Repr

/-- A Python `slice`. -/
structure Slc where
  start : Option ℤ
  stop : Option ℤ
  step : Option ℤ
  deriving DecidableEq, Repr

/-- `slice(a, b)` -/
def Slc.of (a b : ℤ) : Slc := ⟨some a, some b, none⟩

/-- One end of a slice, as Python (`slice.indices`) clamps it to `[lo, hi]`. -/
def clampEnd (n lo hi : ℤ) (dflt : ℤ) : Option ℤ → ℤ
  | none => dflt
  | some x => if x < 0 then max (x + n) lo else min x hi

/-- The positions selected by a slice of a sequence of length `n` (`slice.indices`). -/
def Slc.indices (s : Slc) (n : ℕ) : Except Err (List ℕ) :=
  let step := s.step.getD 1
  if step = 0 then .error .value
  else if 0 < step then
    let a := clampEnd n 0 n 0 s.start
    let b := clampEnd n 0 n n s.stop
    let len := if a < b then ((b - a - 1) / step + 1).toNat else 0
    .ok ((List.range len).map fun k : ℕ => (a + k * step).toNat)
  else
    let a := clampEnd n (-1) (n - 1) (n - 1) s.start
    let b := clampEnd n (-1) (n - 1) (-1) s.stop
    let len := if b < a then ((a - b - 1) / (-step) + 1).toNat else 0
    .ok ((List.range len).map fun k : ℕ => (a + k * step).toNat)

/-- `x[slc]` along the first axis. -/
def pick {A : Type} (s : Slc) (x : List A) : Except Err (List A) :=
  (s.indices x.length).map fun is => is.filterMap fun i => x[i]?

/-- Which part of the data a data set object stands for. -/
inductive Part
  /-- `MnistDataset` -/
  | whole
  /-- `HMnistDataset(slc)`: some of the samples -/
  | horizontal (s : Slc)
  /-- `VMnistDataset((slice(None), slc))`: some of the rows of every image -/
  | vertical (s : Slc)
  deriving DecidableEq, Repr

/-- The name of a record file (mnist.py 139-150, 187-199, 234-246): `mnist`, `_train` or `_test`,
`_image` and `_label` if asked for, and `str(self.slc)`. `str` of a slice or of a tuple of slices
shows all its fields, so names are kept as structures. -/
structure Name where
  train : Bool
  image : Bool
  label : Bool
  part : Part
  deriving DecidableEq, Repr

/-- A data set object. -/
structure DS where
  batch : ℕ
  train : Bool
  /-- `self.row` -/
  row : ℤ
  /-- `self.num_samples` -/
  num : ℤ
  part : Part
  /-- `self.file_name` -/
  file : Option Name
  deriving DecidableEq, Repr

/-- The number of samples of MNIST (mnist.py 22-25). -/
def total (train : Bool) : ℕ := if train then 60000 else 10000

/-- `MnistDataset.__init__` (mnist.py 19-31). -/
def DS.mk' (batch : ℕ) (train : Bool) : Except Err DS :=
  if batch = 0 then .error .zeroDivision
  else .ok { batch := batch, train := train, row := 28, num := total train, part := .whole,
             file := none }

/-- `self.iterations` (mnist.py 30, 42, 177). -/
def DS.iterations (ds : DS) : ℤ := ds.num / ds.batch

/-- `stop - start` of a slice. -/
def Slc.span (s : Slc) : Except Err ℤ :=
  match s.start, s.stop with
  | some a, some b => .ok (b - a)
  | _, _ => .error .type

/-- What is written between the brackets. -/
inductive Idx
  /-- `ds[a:b:c]` -/
  | slice (s : Slc)
  /-- `ds[:, a:b:c]` -/
  | vertical (s : Slc)
  /-- anything else -/
  | other
  deriving DecidableEq, Repr

/-- `__getitem__` (mnist.py 33-38) with the constructors of the two sub-classes (173-177, 221-224):
a new object of the batch size and the training flag of this one. -/
def DS.getitem (ds : DS) : Idx → Except Err DS
  | .slice s => (DS.mk' ds.batch ds.train).bind fun d =>
      s.span.map fun n => { d with num := n, part := .horizontal s }
  | .vertical s => (DS.mk' ds.batch ds.train).bind fun d =>
      s.span.map fun n => { d with row := n, part := .vertical s }
  | .other => .error .index

/-- `reset_batch_size` (mnist.py 40-42). -/
def DS.resetBatch (ds : DS) (b : ℕ) : Except Err DS :=
  if b = 0 then .error .zeroDivision else .ok { ds with batch := b }

variable {R L : Type}

/-- `mnist.load_data()`: images and labels of the training or of the test set. -/
structure Raw (R L : Type) where
  images : List (List R)
  labels : List L

/-- A `tf.train.Example` (convert.py 10-70): the features it has. -/
structure Rec (R L : Type) where
  image : Option (List R)
  label : Option L

/-- `x[self.slc]` (mnist.py 204, 208, 251, 255). -/
def Part.images (p : Part) (raw : Raw R L) : Except Err (List (List R)) :=
  match p with
  | .whole => .ok raw.images
  | .horizontal s => pick s raw.images
  | .vertical s => raw.images.mapM (pick s)

/-- `y` or `y[self.slc]` (mnist.py 204, 212, 251, 259). -/
def Part.labels (p : Part) (raw : Raw R L) : Except Err (List L) :=
  match p with
  | .whole => .ok raw.labels
  | .horizontal s => pick s raw.labels
  | .vertical _ => .ok raw.labels

/-- `save_data`, `save_image`, `save_label` (convert.py 91-129): the records of a file. -/
def content (raw : Bool → Raw R L) (n : Name) : Except Err (List (Rec R L)) :=
  match n.image, n.label with
  | true, true => (n.part.images (raw n.train)).bind fun x =>
      (n.part.labels (raw n.train)).bind fun y =>
        if x.length = y.length then .ok (List.zipWith (fun a b => ⟨some a, some b⟩) x y)
        else .error .assertion
  | true, false => (n.part.images (raw n.train)).map fun x => x.map fun a => ⟨some a, none⟩
  | false, _ => (n.part.labels (raw n.train)).map fun y => y.map fun b => ⟨none, some b⟩

/-- The record files on disk. -/
abbrev Disk (R L : Type) := Name → Option (List (Rec R L))

/-- Which of the three generators. -/
inductive Kind | data | image | label
  deriving DecidableEq, Repr

/-- Result of a call: its value or exception, the object afterwards, the disk afterwards. -/
structure Out (R L : Type) where
  res : Except Err (Option Kind)
  ds : DS
  disk : Disk R L

/-- The kind of generator asked for. -/
def kindOf (image label : Bool) : Kind :=
  if image then (if label then .data else .image) else .label

/-- The name chosen at the first call. -/
def DS.nameFor (ds : DS) (image label : Bool) : Name := ⟨ds.train, image, label, ds.part⟩

/-- The last part of `generator_builder`: write the file unless it exists (mnist.py 152-165,
200-213, 247-260). `loaded` says whether `x` and `y` have been assigned in this call. -/
def write (raw : Bool → Raw R L) (loaded : Bool) (k : Kind) (n : Name) (ds : DS)
    (disk : Disk R L) : Out R L :=
  match disk n with
  | some _ => ⟨.ok (some k), ds, disk⟩
  | none =>
    if loaded then
      match content raw n with
      | .error e => ⟨.error e, ds, disk⟩
      | .ok recs => ⟨.ok (some k), ds, Function.update disk n (some recs)⟩
    else ⟨.error .unbound, ds, disk⟩

/-- `generator_builder(image, label)` (mnist.py 131-165, 179-213, 226-260). -/
def build (raw : Bool → Raw R L) (image label : Bool) (ds : DS) (disk : Disk R L) : Out R L :=
  if !image && !label then ⟨.ok none, ds, disk⟩
  else
    match ds.file with
    | none => write raw true (kindOf image label) (ds.nameFor image label)
        { ds with file := some (ds.nameFor image label) } disk
    | some n => write raw false (kindOf image label) n ds disk

/-- The disk a process leaves behind that dies in `generator_builder` after it has written `c`
records of the file. (The writer flushes bytes; a cut inside a record is not modelled.) -/
def crashDisk (raw : Bool → Raw R L) (c : ℕ) (image label : Bool) (ds : DS) (disk : Disk R L) :
    Disk R L :=
  match ds.file, disk (ds.nameFor image label), content raw (ds.nameFor image label) with
  | none, none, .ok recs =>
      Function.update disk (ds.nameFor image label) (some (recs.take c))
  | _, _, _ => disk

/-- `shuffle(buffer, seed=11111)`: TensorFlow's order of `n` elements in the given pass over the
data, a function of the seed (fixed), the buffer size, the pass and `n`. Nothing else is assumed. -/
abbrev Shuffle := ℤ → ℕ → ∀ n : ℕ, Equiv.Perm (Fin n)

/-- The elements of a list in shuffled order. -/
def Shuffle.order (sh : Shuffle) (buffer : ℤ) (e : ℕ) {A : Type} (l : List A) : List A :=
  (List.finRange l.length).filterMap fun i => l[(sh buffer e l.length i : ℕ)]?

/-- `batch(b, drop_remainder=True)`. -/
def chunks {A : Type} (b : ℕ) (l : List A) : List (List A) :=
  (List.range (l.length / b)).map fun k => (l.drop (k * b)).take b

/-- `decode_data`, `decode_image`, `decode_label` (convert.py 20-70): a missing feature raises. -/
def decode (k : Kind) (r : Rec R L) : Except Err (Rec R L) :=
  match k, r.image, r.label with
  | .data, some a, some b => .ok ⟨some a, some b⟩
  | .image, some a, _ => .ok ⟨some a, none⟩
  | .label, _, some b => .ok ⟨none, some b⟩
  | _, _, _ => .error .invalidArgument

/-- `shaping` (mnist.py 54-61, 83-88, 111-113). -/
def shapeOk (row : ℤ) (b : List (Rec R L)) : Prop :=
  ∀ r ∈ b, ∀ a, r.image = some a → (a.length : ℤ) = row

open Classical in
/-- The `i`-th element of a generator (mnist.py 48-129), `none` at the end of the data: passes over
the shuffled records, cut into batches; a training set is repeated for ever. -/
noncomputable def stream (sh : Shuffle) (ds : DS) (k : Kind) (recs : List (Rec R L)) (i : ℕ) :
    Except Err (Option (List (Rec R L))) :=
  if ds.num ≤ 0 then .error .invalidArgument
  else
    let m := recs.length / ds.batch
    if m = 0 then .ok none
    else if !ds.train && decide (m ≤ i) then .ok none
    else
      (recs.mapM (decode k)).bind fun rs =>
        match (chunks ds.batch (sh.order ds.num (i / m) rs))[i % m]? with
        | none => .ok none
        | some b => if shapeOk ds.row b then .ok (some b) else .error .invalidArgument

/-- `ds.generator_builder(image, label)()` and then the `i`-th `next`. `None()` raises
`TypeError`. -/
noncomputable def session (raw : Bool → Raw R L) (sh : Shuffle) (image label : Bool) (ds : DS)
    (disk : Disk R L) (i : ℕ) : Except Err (Option (List (Rec R L))) :=
  (build raw image label ds disk).res.bind fun k =>
    match k, (build raw image label ds disk).ds.file.bind (build raw image label ds disk).disk with
    | some k, some recs => stream sh (build raw image label ds disk).ds k recs i
    | _, _ => .error .type

/-! ## Data owners -/

/-- A `DataOwner` (data_owner.py 8-32): the first element, drawn in the constructor, and how many
elements the generator has delivered so far. `src` is the generator. -/
structure Owner (B : Type) where
  first : B
  pos : ℕ

/-- `DataOwner.__init__`: `next` of an empty generator raises. -/
def Owner.init {B : Type} (src : ℕ → Option B) : Except Err (Owner B) :=
  match src 0 with
  | some b => .ok ⟨b, 1⟩
  | none => .error .stopIteration

/-- `next` of the iterator returned by one call of `provide_data` (data_owner.py 46-68); `started`
says whether it has been asked before. All these iterators draw from `self.generator`. -/
def Owner.next {B : Type} (src : ℕ → Option B) (o : Owner B) (started : Bool) :
    Option B × Owner B :=
  if started then
    match src o.pos with
    | some b => (some b, { o with pos := o.pos + 1 })
    | none => (none, o)
  else (some o.first, o)

/-- Serve a sequence of requests; a request names the iterator it is made to, `seen` are the
iterators that have been asked before. -/
def Owner.serve {B : Type} (src : ℕ → Option B) : Owner B → List ℕ → List ℕ → List (Option B)
  | _, _, [] => []
  | o, seen, j :: js =>
    (o.next src (seen.contains j)).1 :: Owner.serve src (o.next src (seen.contains j)).2
      (j :: seen) js

end Verif.Data
