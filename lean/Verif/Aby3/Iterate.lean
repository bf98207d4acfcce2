import Verif.Aby3.Disk

/-!
# Iterating over the rows of a private tensor

Models `tfe.iterate` of the ABY3 protocol (aby3.py:1631-1641, 4790-4844).

Simplifications. `tf.data` is modelled from its documentation and its shuffle kernel: a buffer of 512 elements is
kept full, a random one of them is swapped to the front and handed out. The random numbers are a function of the
seed; they are the same for the same seed, as the global seed is the same for all six datasets. A seed that is
not given is drawn once (4804-4805), so here it is an argument.
-/

namespace Verif.Aby3.Disk

open Verif.Tensor

/-- Exceptions. -/
inductive IErr
  /-- `RuntimeError`: initializable iterators do not exist in eager mode -/
  | runtime
  /-- `IndexError` -/
  | index
  /-- `tf.errors.FailedPreconditionError`: the iterator has not been initialised -/
  | precondition
  /-- `tf.errors.OutOfRangeError` -/
  | outOfRange
  /-- `tf.errors.InvalidArgumentError` -/
  | invalid
  deriving DecidableEq

/-- How the code is run: eagerly, or in a graph, in which somebody has or has not found and run the
initialisers of the six iterators (the comment in aby3.py:4823; the iterators are local variables and are not
returned). -/
inductive Mode
  | eager
  | graph (initialised : Bool)

/-- The buffer of a shuffle and the number of elements taken from its input. Elements are named by their
position in the input. -/
abbrev Shuffle := List ℕ × ℕ

/-- How many elements fill the buffer up; `cap` is the size of the buffer, `lim` the length of the input, `none` if it is infinite. -/
def fill (cap : ℕ) (lim : Option ℕ) (s : Shuffle) : ℕ :=
  match lim with
  | none => cap - s.1.length
  | some n => min (cap - s.1.length) (n - s.2)

/-- One element of `dataset.shuffle(buffer_size=cap, seed=seed)` (aby3.py:4819): fill the buffer, swap a
random element to the front and hand it out. -/
def shuffleStep (cap : ℕ) (lim : Option ℕ) (o : ℕ) (s : Shuffle) : Option (ℕ × Shuffle) :=
  match s.1 ++ (List.range (fill cap lim s)).map (s.2 + ·) with
  | [] => none
  | f :: tl =>
      if o % (f :: tl).length = 0 then some (f, tl, s.2 + fill cap lim s)
      else some (tl.getD (o % (f :: tl).length - 1) 0, tl.set (o % (f :: tl).length - 1) f, s.2 + fill cap lim s)

/-- The elements handed out in `k` steps, and the state. -/
def shuffleRun (cap : ℕ) (lim : Option ℕ) (rnd : ℕ → ℕ) : ℕ → List ℕ × Shuffle
  | 0 => ([], [], 0)
  | k + 1 =>
      match shuffleStep cap lim (rnd k) (shuffleRun cap lim rnd k).2 with
      | none => shuffleRun cap lim rnd k
      | some (e, s) => ((shuffleRun cap lim rnd k).1 ++ [e], s)

/-- The length of the input of the shuffle: the rows, or without end (aby3.py:4815-4816). Repeating nothing
gives nothing. -/
def limit (n : ℕ) (rep : Bool) : Option ℕ := if rep ∧ n ≠ 0 then none else some n

/-- The position, in the repeated rows, of the `q`-th element (aby3.py:4815-4819). -/
def order (n : ℕ) (rep shuffle : Bool) (rnd : ℕ → ℕ) (q : ℕ) : Option ℕ :=
  if shuffle then (shuffleRun 512 (limit n rep) rnd (q + 1)).1[q]?
  else
    match limit n rep with
    | none => some q
    | some n => if q < n then some q else none

/-- The rows of batch number `t` (`dataset.batch`, aby3.py:4821). -/
def batchRows (n : ℕ) (rep shuffle : Bool) (rnd : ℕ → ℕ) (B t : ℕ) : List ℕ :=
  ((List.range B).filterMap fun a => order n rep shuffle rnd (t * B + a)).map (· % n)

/-- The batch made of some rows of a tensor (aby3.py:4813, 4821). -/
def rowsOf {α : Type} (t : Ten α) (rest rows : List ℕ) : Ten α :=
  ⟨rows.length :: rest, fun idx =>
    match idx with
    | [] => t.get []
    | r :: is => t.get (rows.getD r 0 :: is)⟩

/-- The rows of a tensor, and `tf.reshape(batch, out_shape)` (aby3.py:4810-4811, 4830). -/
def pickRows {α : Type} (t : Ten α) (B : ℕ) (rows : List ℕ) : Except IErr (Ten α) :=
  match t.shape with
  | [] => .error .index
  | _ :: rest =>
      if rows = [] then .error .outOfRange
      else
        match Tensor.reshape (rowsOf t rest rows) (B :: rest) with
        | none => .error .invalid
        | some u => .ok u

/-- The number of rows of a stored tensor (`from_tensor_slices`, aby3.py:4813). -/
def Rec.rows : Rec → ℕ
  | .int t => t.shape.headD 0
  | .bool t => t.shape.headD 0

/-- The `t`-th `get_next` on the iterator of one share (`helper`, aby3.py:4808-4831). `gen` is the random
number generator of `tf.data`. -/
def nextShare (gen : ℕ → ℕ → ℕ) (B : ℕ) (rep shuffle : Bool) (seed t : ℕ) (r : Rec) : Except IErr Rec :=
  match r with
  | .int u =>
      match pickRows u B (batchRows r.rows rep shuffle (gen seed) B t) with
      | .error e => .error e
      | .ok v => .ok (.int v)
  | .bool u =>
      match pickRows u B (batchRows r.rows rep shuffle (gen seed) B t) with
      | .error e => .error e
      | .ok v => .ok (.bool v)

/-- The six iterators, in the order of the loops; the results are synchronised (aby3.py:4833-4842). -/
def nextAll (f : Rec → Except IErr Rec) (x : Priv) : Except IErr Priv := do
  let a ← f (x.shares 0 0)
  let b ← f (x.shares 0 1)
  let c ← f (x.shares 1 0)
  let d ← f (x.shares 1 1)
  let e ← f (x.shares 2 0)
  let g ← f (x.shares 2 1)
  return ⟨![![a, b], ![c, d], ![e, g]], x.scaled, x.kind⟩

/-- `out_shape[0] = batch_size` raises `IndexError` for a tensor without dimensions (aby3.py:4811). -/
def Rec.scalar : Rec → Bool
  | .int t => t.shape.isEmpty
  | .bool t => t.shape.isEmpty

/-- The `t`-th value of `tfe.iterate(x, batch_size, repeat, shuffle, seed)` (aby3.py:1631-1641, 4790-4844). -/
def iterate (mode : Mode) (gen : ℕ → ℕ → ℕ) (x : Priv) (batchSize : ℤ) (rep shuffle : Bool) (seed t : ℕ) : Except IErr Priv :=
  match mode with
  | .eager => if (x.shares 0 0).scalar then .error .index else .error .runtime
  | .graph false => if (x.shares 0 0).scalar then .error .index else .error .precondition
  | .graph true => nextAll (nextShare gen (max 1 batchSize).toNat rep shuffle seed t) x

end Verif.Aby3.Disk
