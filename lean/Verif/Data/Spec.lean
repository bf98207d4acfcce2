import Verif.Data.Model

/-!
# What a split data set is supposed to deliver

`idx i` lists the numbers of the samples in the `i`-th batch.
-/

namespace Verif.Data

/-- A proper schedule of batches over `N` samples: every batch has `batch` samples; within one pass
over the data (`N / batch` batches) no sample occurs twice, and every sample occurs if the batch
size divides `N`; the training data are passed over for ever, the test data once. -/
structure Schedule (N batch : ℕ) (train : Bool) (idx : ℕ → Option (List ℕ)) : Prop where
  more : ∀ i, (idx i).isSome ↔ N / batch ≠ 0 ∧ (train = true ∨ i < N / batch)
  size : ∀ i l, idx i = some l → l.length = batch
  range : ∀ i l, idx i = some l → ∀ n ∈ l, n < N
  once : ∀ i l, idx i = some l → l.Nodup
  apart : ∀ i j l l', idx i = some l → idx j = some l' → i ≠ j →
    i / (N / batch) = j / (N / batch) → l.Disjoint l'
  cover : batch ∣ N → ∀ e, train = true ∨ e = 0 → ∀ n < N,
    ∃ i l, i / (N / batch) = e ∧ idx i = some l ∧ n ∈ l

variable {R L : Type}

/-- Every record file on disk holds what its name says. -/
def Right (raw : Bool → Raw R L) (disk : Disk R L) : Prop :=
  ∀ n recs, disk n = some recs → content raw n = .ok recs

/-- Rows `a`, ..., `b - 1` of an image. -/
def rows (a b : ℕ) (im : List R) : List R := (im.drop a).take (b - a)

/-- The data are the MNIST data as far as their shape goes. -/
structure Raw.Ok (raw : Raw R L) (train : Bool) : Prop where
  images : raw.images.length = total train
  labels : raw.labels.length = total train
  rows : ∀ im ∈ raw.images, im.length = 28

/-- Number of requests that are not the first one to their iterator. -/
def repeats : List ℕ → List ℕ → ℕ
  | _, [] => 0
  | seen, j :: js => (if seen.contains j then 1 else 0) + repeats (j :: seen) js

end Verif.Data
