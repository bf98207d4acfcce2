import Verif.Data.Model

/-!
# Putting the batches of several owners together

`horizontal_combine` (`examples/application/joint-train/horizontal-training.py` 16-21) and
`vertical_combine` (`examples/application/joint-train/vertical-training.py` 16-23): generators that draw
batches from the owners of the parts of a data set and hand them to `fit`.

Simplifications: batches are modelled before they are shared (`provide_data` shares every element by
itself, concatenation of private tensors is C84); the owners are different objects. A generator is the
list of what it yields; an exception ends it and is the last element. The consumer takes the elements
one by one, so what comes later has no influence.
-/

namespace Verif.Data

variable {B R L : Type}

/-- A `DataOwner` (data_owner.py 8-32): its generator and `num_samples`. -/
structure Provider (B : Type) where
  src : ℕ → Option B
  num : Option ℕ

/-- The iterator returned by `provide_data` (data_owner.py 46-68), the only one of its owner. -/
structure Reader (B : Type) where
  owner : Owner B
  started : Bool

/-- `next(data_iter)`. -/
def Reader.next (src : ℕ → Option B) (r : Reader B) : Option B × Reader B :=
  ((r.owner.next src r.started).1, ⟨(r.owner.next src r.started).2, true⟩)

/-- The owners with their iterators. -/
abbrev Team (B : Type) := List (Provider B × Reader B)

/-- `[data_owner.provide_data() for data_owner in data_owners]` (horizontal-training.py 17), after the
owners have been made. -/
def assemble : List (Provider B) → Except Err (Team B)
  | [] => .ok []
  | p :: ps => do
    let o ← Owner.init p.src
    let t ← assemble ps
    return (p, ⟨o, false⟩) :: t

/-- `for i in range(n): yield next(data_iter)` (horizontal-training.py 20-21): what is yielded, and the
iterator afterwards if nothing was raised. -/
def draw (src : ℕ → Option B) : ℕ → Reader B → List (Except Err B) × Option (Reader B)
  | 0, r => ([], some r)
  | n + 1, r =>
    match (r.next src).1 with
    | none => ([.error .runtime], none)
    | some b => (.ok b :: (draw src n (r.next src).2).1, (draw src n (r.next src).2).2)

/-- One round of `while True` (horizontal-training.py 19-21); `range(None)` raises `TypeError`. -/
def round : Team B → List (Except Err B) × Option (Team B)
  | [] => ([], some [])
  | (p, r) :: t =>
    match p.num with
    | none => ([.error .type], none)
    | some n =>
      match (draw p.src n r).2 with
      | none => ((draw p.src n r).1, none)
      | some r' => ((draw p.src n r).1 ++ (round t).1, (round t).2.map ((p, r') :: ·))

/-- The first `c` rounds of `horizontal_combine` (horizontal-training.py 16-21). -/
def horizontal : ℕ → Team B → List (Except Err B)
  | 0, _ => []
  | c + 1, t =>
    match (round t).2 with
    | none => (round t).1
    | some t' => (round t).1 ++ horizontal c t'

/-- `tfe.concat([feature_0, feature_1, feature_2], axis=1)` together with the label
(vertical-training.py 22-23), for one sample. -/
def glue (x y z : Rec R L) : Option (Rec R L) :=
  match x.image, y.image, z.image, x.label with
  | some a, some b, some c, some l => some ⟨some (a ++ (b ++ c)), some l⟩
  | _, _, _, _ => none

/-- The same for batches: batches of different sizes cannot be concatenated; if a part is missing,
unpacking or concatenating raises. -/
def glueAll : List (Rec R L) → List (Rec R L) → List (Rec R L) → Except Err (List (Rec R L))
  | [], [], [] => .ok []
  | x :: xs, y :: ys, z :: zs =>
    match glue x y z, glueAll xs ys zs with
    | some r, .ok rs => .ok (r :: rs)
    | none, _ => .error .type
    | _, .error e => .error e
  | _, _, _ => .error .invalidArgument

/-- The first `c` elements of `vertical_combine` (vertical-training.py 16-23). The code names three
owners. -/
def vertical : ℕ → Team (List (Rec R L)) → List (Except Err (List (Rec R L)))
  | 0, _ => []
  | c + 1, (p, r) :: (p', r') :: (p'', r'') :: t =>
    match (r.next p.src).1, (r'.next p'.src).1, (r''.next p''.src).1 with
    | some x, some y, some z =>
      match glueAll x y z with
      | .error e => [.error e]
      | .ok b => .ok b :: vertical c
          ((p, (r.next p.src).2) :: (p', (r'.next p'.src).2) :: (p'', (r''.next p''.src).2) :: t)
    | _, _, _ => [.error .runtime]
  | _ + 1, _ => [.error .index]

end Verif.Data
