import Mathlib.Data.List.Forall2

/-!
# Unwrapping fetches

`unwrap_fetches` of `tf_encrypted/utils.py` (55-68).
-/

namespace Verif.Utils

/-- What `to_native` raises: an `AttributeError`, of its own or from inside, or another exception. -/
inductive NativeErr
  | attribute
  | other

/-- A single fetch. -/
inductive Fetch (T N : Type)
  /-- a `tf.Tensor`, `tf.Operation` or `tf.Variable` -/
  | tf (n : N)
  /-- an object with a method `to_native` -/
  | wrapped (t : T)
  /-- an object without it -/
  | plain (t : T)

/-- Fetches, in lists and tuples. -/
inductive Fetches (T N : Type)
  | one (x : Fetch T N)
  | list (xs : List (Fetches T N))
  | tuple (xs : List (Fetches T N))

variable {T N : Type}

/-- The case of a single fetch (utils.py 62-68). -/
def unwrapOne (native : T → Except NativeErr N) : Fetch T N → Except NativeErr (Fetch T N)
  | .tf n => .ok (.tf n)
  | .wrapped t =>
    match native t with
    | .ok n => .ok (.tf n)
    | .error .attribute => .ok (.wrapped t)
    | .error .other => .error .other
  | .plain t => .ok (.plain t)

mutual
/-- `unwrap_fetches` (utils.py 55-68). -/
def unwrap (native : T → Except NativeErr N) : Fetches T N → Except NativeErr (Fetches T N)
  | .one x =>
    match unwrapOne native x with
    | .error e => .error e
    | .ok y => .ok (.one y)
  | .list xs =>
    match unwrapAll native xs with
    | .error e => .error e
    | .ok ys => .ok (.list ys)
  | .tuple xs =>
    match unwrapAll native xs with
    | .error e => .error e
    | .ok ys => .ok (.list ys)

/-- The comprehension over a list or tuple (utils.py 61). -/
def unwrapAll (native : T → Except NativeErr N) : List (Fetches T N) → Except NativeErr (List (Fetches T N))
  | [] => .ok []
  | x :: xs =>
    match unwrap native x with
    | .error e => .error e
    | .ok y =>
      match unwrapAll native xs with
      | .error e => .error e
      | .ok ys => .ok (y :: ys)
end

end Verif.Utils
