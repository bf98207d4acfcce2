import Verif.Core.Env
import Mathlib.Algebra.Group.Hom.Instances
import Mathlib.Algebra.Module.Basic

/-!
# Pond: two-server additive sharing

Models `tf_encrypted/protocol/pond/pond.py` and `triple_sources.py`.

`T s` is the additive group of ring tensors of shape `s` (native, int100 or odd factory; all
element-wise arithmetic is arithmetic of that group).  Multiplication-like operations (`mul`,
`matmul`, `conv2d`) enter as an arbitrary bi-additive map `T s →+ T u →+ T t`; linear re-shaping
operations (`reduce_sum`, `cumsum`, `transpose`, `reshape`, ...) as an arbitrary additive map.
Broadcasting is an additive map too, so a broadcasting `add` is `lin` followed by `add`.

A device placement (`tf.device`) shows in the messages: whatever a server computes with and did not
compute itself has been sent to it.  Every function of pond.py was checked for this; all place the
work on a share on the server that holds it except `_matmul_private_public` (see `misplaced`).

Simplifications: name scopes are dropped; the memoiser is dropped except for
the cache of masks (`Pond.mask`, pond.py 992-1011), which is kept because it decides how often a
mask is drawn; seeds are idealised as uniform draws.
-/

namespace Verif.Pond

variable {S : Type} (T : S → Type)

/-- The two compute servers. -/
inductive Server | s0 | s1
  deriving DecidableEq, Repr

/-- A value that travels over the network to a server. -/
structure Msg where
  dst : Server
  shape : S
  val : T shape

/-- Python exceptions raised by the modelled functions. -/
inductive Err
  /-- `AssertionError` -/
  | assertion
  /-- `TypeError` (no such dispatch target, wrong argument count, ...) -/
  | type
  /-- `NotImplementedError` -/
  | notImplemented
  deriving DecidableEq, Repr

variable {T}

/-- The two shares of a `PondPrivateTensor` (pond.py 1951-2017, `share0`, `share1`). -/
structure Priv (A : Type) where
  x0 : A
  x1 : A

/-- The fields of a `PondMaskedTensor` (pond.py 2029-2110): the private tensor it masks, the
mask `a` (held by the dealer), its shares and the opened `alpha` at each server. -/
structure Masked (A : Type) where
  unmasked : Priv A
  a : A
  a0 : A
  a1 : A
  alpha0 : A
  alpha1 : A

/-- A `PondPublicTensor` (one copy per server, pond.py 1858-1944) or `PondPrivateTensor`. -/
inductive Plain (A : Type)
  | pub (v0 v1 : A)
  | priv (p : Priv A)

/-- A Pond tensor: public, private or `PondMaskedTensor`. -/
inductive Body (A : Type)
  | plain (p : Plain A)
  | masked (m : Masked A)

/-- A Pond tensor with its `is_scaled` flag. -/
structure Val (A : Type) where
  body : Body A
  sc : Bool

/-- A register: the tensor object together with its entry in the mask cache
(`nodes[("mask", x)]`, pond.py 998-1011). -/
structure Slot (A : Type) where
  val : Val A
  cache : Option (Masked A)

/-- How values are truncated: `truncate` of the tensor factory for public values, and the
configured private truncation (interactive or not; it sees the `is_scaled` flag), which may draw randomness and send messages
(pond.py 2358-2474).  The concrete truncations are modelled in `Verif.Trunc`. -/
structure Cfg (T : S → Type) where
  truncPub : ∀ s, T s → T s
  truncPriv : Bool → ∀ s, Priv (T s) → RandM T (Priv (T s) × List (Msg T))

/-- State of a run: registers and the messages sent so far. -/
structure St (T : S → Type) (Γ : List S) where
  env : Env (fun s => Slot (T s)) Γ
  trace : List (Msg T)

/-- A computation that may draw randomness, send messages, fill the mask cache and raise. -/
def Exec (T : S → Type) (Γ : List S) (α : Type) : Type :=
  St T Γ → RandM T (Except Err (α × St T Γ))

namespace Exec
variable {Γ : List S} {α β : Type}

/-- return -/
def ret (a : α) : Exec T Γ α := fun st => .pure (.ok (a, st))
/-- raise -/
def fail (e : Err) : Exec T Γ α := fun _ => .pure (.error e)
/-- sequence; an exception stops the run -/
def bind (m : Exec T Γ α) (f : α → Exec T Γ β) : Exec T Γ β := fun st =>
  (m st).bind fun
    | .ok (a, st') => f a st'
    | .error e => .pure (.error e)
/-- draw randomness -/
def lift (m : RandM T α) : Exec T Γ α := fun st => m.bind fun a => .pure (.ok (a, st))
/-- send messages -/
def send (ms : List (Msg T)) : Exec T Γ Unit := fun st =>
  .pure (.ok ((), { st with trace := st.trace ++ ms }))
/-- read a register -/
def read {s : S} (x : Var Γ s) : Exec T Γ (Slot (T s)) := fun st => .pure (.ok (st.env.get x, st))
/-- write a register's cache entry -/
def setCache {s : S} (x : Var Γ s) (m : Masked (T s)) : Exec T Γ Unit := fun st =>
  .pure (.ok ((), { st with env := st.env.set x { st.env.get x with cache := some m } }))

instance : Monad (Exec T Γ) where
  pure := ret
  bind := bind
end Exec

section Sharing
variable [∀ s, AddCommGroup (T s)]

/-- `Pond._share` (pond.py 798-829): one share is uniform, the other is the difference; a fair
coin decides which server gets the uniform one.  The seed is re-expanded on the server's device,
which gives the same tensor.  (The coin is tossed while the graph is built, before the seed is
expanded, so it comes first.) -/
def share {s : S} (secret : T s) : RandM T (Priv (T s)) :=
  .coin fun b => .sample s fun share0 =>
    if b then .pure { x0 := share0, x1 := secret - share0 }
    else .pure { x0 := secret - share0, x1 := share0 }

/-- `BaseTripleSource._share` (triple_sources.py 165-172): same, with the swap the other way. -/
def dealerShare {s : S} (secret : T s) : RandM T (Priv (T s)) :=
  .coin fun b => .sample s fun share0 =>
    if b then .pure { x0 := secret - share0, x1 := share0 }
    else .pure { x0 := share0, x1 := secret - share0 }

/-- `Pond._reconstruct` (pond.py 839-841). -/
def reconstruct {A : Type} [Add A] (p : Priv A) : A := p.x0 + p.x1

/-- `BaseTripleSource.mask` (triple_sources.py 26-35). Result `(a, a0, a1)`. -/
def dealerMask (s : S) : RandM T (T s × T s × T s) :=
  .sample s fun a0 => .sample s fun a1 => .pure (a0 + a1, a0, a1)

/-- `_mask_private` (pond.py 4067-4101): both servers learn `x - a`. Messages: the dealer sends
`a0`, `a1`; the servers exchange `alpha0`, `alpha1`. -/
def maskPrivate {s : S} (x : Priv (T s)) : RandM T (Masked (T s) × List (Msg T)) :=
  (dealerMask s).bind fun (a, a0, a1) =>
    let alpha0 := x.x0 - a0
    let alpha1 := x.x1 - a1
    .pure
      ({ unmasked := x, a := a, a0 := a0, a1 := a1,
         alpha0 := alpha0 + alpha1, alpha1 := alpha0 + alpha1 },
       [⟨.s0, s, a0⟩, ⟨.s1, s, a1⟩, ⟨.s0, s, alpha1⟩, ⟨.s1, s, alpha0⟩])

/-- `Pond.mask` on a register (pond.py 992-1011): the cached mask if there is one, a new one for a
private tensor, `TypeError` otherwise. -/
def mask {Γ : List S} {s : S} (x : Var Γ s) : Exec T Γ (Masked (T s)) := do
  let sl ← Exec.read x
  match sl.cache with
  | some m => pure m
  | none =>
    match sl.val.body with
    | .plain (.priv p) => do
      let (m, ms) ← Exec.lift (maskPrivate p)
      Exec.send ms
      Exec.setCache x m
      pure m
    | _ => Exec.fail .type

/-- `_truncate_public`, `_truncate_private` (pond.py 2358-2388). -/
def truncatePlain (C : Cfg T) {Γ : List S} {s : S} (sc : Bool) :
    Plain (T s) → Exec T Γ (Val (T s))
  | .pub v0 v1 => pure { body := .plain (.pub (C.truncPub s v0) (C.truncPub s v1)), sc := sc }
  | .priv p => do
    let (q, ms) ← Exec.lift (C.truncPriv sc s p)
    Exec.send ms
    pure { body := .plain (.priv q), sc := sc }

/-- Many operations first replace a masked operand by the private tensor it masks
(e.g. `_add_public_masked`, pond.py 2558-2561). -/
def unmask {A : Type} : Body A → Plain A
  | .masked m => .priv m.unmasked
  | .plain p => p

/-- `Pond.truncate` (pond.py 1066-1067) with `_truncate_masked` (2477-2482). -/
def truncate (C : Cfg T) {Γ : List S} {s : S} (x : Val (T s)) : Exec T Γ (Val (T s)) :=
  truncatePlain C x.sc (unmask x.body)

/-- `_reveal_private`, `_reveal_masked` (pond.py 2490-2508); there is no `_reveal_public`, so
`dispatch` raises `TypeError` (pond.py 1461-1468). The servers exchange their shares. -/
def reveal {Γ : List S} {s : S} (x : Val (T s)) : Exec T Γ (Val (T s)) :=
  match unmask x.body with
  | .pub _ _ => Exec.fail .type
  | .priv p => do
    Exec.send [⟨.s0, s, p.x1⟩, ⟨.s1, s, p.x0⟩]
    pure { body := .plain (.pub (p.x0 + p.x1) (p.x0 + p.x1)), sc := x.sc }

/-- `_add_*` (pond.py 2516-2629). Private+private does not check the flags (2588-2592). -/
def add {Γ : List S} {A : Type} [AddCommGroup A] (x y : Val A) : Exec T Γ (Val A) :=
  match unmask x.body, unmask y.body with
  | .pub x0 x1, .pub y0 y1 =>
    if x.sc = y.sc then pure { body := .plain (.pub (x0 + y0) (x1 + y1)), sc := x.sc }
    else Exec.fail .assertion
  | .pub x0 _, .priv q =>
    if x.sc = y.sc then
      pure { body := .plain (.priv { x0 := x0 + q.x0, x1 := q.x1 }), sc := x.sc }
    else Exec.fail .assertion
  | .priv p, .pub y0 _ =>
    if x.sc = y.sc then
      pure { body := .plain (.priv { x0 := p.x0 + y0, x1 := p.x1 }), sc := x.sc }
    else Exec.fail .assertion
  | .priv p, .priv q =>
    pure { body := .plain (.priv { x0 := p.x0 + q.x0, x1 := p.x1 + q.x1 }), sc := x.sc }

/-- `_sub_*` (pond.py 2753-2864). Here private-private does check the flags (2825). -/
def sub {Γ : List S} {A : Type} [AddCommGroup A] (x y : Val A) : Exec T Γ (Val A) :=
  if x.sc = y.sc then
    match unmask x.body, unmask y.body with
    | .pub x0 x1, .pub y0 y1 => pure { body := .plain (.pub (x0 - y0) (x1 - y1)), sc := x.sc }
    | .pub x0 _, .priv q =>
      pure { body := .plain (.priv { x0 := x0 - q.x0, x1 := -q.x1 }), sc := x.sc }
    | .priv p, .pub y0 _ =>
      pure { body := .plain (.priv { x0 := p.x0 - y0, x1 := p.x1 }), sc := x.sc }
    | .priv p, .priv q =>
      pure { body := .plain (.priv { x0 := p.x0 - q.x0, x1 := p.x1 - q.x1 }), sc := x.sc }
  else Exec.fail .assertion

/-- How a linear operation treats a masked operand. -/
inductive LinKind
  /-- `negative`, `transpose`, `reshape`, `strided_slice`, `indexer`, `gather`, `split`,
  `expand_dims`: the masks are transformed along (pond.py 3571-3600, 3636-3662, 3702-3728,
  3776-3806, 3858-3891, 4194-4222, 4268-4293, 4341-4372; triple_sources.py 73-155) -/
  | keepMask
  /-- `reduce_sum`, `cumsum`, `batch_to_space`, `space_to_batch`: computed on the unmasked tensor
  (pond.py 2677-2683, 2733-2745, 3474-3484, 3527-3537) -/
  | dropMask
  /-- `squeeze`: `_squeeze_masked` calls `squeeze_mask(axis=axis)` without its tensor argument and
  raises `TypeError` (pond.py 4434, triple_sources.py 157) -/
  | squeeze
  deriving DecidableEq, Repr

/-- A linear operation on a public or private tensor: each server applies it to what it holds
(e.g. `_transpose_public`, `_transpose_private`, pond.py 3604-3633). -/
def linPlain {A B : Type} [AddCommGroup A] [AddCommGroup B] (f : A →+ B) : Plain A → Plain B
  | .pub v0 v1 => .pub (f v0) (f v1)
  | .priv p => .priv { x0 := f p.x0, x1 := f p.x1 }

/-- A linear operation on any Pond tensor. -/
def lin {Γ : List S} {A B : Type} [AddCommGroup A] [AddCommGroup B] (k : LinKind) (f : A →+ B)
    (x : Val A) : Exec T Γ (Val B) :=
  match x.body, k with
  | .plain p, _ => pure { body := .plain (linPlain f p), sc := x.sc }
  | .masked m, .keepMask =>
    pure { body := .masked
             { unmasked := { x0 := f m.unmasked.x0, x1 := f m.unmasked.x1 },
               a := f m.a, a0 := f m.a0, a1 := f m.a1,
               alpha0 := f m.alpha0, alpha1 := f m.alpha1 },
           sc := x.sc }
  | .masked m, .dropMask => pure { body := .plain (linPlain f (.priv m.unmasked)), sc := x.sc }
  | .masked _, .squeeze => Exec.fail .type

/-- `stack`/`concat` of two tensors (pond.py 3899-4060), as one additive map of the pair; longer
lists are iterated. Operands must be of one kind and one scaling. -/
def concat {Γ : List S} {A B C : Type} [AddCommGroup A] [AddCommGroup B] [AddCommGroup C]
    (f : A × B →+ C) (x : Val A) (y : Val B) : Exec T Γ (Val C) :=
  if x.sc = y.sc then
    match x.body, y.body with
    | .plain (.pub x0 x1), .plain (.pub y0 y1) =>
      pure { body := .plain (.pub (f (x0, y0)) (f (x1, y1))), sc := x.sc }
    | .plain (.priv p), .plain (.priv q) =>
      pure { body := .plain (.priv { x0 := f (p.x0, q.x0), x1 := f (p.x1, q.x1) }), sc := x.sc }
    | .masked m, .masked n =>
      pure { body := .masked
               { unmasked := { x0 := f (m.unmasked.x0, n.unmasked.x0),
                               x1 := f (m.unmasked.x1, n.unmasked.x1) },
                 a := f (m.a, n.a), a0 := f (m.a0, n.a0), a1 := f (m.a1, n.a1),
                 alpha0 := f (m.alpha0, n.alpha0), alpha1 := f (m.alpha1, n.alpha1) },
             sc := x.sc }
    | _, _ => Exec.fail .type
  else Exec.fail .assertion

/-- The multiplication-like operations. -/
inductive BilinKind | mul | matmul | conv2d
  deriving DecidableEq, Repr

/-- `prot.truncate(z) if x.is_scaled and y.is_scaled else z` with
`z.is_scaled = x.is_scaled or y.is_scaled` (pond.py 2887-2888 and the same two lines in every
multiplication). -/
def finish (C : Cfg T) {Γ : List S} {t : S} (scx scy : Bool) (z : Plain (T t)) :
    Exec T Γ (Val (T t)) :=
  if scx && scy then truncatePlain C (scx || scy) z
  else pure { body := .plain z, sc := scx || scy }

/-- `_mul_masked_masked`, `_matmul_masked_masked`, `_conv2d_masked_masked`
(pond.py 2962-2987, 3184-3209, 3272-3311) with `mul_triple`/`matmul_triple`/`conv2d_triple`
(triple_sources.py 37-71): Beaver multiplication. The dealer sends `ab0`, `ab1`. -/
def bilinMasked (C : Cfg T) {Γ : List S} {s u t : S} (f : T s →+ T u →+ T t)
    (scx scy : Bool) (x : Masked (T s)) (y : Masked (T u)) : Exec T Γ (Val (T t)) := do
  let ab ← Exec.lift (dealerShare (f x.a y.a))
  Exec.send [⟨.s0, t, ab.x0⟩, ⟨.s1, t, ab.x1⟩]
  let z0 := ab.x0 + f x.a0 y.alpha0 + f x.alpha0 y.a0 + f x.alpha0 y.alpha0
  let z1 := ab.x1 + f x.a1 y.alpha1 + f x.alpha1 y.a1
  finish C scx scy (.priv { x0 := z0, x1 := z1 })

/-- `_matmul_private_public` (pond.py 3140-3157) computes `z1 = x1.matmul(y_on_1)` under
`tf.device(prot.server_0.device_name)` (3151-3152): `x1` and `y_on_1` are sent to server 0, and the
product goes back to server 1, which uses it as its share (sent at once here; TensorFlow sends it
when it is first used). `_mul_private_public` (2924-2941) computes it on server 1. -/
def misplaced {s u t : S} (k : BilinKind) (f : T s →+ T u →+ T t) (x1 : T s) (y1 : T u) :
    List (Msg T) :=
  if k = .matmul then [⟨.s0, s, x1⟩, ⟨.s0, u, y1⟩, ⟨.s1, t, f x1 y1⟩] else []

/-- `_mul_*`, `_matmul_*`, `_conv2d_*` (pond.py 2872-2987, 3092-3209, 3218-3311) on registers.
Private operands are masked through the cache; a masked operand against a public one is used
unmasked; the mixed public/non-public convolutions raise `NotImplementedError` (3238-3247,
3262-3263). Both servers' copies of a public operand are used separately. -/
def bilin (C : Cfg T) {Γ : List S} {s u t : S} (k : BilinKind) (f : T s →+ T u →+ T t)
    (x : Var Γ s) (y : Var Γ u) : Exec T Γ (Val (T t)) := do
  let sx ← Exec.read x
  let sy ← Exec.read y
  match sx.val.body, sy.val.body with
  | .plain (.pub x0 x1), .plain (.pub y0 y1) =>
    finish C sx.val.sc sy.val.sc (.pub (f x0 y0) (f x1 y1))
  | .plain (.pub x0 x1), yb =>
    if k = .conv2d then Exec.fail .notImplemented
    else
      match unmask yb with
      | .priv q => finish C sx.val.sc sy.val.sc (.priv { x0 := f x0 q.x0, x1 := f x1 q.x1 })
      | .pub _ _ => Exec.fail .type
  | xb, .plain (.pub y0 y1) =>
    if k = .conv2d then Exec.fail .notImplemented
    else
      match unmask xb with
      | .priv p => do
        Exec.send (misplaced k f p.x1 y1)
        finish C sx.val.sc sy.val.sc (.priv { x0 := f p.x0 y0, x1 := f p.x1 y1 })
      | .pub _ _ => Exec.fail .type
  | .plain (.priv _), .plain (.priv _) => do
    let mx ← mask x
    let my ← mask y
    bilinMasked C f sx.val.sc sy.val.sc mx my
  | .plain (.priv _), .masked my => do
    let mx ← mask x
    bilinMasked C f sx.val.sc sy.val.sc mx my
  | .masked mx, .plain (.priv _) => do
    let my ← mask y
    bilinMasked C f sx.val.sc sy.val.sc mx my
  | .masked mx, .masked my => bilinMasked C f sx.val.sc sy.val.sc mx my

/-- `_square_masked` (pond.py 3063-3084) with `square_triple` (triple_sources.py 46-53). -/
def squareMasked (C : Cfg T) {Γ : List S} {s t : S} (f : T s →+ T s →+ T t)
    (sc : Bool) (x : Masked (T s)) : Exec T Γ (Val (T t)) := do
  let aa ← Exec.lift (dealerShare (f x.a x.a))
  Exec.send [⟨.s0, t, aa.x0⟩, ⟨.s1, t, aa.x1⟩]
  let y0 := aa.x0 + 2 • f x.a0 x.alpha0 + f x.alpha0 x.alpha0
  let y1 := aa.x1 + 2 • f x.a1 x.alpha1
  finish C sc sc (.priv { x0 := y0, x1 := y1 })

/-- `_square_public`, `_square_private`, `_square_masked` (pond.py 3040-3084); `f` is the
element-wise product. Truncates when the operand is scaled, i.e. `finish` with equal flags. -/
def square (C : Cfg T) {Γ : List S} {s t : S} (f : T s →+ T s →+ T t) (x : Var Γ s) :
    Exec T Γ (Val (T t)) := do
  let sx ← Exec.read x
  match sx.val.body with
  | .plain (.pub x0 x1) => finish C sx.val.sc sx.val.sc (.pub (f x0 x0) (f x1 x1))
  | .plain (.priv _) => do
    let mx ← mask x
    squareMasked C f sx.val.sc mx
  | .masked mx => squareMasked C f sx.val.sc mx

/-- One operation of a Pond program. Private inputs are indexed by `I`, input `i` has shape
`ι i`; `Γ` lists the shapes of the earlier results and `t` is the shape of this one. -/
inductive Op (T : S → Type) [∀ s, AddCommGroup (T s)] {I : Type} (ι : I → S) (Γ : List S) :
    S → Type
  /-- `define_constant` / a revealed constant: both servers hold `v` -/
  | const {t : S} (v : T t) (sc : Bool) : Op T ι Γ t
  /-- `define_private_input` / `define_private_variable` / `define_private_tensor` -/
  | input (i : I) (sc : Bool) : Op T ι Γ (ι i)
  | add {t : S} (x y : Var Γ t) : Op T ι Γ t
  | sub {t : S} (x y : Var Γ t) : Op T ι Γ t
  | lin {s t : S} (k : LinKind) (f : T s →+ T t) (x : Var Γ s) : Op T ι Γ t
  | concat {s u t : S} (f : T s × T u →+ T t) (x : Var Γ s) (y : Var Γ u) : Op T ι Γ t
  | bilin {s u t : S} (k : BilinKind) (f : T s →+ T u →+ T t) (x : Var Γ s) (y : Var Γ u) :
      Op T ι Γ t
  /-- the product used by `square` is commutative -/
  | square {s t : S} (f : T s →+ T s →+ T t) (hf : ∀ a b, f a b = f b a) (x : Var Γ s) :
      Op T ι Γ t
  | mask {t : S} (x : Var Γ t) : Op T ι Γ t
  | truncate {t : S} (x : Var Γ t) : Op T ι Γ t
  | reveal {t : S} (x : Var Γ t) : Op T ι Γ t

variable {I : Type} {ι : I → S}

/-- Run one operation. `inp` are the private inputs; sharing one sends a share to each server. -/
def Op.exec (C : Cfg T) (inp : ∀ i, T (ι i)) {Γ : List S} {t : S} :
    Op T ι Γ t → Exec T Γ (Val (T t))
  | .const v sc => pure { body := .plain (.pub v v), sc := sc }
  | .input i sc => do
    let p ← Exec.lift (share (inp i))
    Exec.send [⟨.s0, ι i, p.x0⟩, ⟨.s1, ι i, p.x1⟩]
    pure { body := .plain (.priv p), sc := sc }
  | .add x y => do Pond.add (← Exec.read x).val (← Exec.read y).val
  | .sub x y => do Pond.sub (← Exec.read x).val (← Exec.read y).val
  | .lin k f x => do Pond.lin k f (← Exec.read x).val
  | .concat f x y => do Pond.concat f (← Exec.read x).val (← Exec.read y).val
  | .bilin k f x y => Pond.bilin C k f x y
  | .square f _ x => Pond.square C f x
  | .mask x => do
    let sx ← Exec.read x
    let m ← Pond.mask x
    pure { body := .masked m, sc := sx.val.sc }
  | .truncate x => do Pond.truncate C (← Exec.read x).val
  | .reveal x => do Pond.reveal (← Exec.read x).val

/-- A straight-line program: each operation's result becomes the newest register. -/
inductive Prog (T : S → Type) [∀ s, AddCommGroup (T s)] {I : Type} (ι : I → S) :
    List S → S → Type
  /-- return a register -/
  | ret {Γ : List S} {t : S} (x : Var Γ t) : Prog T ι Γ t
  /-- run one operation and continue -/
  | step {Γ : List S} {s t : S} (o : Op T ι Γ s) (k : Prog T ι (s :: Γ) t) : Prog T ι Γ t

/-- Run a program; the result is the returned tensor and the message trace. -/
def Prog.run (C : Cfg T) (inp : ∀ i, T (ι i)) {Γ : List S} {t : S} :
    Prog T ι Γ t → St T Γ → RandM T (Except Err (Val (T t) × List (Msg T)))
  | .ret x, st => .pure (.ok ((st.env.get x).val, st.trace))
  | .step o k, st =>
    (o.exec C inp st).bind fun
      | .ok (v, st') => k.run C inp { env := .cons { val := v, cache := none } st'.env,
                                      trace := st'.trace }
      | .error e => .pure (.error e)

/-- A closed program started with no registers and no messages. -/
def Prog.start (C : Cfg T) (inp : ∀ i, T (ι i)) {t : S} (p : Prog T ι [] t) :
    RandM T (Except Err (Val (T t) × List (Msg T))) :=
  p.run C inp { env := .nil, trace := [] }

end Sharing
end Verif.Pond
