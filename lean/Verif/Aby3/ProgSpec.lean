import Verif.Aby3.Prog
import Verif.Aby3.Spec

/-!
# What ABY3 programs are supposed to compute

Independent of shares, servers and randomness: which programs raise, which tensors are public,
what their `is_scaled` flags are, and what the values are, with the rounding that truncation is
allowed to make.
-/

namespace Verif.Aby3

open Verif

/-- Public or private, and the `is_scaled` flag. -/
structure Kind where
  /-- is the tensor secret-shared? -/
  priv : Bool
  /-- `is_scaled` -/
  sc : Bool
deriving DecidableEq

/-- A cleartext tensor with the kind of the tensor that stands for it. -/
structure CVal (s : Srt) where
  /-- the value -/
  val : T s
  /-- its kind -/
  kind : Kind

/-- How an operation may round its exact result. -/
inductive Rounding
  /-- not at all -/
  | exact
  /-- public truncation: the floor -/
  | floor (a : ℕ)
  /-- private truncation by `a` bits -/
  | by (m : Method) (a : ℕ)

/-- The result `z` allowed for the word `x`, read as a signed integer, under a truncation method:
* heuristic: floor or floor + 1 of `x / 2^a`, if `-2^(w-2) ≤ x < 2^(w-2)`; unspecified outside,
* secureq8: floor or floor + 1, if `x` is not negative; unspecified otherwise,
* local: the sum of the floors of two words that add up to `x`. -/
def TruncOk {w : ℕ} (m : Method) (a : ℕ) (x z : BitVec w) : Prop :=
  match m with
  | .heuristic => -2 ^ (w - 2) ≤ x.toInt → x.toInt < 2 ^ (w - 2) →
      z = BitVec.ofInt w (x.toInt / 2 ^ a) ∨ z = BitVec.ofInt w (x.toInt / 2 ^ a + 1)
  | .secureq8 => 0 ≤ x.toInt →
      z = BitVec.ofInt w (x.toInt / 2 ^ a) ∨ z = BitVec.ofInt w (x.toInt / 2 ^ a + 1)
  | .loc => ∃ r, z = BitVec.ofInt w (r.toInt / 2 ^ a + (x - r).toInt / 2 ^ a)

/-- `z` is an allowed rounding of `x`. -/
def Rounding.Ok : Rounding → {t : Srt} → T t → T t → Prop
  | .exact, _, x, z => z = x
  | .floor a, .arith w _, x, z => ∀ i, z i = BitVec.ofInt w ((x i).toInt / 2 ^ a)
  | .by m a, .arith _ _, x, z => ∀ i, TruncOk m a (x i) (z i)
  | _, .bool _ _, _, _ => False

variable {I : Type} {ι : I → Srt} {Γ : List Srt} {t : Srt}

/-- The first `k` bits of a word, or all of them. -/
def keepBits {w : ℕ} : Option ℕ → BitVec w → BitVec w
  | none, x => x
  | some k, x => BitVec.ofNat w (x.toNat % 2 ^ k)

/-- The cleartext result of one operation before rounding. -/
def Op.exact (inp : ∀ i, T (ι i)) (c : Env CVal Γ) : Op ι Γ t → T t
  | .const v _ => v
  | .input i _ => inp i
  | .add x y => (c.get x).val + (c.get y).val
  | .sub x y => (c.get x).val - (c.get y).val
  | .lin _ g x => g (c.get x).val
  | .pubMap g x => g (c.get x).val
  | .concat g x y => g ((c.get x).val, (c.get y).val)
  | .bilin _ f _ _ x y => f (c.get x).val (c.get y).val
  | .xor x y => fun i => ⟨((c.get x).val i).bits ^^^ ((c.get y).val i).bits⟩
  | .and p q x y => fun i => ⟨((c.get x).val (p i)).bits &&& ((c.get y).val (q i)).bits⟩
  | .or x y => fun i => ⟨((c.get x).val i).bits ||| ((c.get y).val i).bits⟩
  | .not x => fun i => ⟨~~~((c.get x).val i).bits⟩
  | .a2b nBits x => fun i => ⟨keepBits nBits ((c.get x).val i)⟩
  | .b2a x => fun i => ((c.get x).val i).bits
  | .b2aBits k x => fun i => keepBits (some k) ((c.get x).val i).bits
  | .bitExtract i x => fun j => ⟨BitVec.ofBool (((c.get x).val j).getLsbD i)⟩
  | .bitExtractB i x => fun j => ⟨BitVec.ofBool (((c.get x).val j).bits.getLsbD i)⟩
  | .mulAb x b => fun i => if ((c.get b).val i).bits = 1#1 then (c.get x).val i else 0
  | .trunc _ _ x => (c.get x).val
  | .reveal x => (c.get x).val

/-- How one operation rounds. A product is truncated exactly when both operands are scaled. -/
def Op.rounding (frac : ℕ) (c : Env CVal Γ) : Op ι Γ t → Rounding
  | .bilin _ _ _ _ x y =>
    if (c.get x).kind.sc && (c.get y).kind.sc then
      if (c.get x).kind.priv || (c.get y).kind.priv then .by .heuristic frac else .floor frac
    else .exact
  | .trunc m a x => if (c.get x).kind.priv then .by m a else .floor a
  | _ => .exact

/-- The exception, or the kind of the result, of one operation. -/
def Op.flow (frac : ℕ) (c : Env CVal Γ) : Op ι Γ t → Except Err Kind
  | .const _ sc => .ok ⟨false, sc⟩
  | .input _ sc => .ok ⟨true, sc⟩
  | .add x y =>
    -- two private operands are not checked
    let k := (c.get x).kind
    let l := (c.get y).kind
    if (k.priv && l.priv) || k.sc == l.sc then .ok ⟨k.priv || l.priv, k.sc⟩ else .error .assertion
  | .sub x y =>
    -- public minus private is not checked
    let k := (c.get x).kind
    let l := (c.get y).kind
    if (!k.priv && l.priv) || k.sc == l.sc then .ok ⟨k.priv || l.priv, k.sc⟩ else .error .assertion
  | .lin pub _ x =>
    let k := (c.get x).kind
    if k.priv || pub then .ok k else .error .typeError
  | .pubMap _ x =>
    let k := (c.get x).kind
    if k.priv then .error .typeError else .ok k
  | .concat _ x y =>
    let k := (c.get x).kind
    let l := (c.get y).kind
    if k.priv ≠ l.priv then .error .typeError
    else if k.sc = l.sc then .ok k else .error .assertion
  | .bilin (w := w) κ _ _ _ x y =>
    let k := (c.get x).kind
    let l := (c.get y).kind
    if k.priv || l.priv then
      -- the default truncation needs room for twice the fractional bits and two more
      if (k.sc && l.sc) && decide (w < frac + frac + 2) then .error .valueError
      else .ok ⟨true, k.sc || l.sc⟩
    else if κ = .mul then .ok ⟨false, k.sc || l.sc⟩ else .error .typeError
  | .xor x y =>
    let k := (c.get x).kind
    let l := (c.get y).kind
    if k.priv then .ok k
    else if l.priv then .ok l
    else if k.sc = l.sc then .ok k else .error .assertion
  | .and _ _ x y =>
    let k := (c.get x).kind
    let l := (c.get y).kind
    if k.priv then .ok ⟨true, if l.priv then k.sc || l.sc else k.sc⟩
    else if l.priv then .ok l else .error .typeError
  | .or x y =>
    let k := (c.get x).kind
    let l := (c.get y).kind
    if k.priv && l.priv then .ok k else .error .typeError
  | .not x => if (c.get x).kind.priv then .ok (c.get x).kind else .error .typeError
  | .a2b _ x => if (c.get x).kind.priv then .ok (c.get x).kind else .error .typeError
  | .b2a x => if (c.get x).kind.priv then .ok (c.get x).kind else .error .typeError
  | .b2aBits _ x => if (c.get x).kind.priv then .ok (c.get x).kind else .error .typeError
  | .bitExtract i x =>
    if (c.get x).kind.priv then (if i = 0 then .error .typeError else .ok ⟨true, false⟩)
    else .error .valueError
  | .bitExtractB _ x => if (c.get x).kind.priv then .ok ⟨true, false⟩ else .error .valueError
  | .mulAb x b => if (c.get b).kind.priv then .ok ⟨true, (c.get x).kind.sc⟩ else .error .typeError
  | .trunc (w := w) m a x =>
    let k := (c.get x).kind
    if k.priv then
      if m = .secureq8 ∧ w < a + 1 then .error .valueError
      else if m = .heuristic ∧ w < (if k.sc then frac else 0) + a + 2 then .error .valueError
      else .ok k
    else if m = .loc then .ok k else .error .typeError
  | .reveal x => if (c.get x).kind.priv then .ok ⟨false, (c.get x).kind.sc⟩ else .error .typeError

/-- Parameters for which the operation is specified: words of at most 128 bits, a bit count that
the adder's masks can express, a bit position inside the word (the carry circuit works on a power
of two of bits, which must fit the word). -/
def Op.Sane : Op ι Γ t → Prop
  | .a2b (w := w) none _ => w ≤ 128
  | .a2b (w := w) (some k) _ => 0 < k ∧ k ≤ 63 ∧ k ≤ w
  | .b2a (w := w) _ => w ≤ 128
  | .b2aBits (w := w) k _ => k ≤ w
  | .bitExtract (w := w) i _ => i < w ∧ 2 ^ Nat.clog 2 i ≤ w
  | .bitExtractB (w := w) i _ => i < w
  | _ => True

/-- `p.Clear frac inp c r`: on the cleartext tensors `c` the program may end with `r`. -/
def Prog.Clear (frac : ℕ) (inp : ∀ i, T (ι i)) : {Γ : List Srt} → Prog ι Γ t → Env CVal Γ →
    Except Err (CVal t) → Prop
  | _, .ret x, c, r => r = .ok (c.get x)
  | _, .step o k, c, r =>
    match o.flow frac c with
    | .error er => r = .error er
    | .ok κ => ∃ z, (o.rounding frac c).Ok (o.exact inp c) z ∧ k.Clear frac inp (.cons ⟨z, κ⟩ c) r

/-- Every operation has sensible parameters. -/
def Prog.Sane : {Γ : List Srt} → Prog ι Γ t → Prop
  | _, .ret _ => True
  | _, .step o k => o.Sane ∧ k.Sane

/-! ## What is known before running -/

/-- Tensors of given kinds whose values do not matter. -/
def ofKinds (ks : Env (fun _ => Kind) Γ) : Env CVal Γ := ks.map fun _ k => ⟨0, k⟩

/-- The exception a program raises, or the kind of its result. -/
def Prog.ty (frac : ℕ) : {Γ : List Srt} → Prog ι Γ t → Env (fun _ => Kind) Γ → Except Err Kind
  | _, .ret x, ks => .ok (ks.get x)
  | _, .step o k, ks =>
    match o.flow frac (ofKinds ks) with
    | .error er => .error er
    | .ok κ => k.ty frac (.cons κ ks)

/-- No operation of the program rounds. -/
def Prog.Exact (frac : ℕ) : {Γ : List Srt} → Prog ι Γ t → Env (fun _ => Kind) Γ → Prop
  | _, .ret _, _ => True
  | _, .step o k, ks =>
    match o.flow frac (ofKinds ks) with
    | .error _ => True
    | .ok κ => o.rounding frac (ofKinds ks) = .exact ∧ k.Exact frac (.cons κ ks)

/-- The value of a cleartext program, without rounding. -/
def Prog.eval (inp : ∀ i, T (ι i)) : {Γ : List Srt} → Prog ι Γ t → Env T Γ → T t
  | _, .ret x, c => c.get x
  | _, .step o k, c => k.eval inp (.cons (o.exact inp (c.map fun _ v => ⟨v, ⟨true, false⟩⟩)) c)

/-- The operation opens nothing and does not reuse masks. -/
def Op.Closed (ks : Env (fun _ => Kind) Γ) : Op ι Γ t → Prop
  | .reveal _ => False
  | .bilin _ _ _ r x y => (ks.get x).priv = true → (ks.get y).priv = true → Function.Injective r
  | .and p _ x y => (ks.get x).priv = true → (ks.get y).priv = true → Function.Injective p
  | _ => True

/-- The program opens nothing and never reuses the masks of a product of two private tensors. -/
def Prog.Closed (frac : ℕ) : {Γ : List Srt} → Prog ι Γ t → Env (fun _ => Kind) Γ → Prop
  | _, .ret _, _ => True
  | _, .step o k, ks =>
    match o.flow frac (ofKinds ks) with
    | .error _ => True
    | .ok κ => o.Closed ks ∧ k.Closed frac (.cons κ ks)

/-! ## The scale of a payload -/

/-- How many bits a rounding drops. -/
def Rounding.bits : Rounding → ℕ
  | .exact => 0
  | .floor a => a
  | .by _ a => a

/-- How many fractional bits the exact result carries, if the operands carry `e`: a product has
those of both factors, a sum those of its summands. -/
def Op.exactScale (frac : ℕ) (e : Env (fun _ => ℕ) Γ) : Op ι Γ t → ℕ
  | .const _ sc => if sc then frac else 0
  | .input _ sc => if sc then frac else 0
  | .bilin _ _ _ _ x y => e.get x + e.get y
  | .bitExtract _ _ => 0
  | .bitExtractB _ _ => 0
  | .add x _ => e.get x
  | .sub x _ => e.get x
  | .lin _ _ x => e.get x
  | .pubMap _ x => e.get x
  | .concat _ x _ => e.get x
  | .xor x _ => e.get x
  | .and _ _ x _ => e.get x
  | .or x _ => e.get x
  | .not x => e.get x
  | .a2b _ x => e.get x
  | .b2a x => e.get x
  | .b2aBits _ x => e.get x
  | .mulAb x _ => e.get x
  | .trunc _ _ x => e.get x
  | .reveal x => e.get x

/-- The fractional bits the payload of a program's result really carries, next to the kind the
result is given. -/
def Prog.scale (frac : ℕ) : {Γ : List Srt} → Prog ι Γ t → Env (fun _ => Kind) Γ →
    Env (fun _ => ℕ) Γ → Except Err (Kind × ℕ)
  | _, .ret x, ks, e => .ok (ks.get x, e.get x)
  | _, .step o k, ks, e =>
    match o.flow frac (ofKinds ks) with
    | .error er => .error er
    | .ok κ => k.scale frac (.cons κ ks)
        (.cons (o.exactScale frac e - (o.rounding frac (ofKinds ks)).bits) e)

/-- The operands of a sum, difference or bitwise operation carry the same flag, and the operation
is not an explicit truncation. -/
def Op.Matched (ks : Env (fun _ => Kind) Γ) : Op ι Γ t → Prop
  | .add x y => (ks.get x).sc = (ks.get y).sc
  | .sub x y => (ks.get x).sc = (ks.get y).sc
  | .xor x y => (ks.get x).sc = (ks.get y).sc
  | .and _ _ x y => (ks.get x).sc = (ks.get y).sc
  | .trunc _ _ _ => False
  | _ => True

/-- All operations that run are matched. -/
def Prog.Matched (frac : ℕ) : {Γ : List Srt} → Prog ι Γ t → Env (fun _ => Kind) Γ → Prop
  | _, .ret _, _ => True
  | _, .step o k, ks =>
    match o.flow frac (ofKinds ks) with
    | .error _ => True
    | .ok κ => o.Matched ks ∧ k.Matched frac (.cons κ ks)

/-- The tensor stands for the cleartext value. -/
inductive Stands {s : Srt} : CVal s → Val s → Prop
  /-- all servers hold it -/
  | pub {v : T s} {p : Pub (T s)} {sc : Bool} (h : IsPub v p) :
      Stands ⟨v, ⟨false, sc⟩⟩ ⟨.pub p, sc⟩
  /-- it is shared -/
  | priv {v : T s} {x : Shares (T s)} {sc : Bool} (h : Holds v x) :
      Stands ⟨v, ⟨true, sc⟩⟩ ⟨.priv x, sc⟩

/-! ## Secrecy -/

/-- The masks of a product of two private operands are not reused: every element of the result is
masked with its own element of the zero sharing. Fails when the first operand is broadcast. -/
def Op.Masked (c : Env CVal Γ) : Op ι Γ t → Prop
  | .bilin _ _ _ r x y =>
    (c.get x).kind.priv = true → (c.get y).kind.priv = true → Function.Injective r
  | .and p _ x y =>
    (c.get x).kind.priv = true → (c.get y).kind.priv = true → Function.Injective p
  | _ => True

/-- If the operation opens a tensor, the two runs open the same value. -/
def Op.OpensSame (c c' : Env CVal Γ) : Op ι Γ t → Prop
  | .reveal x => (c.get x).val = (c'.get x).val
  | _ => True

/-- On the inputs `inp` and `inp'` the program opens the same values and never reuses masks,
whatever the truncations round to; where both runs truncate the same value the roundings agree. -/
def Prog.Agree (frac : ℕ) (inp inp' : ∀ i, T (ι i)) : {Γ : List Srt} → Prog ι Γ t →
    Env CVal Γ → Env CVal Γ → Prop
  | _, .ret _, _, _ => True
  | _, .step o k, c, c' =>
    match o.flow frac c with
    | .error _ => True
    | .ok κ => o.Masked c ∧ o.OpensSame c c' ∧ ∀ z z',
      (o.rounding frac c).Ok (o.exact inp c) z → (o.rounding frac c').Ok (o.exact inp' c') z' →
      (o.exact inp c = o.exact inp' c' → z = z') →
      k.Agree frac inp inp' (.cons ⟨z, κ⟩ c) (.cons ⟨z', κ⟩ c')

end Verif.Aby3
