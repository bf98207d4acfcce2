import Verif.Tensor.Model

/-!
# Reassembling an image from patches

Models `patches2im` (shared.py 70-189) with `consolidation="SUM"` (the only one used by the
library), and `pad` of the native and int128 factories (native.py 226-227, int128.py 191-193).
-/

namespace Verif.Tensor

/-- `Factory.pad` of native and int128 tensors: `Tensor(tf.pad(tensor.value), paddings)` calls
`tf.pad` without its second argument, which raises whatever the arguments. -/
def factoryPad {α : Type} (_t : Ten α) (_ps : List (ℕ × ℕ)) : Option (Ten α) := none

/-- The sum over the patches of `stratified_img` (shared.py 106-143). Patch `m` is placed with its
top left corner at `(m // w' * strides[1], m % w' * strides[0])`: `xstart` runs with `strides[0]`
and `ystart` with `strides[1]` (113-116). Each patch writes a pixel at most once, so `scatter_nd`
is the `if`. `t` has shape `[bs, np, ph, pw, ch]`. -/
def stratifiedSum {α : Type} [AddCommMonoid α] (t : Ten α) (np w' ph pw s0 s1 : ℕ)
    (b y x c : ℕ) : α :=
  ∑ m ∈ Finset.range np,
    if m / w' * s1 ≤ y ∧ y < m / w' * s1 + ph ∧ m % w' * s0 ≤ x ∧ x < m % w' * s0 + pw then
      t.get [b, m, y - m / w' * s1, x - m % w' * s0, c]
    else 0

/-- One dimension of the final crop or pad (shared.py 158-183): offset of the crop, or `none` if
the image is larger than the reassembled one and `Factory.pad` is called. -/
def cropOffset (img out : ℕ) : Option ℕ := if img > out then none else some ((out - img) / 2)

/-- `patches2im` (shared.py 70-189) on channel-last patches, with an image size. -/
def patches2imNHWC {α : Type} [AddCommMonoid α] (t : Ten α) (ph pw s0 s1 : ℕ)
    (img : Option (ℕ × ℕ)) : Option (Ten α) :=
  match t.shape with
  | [bs, h', w', d] =>
      if d % (ph * pw) ≠ 0 ∨ h' = 0 ∨ w' = 0 then none else do
        let ch := d / (ph * pw)
        let r ← reshape t [bs, h' * w', ph, pw, ch]
        let wout := (w' - 1) * s0 + pw
        let hout := (h' - 1) * s1 + ph
        let full : Ten α := ⟨[bs, hout, wout, ch], fun idx =>
          match idx with
          | [b, y, x, c] => stratifiedSum r (h' * w') w' ph pw s0 s1 b y x c
          | _ => 0⟩
        match img with
        | none => some full
        | some (ih, iw) => do
            let top ← cropOffset ih hout
            let left ← cropOffset iw wout
            some ⟨[bs, ih, iw, ch], fun idx =>
              match idx with
              | [b, y, x, c] => full.get [b, y + top, x + left, c]
              | _ => 0⟩
  | _ => none

/-- `patches2im` in either data format. -/
def patches2im {α : Type} [AddCommMonoid α] (t : Ten α) (ph pw s0 s1 : ℕ)
    (img : Option (ℕ × ℕ)) (f : Format) : Option (Ten α) := do
  let t ← if f = .nchw then transpose t [0, 2, 3, 1] else some t
  let z ← patches2imNHWC t ph pw s0 s1 img
  if f = .nchw then transpose z [0, 3, 1, 2] else some z

end Verif.Tensor
