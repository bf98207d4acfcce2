import Verif.Aby3.Network
import Mathlib.Algebra.BigOperators.Fin
import Mathlib.Data.Finset.Lattice.Fold

/-!
# What a feed-forward network computes, and how far a private prediction may be from it

`Arch.plain` is the network over the rational numbers. `Arch.err` bounds the error of a prediction with
fixed-point numbers: the weights carry an error of at most `δ`, the inputs an error of at most `E i t`,
every product is rounded once. `Arch.Fits` says that no intermediate result leaves the range.
-/

namespace Verif.Aby3

open Verif

variable {p k l m q : ℕ}

/-- Weights as numbers. -/
abbrev Numbers (q : ℕ) : Type := Fin q → ℚ

/-- The output of a linear layer for one sample. -/
def linPlain (taps : Fin m → List (Fin k × Fin q)) (v : Fin q → ℚ) (x : Fin k → ℚ) (j : Fin m) : ℚ :=
  ((taps j).map fun ts => x ts.1 * v ts.2).sum

/-- A value of the input, zero in the padding. -/
def padded (x : Fin k → ℚ) : Option (Fin k) → ℚ
  | some t => x t
  | none => 0

/-- The largest of `s + 1` values. -/
def largest {s : ℕ} (f : Fin (s + 1) → ℚ) : ℚ := Finset.univ.sup' Finset.univ_nonempty f

/-- The network over the rational numbers, for one sample. -/
def Arch.plain {k l : ℕ} : (a : Arch k l) → a.Params Numbers → (Fin k → ℚ) → Fin l → ℚ
  | .nil, _, x => x
  | .lin taps rest, θ, x => rest.plain θ.2 (linPlain taps θ.1 x)
  | .bias r rest, θ, x => rest.plain θ.2 fun j => x j + θ.1 (r j)
  | .relu rest, θ, x => rest.plain θ fun j => max 0 (x j)
  | .maxpool win rest, θ, x => rest.plain θ fun j => largest fun t => padded x (win t j)
  | .avgpool c win rest, θ, x => rest.plain θ fun j => c * ((win j).map x).sum

/-- The error of the products of a linear layer before rounding: the error of the input times the
weight, and the input times the error of the weight. -/
def linErr (δ : ℚ) (taps : Fin m → List (Fin k × Fin q)) (v : Fin q → ℚ) (x E : Fin k → ℚ)
    (j : Fin m) : ℚ :=
  ((taps j).map fun ts => E ts.1 * (|v ts.2| + δ) + |x ts.1| * δ).sum

/-- The error of an average: the errors of the window times the number, and the sum and its error times the
error of the number. -/
def avgErr (u c : ℚ) (L : List (Fin k)) (x E : Fin k → ℚ) : ℚ :=
  |c| * (L.map E).sum + (|(L.map x).sum| + (L.map E).sum + 1) * u

/-- The error of the network, for one sample: `u` is the error of one rounding. -/
def Arch.err (u δ : ℚ) {k l : ℕ} :
    (a : Arch k l) → a.Params Numbers → (x E : Fin k → ℚ) → Fin l → ℚ
  | .nil, _, _, E => E
  | .lin taps rest, θ, x, E =>
    rest.err u δ θ.2 (linPlain taps θ.1 x) fun j => linErr δ taps θ.1 x E j + u
  | .bias r rest, θ, x, E => rest.err u δ θ.2 (fun j => x j + θ.1 (r j)) fun j => E j + δ
  | .relu rest, θ, x, E => rest.err u δ θ (fun j => max 0 (x j)) E
  | .maxpool win rest, θ, x, E => rest.err u δ θ (fun j => largest fun t => padded x (win t j))
      fun j => largest fun t => padded E (win t j)
  | .avgpool c win rest, θ, x, E => rest.err u δ θ (fun j => c * ((win j).map x).sum)
      fun j => avgErr u c (win j) x E

/-- Nothing overflows, for one sample: the products before rounding stay below a quarter of the ring,
what goes into `relu` and what is revealed stays below half of it, what is compared below a quarter. -/
def Arch.Fits (w frac : ℕ) (δ : ℚ) {k l : ℕ} :
    (a : Arch k l) → a.Params Numbers → (x E : Fin k → ℚ) → Prop
  | .nil, _, x, E => ∀ j, (|x j| + E j) * 2 ^ frac < 2 ^ (w - 1)
  | .lin taps rest, θ, x, E =>
    (∀ j, (|linPlain taps θ.1 x j| + linErr δ taps θ.1 x E j) * (2 ^ frac * 2 ^ frac) < 2 ^ (w - 2)) ∧
      rest.Fits w frac δ θ.2 (linPlain taps θ.1 x) fun j => linErr δ taps θ.1 x E j + 1 / 2 ^ frac
  | .bias r rest, θ, x, E => rest.Fits w frac δ θ.2 (fun j => x j + θ.1 (r j)) fun j => E j + δ
  | .relu rest, θ, x, E =>
    (∀ j, (|x j| + E j) * 2 ^ frac < 2 ^ (w - 1)) ∧ rest.Fits w frac δ θ (fun j => max 0 (x j)) E
  | .maxpool win rest, θ, x, E =>
    (∀ j t, (|padded x (win t j)| + padded E (win t j)) * 2 ^ frac < 2 ^ (w - 2)) ∧
      rest.Fits w frac δ θ (fun j => largest fun t => padded x (win t j))
        fun j => largest fun t => padded E (win t j)
  | .avgpool c win rest, θ, x, E =>
    (|c| * 2 ^ frac < 2 ^ (w - 1) ∧
      ∀ j, (|((win j).map x).sum| + ((win j).map E).sum) * (|c| + 1 / 2 ^ frac) * (2 ^ frac * 2 ^ frac) < 2 ^ (w - 2)) ∧
      rest.Fits w frac δ θ (fun j => c * ((win j).map x).sum) fun j => avgErr (1 / 2 ^ frac) c (win j) x E

/-- All weights can be encoded. -/
def Arch.Encodable (w frac : ℕ) {k l : ℕ} : (a : Arch k l) → a.Params Numbers → Prop
  | .nil, _ => True
  | .lin _ rest, θ => (∀ s, |θ.1 s| * 2 ^ frac < 2 ^ (w - 1)) ∧ rest.Encodable w frac θ.2
  | .bias _ rest, θ => (∀ s, |θ.1 s| * 2 ^ frac < 2 ^ (w - 1)) ∧ rest.Encodable w frac θ.2
  | .relu rest, θ => rest.Encodable w frac θ
  | .maxpool _ rest, θ => rest.Encodable w frac θ
  | .avgpool _ _ rest, θ => rest.Encodable w frac θ

/-- The averages divide by numbers that the word has room for. -/
def Arch.Averages (w frac : ℕ) {k l : ℕ} : Arch k l → Prop
  | .nil => True
  | .lin _ rest => rest.Averages w frac
  | .bias _ rest => rest.Averages w frac
  | .relu rest => rest.Averages w frac
  | .maxpool _ rest => rest.Averages w frac
  | .avgpool c _ rest => (∀ a : ℕ, c * 2 ^ a = 1 → frac + a + 2 ≤ w) ∧ rest.Averages w frac

/-- How many layers round: linear layers and averages. -/
def Arch.depth {k l : ℕ} : Arch k l → ℕ
  | .nil => 0
  | .lin _ rest => rest.depth + 1
  | .bias _ rest => rest.depth
  | .relu rest => rest.depth
  | .maxpool _ rest => rest.depth
  | .avgpool _ _ rest => rest.depth + 1

/-- Is there a linear layer? -/
def Arch.linear {k l : ℕ} : Arch k l → Bool
  | .nil => false
  | .lin _ _ => true
  | .bias _ rest => rest.linear
  | .relu rest => rest.linear
  | .maxpool _ rest => rest.linear
  | .avgpool _ _ rest => rest.linear

/-- How many layers have a bias. -/
def Arch.biases {k l : ℕ} : Arch k l → ℕ
  | .nil => 0
  | .lin _ rest => rest.biases
  | .bias _ rest => rest.biases + 1
  | .relu rest => rest.biases
  | .maxpool _ rest => rest.biases
  | .avgpool _ _ rest => rest.biases

/-- The layers of a network are moderate on a sample: the weights that go into one output of a linear
layer or an average sum up to at most `κ`, and the inputs that go into it to at most `A`. -/
def Arch.Moderate (δ κ A : ℚ) {k l : ℕ} : (a : Arch k l) → a.Params Numbers → (Fin k → ℚ) → Prop
  | .nil, _, _ => True
  | .lin taps rest, θ, x =>
    (∀ j, ((taps j).map fun ts => |θ.1 ts.2| + δ).sum ≤ κ ∧ ((taps j).map fun ts => |x ts.1|).sum ≤ A) ∧
      rest.Moderate δ κ A θ.2 (linPlain taps θ.1 x)
  | .bias r rest, θ, x => rest.Moderate δ κ A θ.2 fun j => x j + θ.1 (r j)
  | .relu rest, θ, x => rest.Moderate δ κ A θ fun j => max 0 (x j)
  | .maxpool win rest, θ, x => rest.Moderate δ κ A θ fun j => largest fun t => padded x (win t j)
  | .avgpool c win rest, θ, x =>
    (∀ j, (|c| + δ) * (win j).length ≤ κ ∧ ((win j).map fun t => |x t|).sum ≤ A) ∧
      rest.Moderate δ κ A θ fun j => c * ((win j).map x).sum

end Verif.Aby3
