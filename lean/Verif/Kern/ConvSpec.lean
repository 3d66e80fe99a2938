import Verif.Kern.Rows
import Mathlib.Algebra.BigOperators.Group.Finset.Basic
import Mathlib.Data.Real.Basic

/-!
Specification of the convolutions and of average pooling (C127, C128).  A line of length `len` with `p` zeros on both sides
has `len + 2 * p` positions; a window that starts at position `a` and has span `e + 1` fits when `a + e < len + 2 * p`.
-/

namespace Verif.Kern

open Verif.Tensor (numel InB)

variable {α : Type}

/-- Position `i` of a line `f` of length `len` padded by `p` zeros on both sides. -/
def padAt [Zero α] (len p : Nat) (f : Nat → α) (i : Nat) : α := if p ≤ i ∧ i - p < len then f (i - p) else 0

/-- There is one output for every `stride`-th position where the dilated kernel fits into the padded line. -/
def OutLen (T len k stride p dil : Nat) : Prop := ∀ t, t < T ↔ t * stride + dil * (k - 1) < len + 2 * p

/-- The output tensor holds `val` at every index, whatever the schedule and the earlier contents of its storage, and nothing
is written behind it. -/
def Yields (ss : List (List (List (Upd α)))) (shape : List Nat) (val : List Nat → α) : Prop :=
  ∀ m m' : Nat → α, Exec ss m m' →
    (∀ ix, InB shape ix → (outRows shape m').get ix = val ix) ∧ ∀ x, numel shape ≤ x → m' x = m x

/-- A freshly allocated or contiguous tensor of the given shape. -/
def Ten.Is (t : Ten α) (shape : List Nat) : Prop := t.shape = shape ∧ t.stride = rowStr shape

section
variable [CommRing α]

/-- Output `(b, oc, t)` of a one-dimensional convolution with groups: `ig` and `og` are channels per group. -/
def conv1At (x w : Ten α) (bias : Option (Nat → α)) (ig og len k stride p dil b oc t : Nat) : α :=
  (∑ c ∈ Finset.range ig, ∑ j ∈ Finset.range k,
    padAt len p (fun q => x.get [b, oc / og * ig + c, q]) (t * stride + j * dil) * w.get [oc, c, j]) + bias.elim 0 fun β => β oc

/-- Output `(b, oc, y, z)` of a two-dimensional convolution. -/
def conv2At (x w : Ten α) (bias : Option (Nat → α)) (ci H W kh kw sh sw ph pw dh dw b oc y z : Nat) : α :=
  (∑ c ∈ Finset.range ci, ∑ i ∈ Finset.range kh, ∑ j ∈ Finset.range kw,
    padAt H ph (fun q => padAt W pw (fun r => x.get [b, c, q, r]) (z * sw + j * dw)) (y * sh + i * dh) * w.get [oc, c, i, j])
    + bias.elim 0 fun β => β oc

/-- Output `(b, oc, e, y, z)` of a three-dimensional convolution without padding or dilation. -/
def conv3At (x w : Ten α) (bias : Option (Nat → α)) (ci kd kh kw sd sh sw b oc e y z : Nat) : α :=
  (∑ c ∈ Finset.range ci, ∑ h ∈ Finset.range kd, ∑ i ∈ Finset.range kh, ∑ j ∈ Finset.range kw,
    x.get [b, c, e * sd + h, y * sh + i, z * sw + j] * w.get [oc, c, h, i, j]) + bias.elim 0 fun β => β oc

end

/-! ### Average pooling -/

/-- How many outputs pooling has. Rounding down: one per window that fits. Rounding up: a further window as long as the one
before does not reach the end of the padded line, provided it starts before the right padding. -/
def PoolLen (ceil : Bool) (T len k stride p : Nat) : Prop :=
  if ceil then ∀ t, t < T ↔ (t = 0 ∨ (t - 1) * stride + k < len + 2 * p) ∧ t * stride < len + p
  else OutLen T len k stride p 1

/-- The positions of window `t` that count: those of the input, or those of the padded line. -/
def poolSet (countPad : Bool) (len k stride p t : Nat) : Finset Nat :=
  (Finset.range k).filter fun j => if countPad then t * stride + j < len + 2 * p else p ≤ t * stride + j ∧ t * stride + j - p < len

/-- Output `(b, c, t)`: the mean over the positions that count (and `0` when none does). -/
noncomputable def poolAt (countPad : Bool) (x : Ten ℝ) (len k stride p b c t : Nat) : ℝ :=
  (∑ j ∈ poolSet countPad len k stride p t, padAt len p (fun q => x.get [b, c, q]) (t * stride + j)) /
    (poolSet countPad len k stride p t).card

end Verif.Kern
