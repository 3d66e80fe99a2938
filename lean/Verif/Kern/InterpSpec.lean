import Verif.Kern.ConvSpec
import Mathlib.Analysis.SpecialFunctions.Exp
import Mathlib.Algebra.Order.Floor.Ring

/-!
Specification of resizing (C129).  Samples sit at `0, 1, …, n - 1`; output `t` of `o` reads position `resizePos align n o t`.
-/

namespace Verif.Kern

/-- Where output `t` of `o` reads a line of `n` samples: with aligned corners the first and the last samples coincide, otherwise
the sample cells cover the same interval. -/
noncomputable def resizePos (align : Bool) (n o t : Nat) : ℝ :=
  if align then (t : ℝ) * (((n : ℝ) - 1) / ((o : ℝ) - 1)) else ((t : ℝ) + 1 / 2) * ((n : ℝ) / o) - 1 / 2

/-- The sample at integer position `k` of a line of `n`, the end samples repeated outside. -/
def edge (n : Nat) (k : Int) : Nat := min k.toNat (n - 1)

/-- `i` is a sample closest to position `s`. -/
def IsNearest (n : Nat) (s : ℝ) (i : Nat) : Prop := i < n ∧ ∀ j < n, |s - i| ≤ |s - j|

/-- Linear interpolation at `s` with the end samples repeated outside: every sample weighted by the hat function. -/
noncomputable def linAt (n : Nat) (s : ℝ) (f : Nat → ℝ) : ℝ :=
  ∑ i ∈ Finset.range n, max 0 (1 - |max 0 (min s ((n : ℝ) - 1)) - i|) * f i

/-- Keys' cubic convolution kernel with `a = -1/2`. -/
noncomputable def keys (x : ℝ) : ℝ :=
  if |x| ≤ 1 then 3 / 2 * |x| ^ 3 - 5 / 2 * |x| ^ 2 + 1
  else if |x| < 2 then -1 / 2 * |x| ^ 3 + 5 / 2 * |x| ^ 2 - 4 * |x| + 2
  else 0

/-- Cubic convolution at `s`: `keys` vanishes outside the four terms (`keys_far`). -/
noncomputable def cubicAt (n : Nat) (s : ℝ) (f : Nat → ℝ) : ℝ :=
  ∑ k ∈ Finset.Icc (⌊s⌋ - 1) (⌊s⌋ + 2), keys (s - k) * f (edge n k)

/-- Gaussian average with radius `r` around sample `t`, the end samples repeated. -/
noncomputable def gaussAt (r : Nat) (sigma : ℝ) (n t : Nat) (f : Nat → ℝ) : ℝ :=
  (∑ k ∈ Finset.Icc (-(r : Int)) r, Real.exp (-((k : ℝ) * k) / (2 * sigma * sigma)) * f (edge n (t + k))) /
    ∑ k ∈ Finset.Icc (-(r : Int)) r, Real.exp (-((k : ℝ) * k) / (2 * sigma * sigma))

/-- Input samples per output sample. -/
noncomputable def shrink (align : Bool) (n o : Nat) : ℝ := if align then ((n : ℝ) - 1) / ((o : ℝ) - 1) else (n : ℝ) / o

/-- What the two-dimensional modes resample: with antialiasing and when an axis shrinks, the Gaussian average over both axes
whose deviation is half the larger shrink factor and whose radius is the least integer above three deviations; otherwise the
image itself. -/
noncomputable def smoothed (align antialias : Bool) (H W OH OW : Nat) (f : Nat → Nat → ℝ) (y z : Nat) : ℝ :=
  open Classical in
  if antialias = true ∧ (1 < shrink align H OH ∨ 1 < shrink align W OW) then
    let sigma := max (shrink align H OH) (shrink align W OW) / 2
    let r := ⌈3 * sigma⌉.toNat
    gaussAt r sigma H y fun y' => gaussAt r sigma W z fun z' => f y' z'
  else f y z

/-- Where the code follows this specification: more than one output on the axis, or aligned corners, or only one sample. -/
def Fair (align : Bool) (n o : Nat) : Prop := o ≠ 1 ∨ align = true ∨ n = 1

end Verif.Kern
