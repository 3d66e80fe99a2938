import Verif.Kern.Rows
import Mathlib.Analysis.SpecialFunctions.Trigonometric.DerivHyp
import Mathlib.Analysis.Real.Pi.Bounds

/-!
What the activations should be.
-/

namespace Verif.Kern

open Verif.Tensor (numel InB)

/-- The logistic function. -/
noncomputable def sigm (x : ℝ) : ℝ := 1 / (1 + Real.exp (-x))

/-- `x * sigmoid(x)`. -/
noncomputable def siluAt (x : ℝ) : ℝ := x * sigm x

/-- `x * sigmoid(1.702 x)`. -/
noncomputable def quickGeluAt (x : ℝ) : ℝ := x * sigm (1.702 * x)

/-- GELU with the usual `tanh` formula. -/
noncomputable def geluAt (x : ℝ) : ℝ := 0.5 * x * (1 + Real.tanh (Real.sqrt (2 / Real.pi) * (x + 0.044715 * x ^ 3)))

/-- Every schedule leaves at every index of an output of the input's shape a value that stands in relation `R` to the input
there, and writes nowhere else. -/
def PointwiseOk (ss : List (List (List (Upd ℝ)))) (x : Ten ℝ) (R : ℝ → ℝ → Prop) : Prop :=
  ∀ m m' : Nat → ℝ, Exec ss m m' →
    (∀ ix, InB x.shape ix → R (x.get ix) ((outRows x.shape m').get ix)) ∧ ∀ a, numel x.shape ≤ a → m' a = m a

/-- The same in place: input and output are the same storage. -/
def InplaceOk (ss : List (List (List (Upd ℝ)))) (shape : List Nat) (R : ℝ → ℝ → Prop) : Prop :=
  ∀ m m' : Nat → ℝ, Exec ss m m' →
    (∀ ix, InB shape ix → R ((outRows shape m).get ix) ((outRows shape m').get ix)) ∧ ∀ a, numel shape ≤ a → m' a = m a

end Verif.Kern
