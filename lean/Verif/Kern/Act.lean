import Verif.Kern.Norm

/-!
Activations: `backends/cpu/ops/{SiLUOp,SigmoidOp,ReLUOp,GELUOp,QuickGELUOp}.cpp` with the `float32` kernels of
`backends/cpu/kernels/arm/{silu,sigmoid,relu,gelu}.cpp` and `backends/cpu/kernels/x86/{silu,sigmoid,gelu}.cpp`.
Real arithmetic, see `Exp.lean`; constants as written; `std::exp` and `expf` are the exponential.
-/

namespace Verif.Kern

open Verif.Tensor (numel)

/-- The rest of `vsigmoid_f32` after the exponential, arm `math.hpp` L264-266: `vrecpeq_f32` is the estimate `est`,
`vrecpsq_f32(y, o)` is `2 - y * o`. -/
noncomputable def armRecip (est : ℝ → ℝ) (y : ℝ) : ℝ :=
  let o := est y
  let o := (2 - y * o) * o
  (2 - y * o) * o

/-- `vsigmoid_f32`, arm `math.hpp` L259-267, one lane. -/
noncomputable def armSigmoid (est : ℝ → ℝ) (x : ℝ) : ℝ := armRecip est (fastExp armExp (-x) + 1)

/-- The sigmoid inside `silu_func`, x86 `silu.cpp` L22-27. -/
noncomputable def x86SiluSigmoid (x : ℝ) : ℝ := 1 / (1 + fastExp x86Exp (-x))

/-- Numerator of `__sigmoid_fp32_vector`, `sigmoid-inl.hpp` L37-42, L65-69. -/
noncomputable def x86SigNum (f : ℝ) : ℝ :=
  let f2 := f + f
  let a1 := f2 * 0.00949107017368078 + 0.0654858946800232
  let a2 := f2 * a1 + (0.231547489762306 - 0.00949107017368078)
  let a3 := f2 * a2 + 0.530778527259827 - a1
  let a4 := f2 * a3 + 0.855334937572479 - a2
  f * a4 + 0.500000894069672 - a3

/-- Denominator, `sigmoid-inl.hpp` L44-48, L71-74. -/
noncomputable def x86SigDen (f : ℝ) : ℝ :=
  let f2 := f + f
  let b1 := f2 * 0.130970627069473 + 3.99615288415589e-07
  let b2 := f2 * b1 + (1.06155431270599 - 0.130970627069473)
  let b3 := f2 * b2 + 1.35144250634767e-06 - b1
  f * b3 + 1 - b2

/-- `__sigmoid_fp32_vector`, `sigmoid-inl.hpp` L34-77, one lane. -/
noncomputable def x86Sigmoid (v : ℝ) : ℝ :=
  let f := max (min v 11.5) (-11.5) * (1 / 12)
  x86SigNum f / x86SigDen f

/-- Numerator of `vtanh_fp32` without the factor `x`, arm `math.hpp` L307-313, L335-341: `vmlaq_f32(a, b, c) = a + b * c`. -/
noncomputable def tanhA (z : ℝ) : ℝ :=
  4.89352455891786e-3 + (6.37261928875436e-4 + (1.48572235717979e-5 + (5.12229709037114e-8 + (-8.60467152213735e-11 +
    (2.00018790482477e-13 + -2.76076847742355e-16 * z) * z) * z) * z) * z) * z

/-- Denominator, arm `math.hpp` L315-318, L345-348. -/
noncomputable def tanhB (z : ℝ) : ℝ :=
  4.89352518554385e-3 + (2.26843463243900e-3 + (1.18534705686654e-4 + 1.19825839466702e-6 * z) * z) * z

/-- `vtanh_fp32`, arm `math.hpp` L321-364, one lane: the sign of `x` is put on the quotient, which is nonnegative. -/
noncomputable def armTanh (x : ℝ) : ℝ :=
  let a := if |x| ≤ 9 then |x| else 9
  let y := tanhA (a * a) * a / tanhB (a * a)
  let y := if x < 0 then -|y| else |y|
  if 1e-4 ≤ |x| then y else x

/-- `gelu_fp32`, arm `gelu.cpp` L25-35 and the tail L39-50, one element. -/
noncomputable def armGelu (x : ℝ) : ℝ :=
  let inner := x + 0.044715 * (x * (x * x))
  0.5 * x * (1 + armTanh (0.79788456 * inner))

/-- The operators. -/
inductive Act where
  | silu
  | sigmoid
  | relu
  | gelu
  | quickGelu
deriving DecidableEq, Repr

/-- What a kernel does: the block of its parallel loop, the end of its vector loops, and the vector and scalar formulas. -/
structure ActKernel where
  block : Nat
  vend : Nat → Nat
  vec : ℝ → ℝ
  scal : ℝ → ℝ

/-- The kernel called by `forward`; `none` when the branch is empty (or prints that it is not implemented) and stores
nothing.
arm: `silu.cpp` L13-88, `sigmoid.cpp` L13-88, `relu.cpp` L11-84, `gelu.cpp` L14-80, L82-121.
x86: `silu.cpp` L16-54, `sigmoid.cpp` L16-44, `gelu.cpp` L16-22 (empty bodies), `ReLUOp.cpp` L24-26. -/
noncomputable def actKernel (est : ℝ → ℝ) : Simd → Act → Option ActKernel
  | .arm, .silu => some ⟨16, fun n => n / 4 * 4, fun x => x * armSigmoid est x, fun x => x / (1 + Real.exp (-x))⟩
  | .arm, .sigmoid => some ⟨16, fun n => n / 4 * 4, fun x => armSigmoid est x, fun x => 1 / (1 + Real.exp (-x))⟩
  | .arm, .relu => some ⟨16, fun n => n / 4 * 4, fun x => max x 0, fun x => if x > 0 then x else 0⟩
  | .arm, .gelu => some ⟨4, fun n => n / 4 * 4, armGelu, armGelu⟩
  | .arm, .quickGelu => some ⟨4, fun n => n / 4 * 4, fun x => x * armSigmoid est (x * 1.702),
      fun x => x * (1 / (1 + Real.exp (-(1.702 * x))))⟩
  | .x86 l, .silu => some ⟨l, fun n => n / l * l, fun x => x * x86SiluSigmoid x, fun x => x / (1 + Real.exp (-x))⟩
  | .x86 l, .sigmoid => some ⟨l, fun n => n / l * l, x86Sigmoid, fun x => 1 / (1 + Real.exp (-x))⟩
  | .x86 _, .relu => none
  | .x86 _, .gelu => none
  | .x86 _, .quickGelu => none

/-- One element; in place the element read is the cell itself. -/
noncomputable def ActKernel.upd (k : ActKernel) (len : Nat) (inplace : Bool) (X : Nat → ℝ) (i : Nat) : Upd ℝ :=
  ⟨i, fun y =>
    let v := if inplace then y else X i
    if i < k.vend len then k.vec v else k.scal v⟩

/-- A kernel call: with several threads a parallel loop over the blocks, then the rest; otherwise one loop.  The loops of
single blocks, half blocks and vectors visit the elements in order. -/
noncomputable def ActKernel.call (k : ActKernel) (threads len : Nat) (inplace : Bool) (X : Nat → ℝ) :
    List (List (List (Upd ℝ))) :=
  let main := len / k.block * k.block
  if 1 < threads then
    [(List.range (len / k.block)).map fun b => (List.range k.block).map fun j => k.upd len inplace X (b * k.block + j),
     [(List.range (len - main)).map fun j => k.upd len inplace X (main + j)]]
  else [[(List.range len).map fun i => k.upd len inplace X i]]

/-- `forward` of the five operators: GELU and QuickGELU assert a contiguous input (`GELUOp.cpp` L18, `QuickGELUOp.cpp`
L18), the others do not look at strides. -/
noncomputable def actForward (est : ℝ → ℝ) (s : Simd) (a : Act) (threads : Nat) (inplace : Bool) (x : Ten ℝ) :
    Except NFail (List (List (List (Upd ℝ)))) :=
  if (a = .gelu ∨ a = .quickGelu) ∧ x.stride ≠ rowStr x.shape then .error .assertion
  else match actKernel est s a with
    | some k => .ok (k.call threads (numel x.shape) inplace x.data)
    | none => .ok []

end Verif.Kern
