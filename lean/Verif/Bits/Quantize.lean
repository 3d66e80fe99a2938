import Verif.Bits.Rd
import Mathlib.Data.Rat.Floor
import Mathlib.Algebra.Order.Round
import Mathlib.Tactic.Linarith
import Mathlib.Tactic.FieldSimp
import Mathlib.Tactic.Ring
import Mathlib.Tactic.IntervalCases

/-!
# Quantisation of a row of activations

`mllm/backends/cpu/kernels/arm/quantize/bitspack/bitspack.cpp` L24-178 and the row loop of `pack_activations`
(bitspack.hpp L104-148).  Arithmetic is exact: floats are rationals and float operations do not round.
-/

namespace Verif.Bits

/-- The four lanes after vectors `0 … t` (bitspack.cpp L59-66). -/
def lanes4 (op : ℚ → ℚ → ℚ) (v : Nat → ℚ) : Nat → Nat → ℚ
  | 0, l => v l
  | t + 1, l => op (lanes4 op v t l) (v (4 * (t + 1) + l))

/-- `vminvq_f32` and `vmaxvq_f32`. -/
def across (op : ℚ → ℚ → ℚ) (f : Nat → ℚ) : ℚ := op (op (f 0) (f 1)) (op (f 2) (f 3))

/-- The remainder loop (bitspack.cpp L71-75): `c` counts the values still to compare, up to `size`. -/
def restMin (v : Nat → ℚ) (size : Nat) : Nat → ℚ → ℚ
  | 0, m => m
  | c + 1, m => restMin v size c (if v (size - (c + 1)) < m then v (size - (c + 1)) else m)

/-- The same loop for the maximum. -/
def restMax (v : Nat → ℚ) (size : Nat) : Nat → ℚ → ℚ
  | 0, m => m
  | c + 1, m => restMax v size c (if v (size - (c + 1)) > m then v (size - (c + 1)) else m)

/-- `min` of `find_min_and_max` (bitspack.cpp L47-75). -/
def findMin (v : Nat → ℚ) (size : Nat) : ℚ :=
  if 3 < size then restMin v size (size % 4) (across min (lanes4 min v (size / 4 - 1)))
  else restMin v size size (v 0)

/-- `max` of `find_min_and_max` (bitspack.cpp L47-75). -/
def findMax (v : Nat → ℚ) (size : Nat) : ℚ :=
  if 3 < size then restMax v size (size % 4) (across max (lanes4 max v (size / 4 - 1)))
  else restMax v size size (v 0)

/-- `std::round`: halves go away from zero. -/
def cround (x : ℚ) : ℤ := if 0 ≤ x then ⌊x + 1 / 2⌋ else ⌈x - 1 / 2⌉

/-- `vcvtnq_s32_f32` and `std::nearbyint` under `FE_TONEAREST`: halves go to the even neighbour. -/
def rne (x : ℚ) : ℤ :=
  if x - ⌊x⌋ < 1 / 2 then ⌊x⌋ else if 1 / 2 < x - ⌊x⌋ then ⌊x⌋ + 1 else if ⌊x⌋ % 2 = 0 then ⌊x⌋ else ⌊x⌋ + 1

/-- `get_qvals_range` for eight bits, not symmetric (bitspack.cpp L26-34, bitspack.hpp L104). -/
def qmin : ℤ := -(2 ^ (8 - 1))
/-- See `qmin`. -/
def qmax : ℤ := 2 ^ (8 - 1) - 1

/-- `get_scale` (bitspack.cpp L36-40); `none` is the failed `assert(vmin < vmax)`. -/
def getScale (vmin vmax : ℚ) : Option ℚ := if vmin < vmax then some ((vmax - vmin) / ((qmax - qmin : ℤ) : ℚ)) else none

/-- `zero` of `get_scale_and_zero` (bitspack.cpp L42-45). -/
def getZero (scale vmin : ℚ) : ℤ := qmin - cround (vmin / scale)

/-- The addend `1e-16` of `quantize` (bitspack.cpp L104). -/
def eps : ℚ := 1 / 10 ^ 16

/-- One value of `quantize` (bitspack.cpp L116-127, L150-158): the vector and the scalar form agree in exact
arithmetic.  Values outside the range are clipped before narrowing. -/
def quant1 (scale : ℚ) (zero : Byte) (x : ℚ) : Byte :=
  BitVec.ofInt 8 (max qmin (min (rne ((zero.toInt : ℚ) + x * (1 / (scale + eps)))) qmax))

/-- `quantize` (bitspack.cpp L99-163): vectors of eight while `i + 8 < size`, then one by one; the stores in order. -/
def quantize (scale : ℚ) (zero : Byte) (v : Nat → ℚ) (size : Nat) : List (Nat × Byte) :=
  ((List.range ((size - 1) / 8)).flatMap fun t => (List.range 8).map fun l => (8 * t + l, quant1 scale zero (v (8 * t + l))))
  ++ (List.range' (8 * ((size - 1) / 8)) (size - 8 * ((size - 1) / 8))).map fun i => (i, quant1 scale zero (v i))

/-- The scale, the stored zero and the stored values of one row of `pack_activations` (bitspack.hpp L106-148,
without weight zeros); `zero` is stored and passed on as `int8_t`. -/
def packRow (v : Nat → ℚ) (k : Nat) (mem : Nat → Byte) : Option (ℚ × Byte × (Nat → Byte)) :=
  (getScale (findMin v k) (findMax v k)).map fun s =>
    let z := BitVec.ofInt 8 (getZero s (findMin v k))
    (s, z, applyW mem (quantize s z v k))

end Verif.Bits
