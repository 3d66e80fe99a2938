import Verif.Ops.Elewise
import Mathlib.Data.Rat.Floor

/-!
# Filling, casting, scattering tensors

Models of mllm/backends/cpu/ops/FillOp.cpp (`FO`), kernels/common/fill-inl.hpp (`FI`), kernels/arm/fill.cpp (`FA`), core/Tensor.cpp
(`TC`), ops/CastTypeOp.cpp (`CT`), kernels/arm/cast_types.cpp (`CA`), ops/Scatter2ShardsOp.cpp (`SS`) and ops/CmpOp.cpp (`CO`).
Memory is a function of the element's position; `none` is memory nothing was written to.  Numbers are exact.
-/

namespace Verif.Fill

open Verif.Tensor

variable {α β : Type}

/-- A vector store of `n` lanes at `o` (`StoreU`, `StoreN`, `vst1q`), or `n` scalar stores. -/
def store (d : Nat → Option α) (o n : Nat) (v : Nat → α) : Nat → Option α := fun k => if o ≤ k ∧ k < o + n then some (v (k - o)) else d k

/-- `fill_zeros_impl`, `fill_ones_impl`, `fill_value_impl` (FI L21-L30, L92-L101, L147-L156) with `N` lanes; FA L12-L52 with 4 and
L89-L129 with 8.  The loop runs while a whole vector fits: `count / N` times. -/
def fillValue (N count : Nat) (v : α) (d : Nat → Option α) : Nat → Option α :=
  let d := (List.range (count / N)).foldl (fun d b => store d (b * N) N fun _ => v) d
  store d (count / N * N) (count - count / N * N) fun _ => v

/-- The number of elements that `fill_arange_impl` fills (FI L207-L222); its caller has `step ≠ 0`.  The count is a `size_t`. -/
def arangeFill (count : Nat) (start stop step : ℚ) : Nat :=
  if (0 < step ∧ start < stop) ∨ (step < 0 ∧ stop < start) then
    let q := (stop - start) / step
    if 0 < q then
      let n := ⌈q⌉₊
      let n := if 0 < step then (if stop ≤ start + (n - 1 : ℚ) * step then n - 1 else n) else (if start + (n - 1 : ℚ) * step ≤ stop then n - 1 else n)
      min n count
    else 0
  else 0

/-- The vector loop for floats (FI L225-L244): the vector of the current values moves by `N` steps; then single elements.
FA L54-L70 is the same with four lanes and the whole tensor for `n`. -/
def arangeVec (N n : Nat) (start step : ℚ) (d : Nat → Option ℚ) : Nat → Option ℚ :=
  let r := (List.range (n / N)).foldl (fun (s : (Nat → Option ℚ) × (Nat → ℚ)) b => (store s.1 (b * N) N s.2, fun j => s.2 j + step * N))
    (d, fun j => start + j * step)
  store r.1 (n / N * N) (n - n / N * N) fun r => start + ((n / N * N + r : Nat) : ℚ) * step

/-- The scalar loop of the other types (FI L246-L247), `conv` being the conversion to the type. -/
def arangeScalar (n : Nat) (conv : ℚ → β) (start step : ℚ) (d : Nat → Option β) : Nat → Option β := store d 0 n fun i => conv (start + i * step)

/-- Conversion of a number to an integer type: toward zero. -/
def trunc (q : ℚ) : Int := if 0 ≤ q then ⌊q⌋ else ⌈q⌉

/-- The length of `Tensor::arange` (TC L133); `none`: a division by zero or a negative length. -/
def arangeLen (start stop step : ℚ) : Option Nat :=
  if step = 0 then none else if trunc ((stop - start) / step) < 0 then none else some (trunc ((stop - start) / step)).toNat

/-- `Tensor::arange` of floats (TC L132-L138, FI L198-L244): the length and the elements. -/
def arange (N : Nat) (start stop step : ℚ) : Option (Nat × (Nat → Option ℚ)) :=
  (arangeLen start stop step).map fun c => (c, arangeVec N (arangeFill c start stop step) start step fun _ => none)

/-- `Tensor::arange` of another type. -/
def arangeInt (conv : ℚ → β) (start stop step : ℚ) : Option (Nat × (Nat → Option β)) :=
  (arangeLen start stop step).map fun c => (c, arangeScalar (arangeFill c start stop step) conv start step fun _ => none)

/-- One step of the generator (FI L309, L312; FA L81) in 64-bit arithmetic. -/
def lcg (s : Nat) : Nat := ((1103515245 * s) % 18446744073709551616 + 12345) % 18446744073709551616 % 2147483648

/-- The number made of a state (FI L313-L314). -/
def scale (start stop : ℚ) (s : Nat) : ℚ := start + (s : ℚ) / 2147483647 * (stop - start)

/-- `fill_random_impl` (FI L294-L316): the `i`-th element; the generator is advanced once before the loop. -/
def randomX86 (start stop : ℚ) (seed i : Nat) : ℚ := if stop - start = 0 then start else scale start stop (lcg^[i + 2] seed)

/-- The loops without the first advance: half precision on x86 (FO L310-L322), ARM (FA L72-L86, L156-L170). -/
def randomArm (start stop : ℚ) (seed i : Nat) : ℚ := scale start stop (lcg^[i + 1] seed)

/-- A cast kernel on ARM (CA L12-L40 and its like, N = 4, 8, 16): the body of the (possibly parallel) loop for the block that begins
at `i`. -/
def castBlock (N len : Nat) (conv : α → β) (src : Nat → α) (d : Nat → Option β) (b : Nat) : Nat → Option β :=
  let i := b * N
  if N ≤ len - i then store d i N fun j => conv (src (i + j)) else store d i (len - i) fun j => conv (src (i + j))

/-- The blocks in the order in which the threads get to them. -/
def cast (N len : Nat) (conv : α → β) (src : Nat → α) (order : List Nat) : Nat → Option β :=
  order.foldl (castBlock N len conv src) fun _ => none

/-- `CPUCastTypeOp::forward` on x86 (CT L18-L177): the whole switch is left out of the program. -/
def castX86 (_len : Nat) (_conv : α → β) (_src : Nat → α) : Nat → Option β := fun _ => none

/-- `CPUScatter2ShardsOp::forward` (SS L13-L42): the element copies: number of the shard, position in the shard, position in the
source.  `stride0` is the source's first stride. -/
def scatter (shape : List Nat) (stride0 dim : Nat) : List (Nat × Nat × Nat) :=
  let right := numel (shape.drop (dim + 1))
  let stride := if dim + 1 = shape.length then 1 else numel (shape.drop dim)
  let left := if dim = 0 then stride0 else numel (shape.take dim)
  (List.range (shape.getD dim 0)).flatMap fun lo => (List.range left).flatMap fun ho =>
    (List.range right).map fun r => (lo, ho * right + r, ho * stride + lo * right + r)

/-- `CPUEqualOp::forward` after `reshape` (CO L11-L106 and core/aops/CmpOp.cpp L10-L33, L58-L66): the scheme of the element-wise operators
(`Ops.elewise`); the third branch exists for 32-bit types. -/
def equal [DecidableEq α] (naive : Bool) (a b : Tens α) : Option (Tens Bool) := Ops.elewise naive (fun x y => decide (x = y)) a b

end Verif.Fill
