import Verif.Tensor.Index
/-
Tensor views and data-movement operators of the CPU backend (C18, C19, C20, C40).
Sources: mllm/core/aops/{SliceOp,ViewOp,ReshapeOp,PermuteOp,TransposeOp,ContiguousOp}.cpp,
mllm/backends/cpu/ops/{PermuteOp,TransposeOp,ReshapeOp,ContiguousOp}.cpp,
mllm/backends/cpu/kernels/common/permute-inl.hpp, kernels/x86/transpose.cpp, kernels/arm/permute.cpp.

Assumptions: all shape/stride/offset arithmetic stays inside `int32_t`; one lane per element;
`MLLM_RT_ASSERT` compiled in. `none` = the process ends with an error (or, where stated, undefined
behaviour). `enable_ssa = false`.
-/
namespace Verif.Tensor

variable {α : Type}

/-! ### Slice -/

/-- `kAll`, mllm/core/SlicePrimitives.hpp L11-15. -/
def kAll : Int := 0x7FFFFFF1

/-- `SliceIndicesPair`, SlicePrimitives.hpp L17-25. -/
structure SlicePair where
  start : Int := kAll
  fin : Int := kAll
  step : Int := 1

/-- `SliceIndicesPair(int32_t v)`, SlicePrimitives.cpp L8-13. -/
def SlicePair.ofInt (v : Int) : SlicePair := if v = kAll then {} else ⟨v, v + 1, 1⟩

/-- `if (start < 0 && end != kAll && end - start == 1) { start += n; end += n; }`,
SliceOp.cpp L57-60. -/
def shiftBoth (n : Nat) (a b : Int) : Int × Int :=
  if a < 0 ∧ b ≠ kAll ∧ b - a = 1 then (a + n, b + n) else (a, b)

/-- `if (v < 0) v += n;`, SliceOp.cpp L61-62. -/
def fixNeg (n : Nat) (v : Int) : Int := if v < 0 then v + n else v

/-- Resolved start and end, SliceOp.cpp L49-62. -/
def sliceBounds (n : Nat) (p : SlicePair) : Int × Int :=
  let q := shiftBoth n (if p.start = kAll then 0 else p.start)
    (if p.fin = kAll then (n : Int) else p.fin)
  (fixNeg n q.1, fixNeg n q.2)

/-- `num_elements`, SliceOp.cpp L66-67. -/
def sliceCount (a b step : Int) : Nat := if b > a then ((b - a + step - 1) / step).toNat else 0

/-- One iteration of the loop of `SliceOp::reshape`, SliceOp.cpp L48-67:
resolved start, element count and step. `step < 1` only prints a message and then divides by the
step or produces a meaningless count; it is `none` here. -/
def sliceDim (n : Nat) (p : SlicePair) : Option (Int × Nat × Int) :=
  if p.step < 1 then none
  else some ((sliceBounds n p).1, sliceCount (sliceBounds n p).1 (sliceBounds n p).2 p.step, p.step)

/-- The accumulation over dimensions: offset increment, shape, strides (SliceOp.cpp L77-79). -/
def sliceDims : List Nat → List Int → List SlicePair → Option (Int × List Nat × List Int)
  | [], [], [] => some (0, [], [])
  | n :: ns, s :: ss, p :: ps => do
    let (st, cnt, step) ← sliceDim n p
    let (o, sh, sd) ← sliceDims ns ss ps
    pure (st * s + o, cnt :: sh, s * step :: sd)
  | _, _, _ => none

/-- `t[indices]`: SliceOp.cpp L27-90. The rank check is `MLLM_RT_ASSERT_EQ` (L35). The result shares
the storage. -/
def slice (t : Tens α) (ps : List SlicePair) : Option (Tens α) := do
  let (o, sh, sd) ← sliceDims t.shape t.stride ps
  pure ⟨t.off + o, sh, sd, t.mem⟩

/-! ### View -/

/-- Product of the dimensions that are not `-1`; `none` on a second `-1` or a negative dimension.
ViewOp.cpp L37-46. Returns the number of `-1` seen. -/
def viewProduct : List Int → Option (Nat × Nat)
  | [] => some (1, 0)
  | d :: ds => do
    let (p, c) ← viewProduct ds
    if d = -1 then (if c = 0 then some (p, 1) else none)
    else if d < 0 then none
    else some (d.toNat * p, c)

/-- Replace the inferred dimension, ViewOp.cpp L53. -/
def viewActual (q : Nat) (sh : List Int) : List Nat :=
  sh.map fun d => if d = -1 then q else d.toNat

/-- The contiguity loop of `ViewOp::reshape`, ViewOp.cpp L73-82, from the last dimension to the
first; returns the running stride, `none` once a stride differs. -/
def viewContig : List Nat → List Int → Option Nat
  | [], [] => some 1
  | d :: ds, s :: ss => do
    let cur ← viewContig ds ss
    if s ≠ (cur : Int) then none else some (if d ≠ 1 then cur * d else cur)
  | _, _ => none

/-- New strides, ViewOp.cpp L87-91 (last to first): strides and running product. -/
def viewStrides : List Nat → List Int × Nat
  | [] => ([], 1)
  | d :: ds => let r := viewStrides ds; ((r.2 : Int) :: r.1, r.2 * d)

/-- `Tensor::view(to_shape)`: ViewOp.cpp L27-106. -/
def view (t : Tens α) (toShape : List Int) : Option (Tens α) := do
  let (p, c) ← viewProduct toShape
  let n := numel t.shape
  let actual ← (if c ≠ 0 then
      (if p = 0 then none else if n % p ≠ 0 then none else some (viewActual (n / p) toShape))
    else some (viewActual 0 toShape))
  if numel actual ≠ n then none
  else if actual = t.shape then some ⟨t.off, t.shape, t.stride, t.mem⟩
  else do
    let _ ← viewContig t.shape t.stride
    pure ⟨t.off, actual, (viewStrides actual).1, t.mem⟩

/-- `TensorViewImpl::isContiguous`, TensorViewImpl.cpp L39-50. -/
def isContiguous : List Nat → List Int → Option Nat
  | [], [] => some 1
  | d :: ds, s :: ss => do
    let e ← isContiguous ds ss
    if s ≠ (e : Int) then none else some (e * d)
  | _, _ => none

/-- `Tensor::unsqueeze(dim)`, Tensor.cpp L590-595 (`dim` out of range is undefined: `none`). -/
def unsqueeze (t : Tens α) (dim : Int) : Option (Tens α) :=
  let d := if dim < 0 then (t.shape.length : Int) + dim + 1 else dim
  if d < 0 ∨ (t.shape.length : Int) < d then none
  else view t ((t.shape.map (fun (x : Nat) => (x : Int))).insertIdx d.toNat 1)

/-- `Tensor::flatten()` (all dimensions), Tensor.cpp L636-640. -/
def flattenAll (t : Tens α) : Option (Tens α) := view t [(numel t.shape : Int)]

/-- `Tensor::squeeze(dim)`, Tensor.cpp L608-630. -/
def squeeze (t : Tens α) (dim : Int) : Option (Tens α) :=
  let d := if dim < 0 then dim + t.shape.length else dim
  if d < 0 ∨ (t.shape.length : Int) ≤ d then some t
  else if t.shape.getD d.toNat 0 = 1 then
    view t ((t.shape.map (fun (x : Nat) => (x : Int))).eraseIdx d.toNat)
  else some t

/-- `Tensor::reshape(shape)` on the CPU: `ReshapeOp::reshape` (ReshapeOp.cpp L28-62) allocates a
fresh tensor of the inferred shape; `CPUReshapeOp::forward` (backends/cpu/ops/ReshapeOp.cpp L11-14)
only prints a message, so nothing is ever written into it. (Restricted to shapes without negative
dimensions other than -1.) -/
def reshape (t : Tens α) (toShape : List Int) : Option (Tens α) := do
  let (p, c) ← viewProduct toShape
  let n := numel t.shape
  let actual ← (if c ≠ 0 then
      (if p = 0 then none else if n % p ≠ 0 then none else some (viewActual (n / p) toShape))
    else some (viewActual 0 toShape))
  if numel actual ≠ n then none else some (fresh actual (fun _ => none))

/-! ### Copy kernels

A copy kernel is the ordered list of its element copies `(dst, src)`. -/

abbrev Copies := List (Nat × Nat)

/-- Contents of the output buffer after the copies: the last copy to a position wins, a position
never written stays uninitialised. -/
def bufOf (ws : Copies) (input : Nat → Option α) (k : Nat) : Option α :=
  match ws.reverse.find? (fun w => w.1 = k) with
  | some w => input w.2
  | none => none

/-- What the kernel sees through `input.ptr<T>()`: consecutive elements from the view's offset;
the kernels below ignore the strides. -/
def Tens.raw (t : Tens α) (k : Nat) : Option α := t.mem (t.off + k)

/-- `out_shape[i] = in_shape[perm[i]]`. -/
def gather (perm : List Nat) (x : List Nat) : List Nat := perm.map fun a => x.getD a 0

/-- `for d: in_coord[perm[d]] = out_coord[d]`. -/
def scatter : List Nat → List Nat → List Nat → List Nat
  | p :: ps, c :: cs, acc => scatter ps cs (acc.set p c)
  | _, _, acc => acc

/-- `permute_generic`, kernels/common/permute-inl.hpp L15-42, and the general branch of
`permute_fp32` (x86/transpose.cpp, arm/permute.cpp L57-72). -/
def permuteGeneric (shape perm : List Nat) : Copies :=
  (List.range (numel shape)).map fun i =>
    (i, (dot (scatter perm (coords (gather perm shape) i) (List.replicate shape.length 0))
      (rowStrides shape)).toNat)

/-- Row branch of `permute_fp32` (innermost dimension stays innermost): arm/permute.cpp L29-56,
x86/transpose.cpp. The vector loop and the scalar tail copy `j = 0 … inner-1` once each, in order. -/
def permuteRows (shape perm : List Nat) : Copies :=
  let outShape := gather perm shape
  let inner := outShape.getLastD 0
  (List.range (numel shape / inner)).flatMap fun o =>
    let coord := coords outShape.dropLast o
    let inOff := dot coord (perm.dropLast.map fun a => (rowStrides shape).getD a 0)
    let outOff := dot coord (rowStrides outShape)
    (List.range inner).map fun j => (outOff.toNat + j, inOff.toNat + j)

/-- `permute_fp32` (threshold 4) / `permute_fp16` (threshold 8): choice of branch. `thr = none` is
`permute_generic`. -/
def permuteCopies (thr : Option Nat) (shape perm : List Nat) : Copies :=
  match thr with
  | none => permuteGeneric shape perm
  | some k =>
    if perm.getLastD 0 = shape.length - 1 ∧ k ≤ (gather perm shape).getLastD 0 then
      permuteRows shape perm
    else permuteGeneric shape perm

/-- `Tensor::permute(axes)` on the CPU: output shape from PermuteOp.cpp L27-37, data from
backends/cpu/ops/PermuteOp.cpp. -/
def permute (thr : Option Nat) (t : Tens α) (perm : List Nat) : Tens α :=
  fresh (gather perm t.shape) (bufOf (permuteCopies thr t.shape perm) t.raw)

/-- Block starts `for (i = 0; i + b <= n; i += b)`. -/
def blocks (b n : Nat) : List Nat := (List.range (n / b)).map (· * b)

/-- `for (k = lo; k < hi; ++k)`. -/
def span (lo hi : Nat) : List Nat := (List.range (hi - lo)).map (· + lo)

/-- `transpose_hw_wh_*`, x86/transpose.cpp L27-79 (b = 4, fp32), L181-220 (b = 2, int64):
b×b blocks, then the remaining columns of each row block, then the remaining rows. -/
def transposeHW (b h w : Nat) : Copies :=
  ((blocks b h).flatMap fun i =>
    ((blocks b w).flatMap fun j =>
      (List.range b).flatMap fun y => (List.range b).map fun x =>
        ((j + y) * h + i + x, (i + x) * w + j + y)) ++
    ((span (w - w % b) w).flatMap fun j =>
      (List.range b).map fun x => (j * h + i + x, (i + x) * w + j))) ++
  ((List.range w).flatMap fun j => (span (h - h % b) h).map fun i => (j * h + i, i * w + j))

/-- `transpose_bshd_bhsd_*`, x86/transpose.cpp L81-121. The vector loop and tail copy
`d = 0 … D-1` once each, in order. -/
def transposeBSHD (nb ns nh nd : Nat) : Copies :=
  (List.range nb).flatMap fun b => (List.range nh).flatMap fun h => (List.range ns).flatMap fun s =>
    (List.range nd).map fun d =>
      (b * nh * ns * nd + h * ns * nd + s * nd + d, b * ns * nh * nd + s * nh * nd + h * nd + d)

/-- `transpose_last_dims_*` called with the batch count of backends/cpu/ops/TransposeOp.cpp L111-112,
which starts from 0 and is therefore 0. -/
def transposeLast (b batch d0 d1 : Nat) : Copies :=
  (List.range batch).flatMap fun k =>
    (transposeHW b d0 d1).map fun w => (k * (d0 * d1) + w.1, k * (d0 * d1) + w.2)

/-- `std::swap` of two entries. -/
def swapAt (i j : Nat) (l : List Nat) : List Nat := (l.set i (l.getD j 0)).set j (l.getD i 0)

/-- Copies made by `CPUTransposeOp::forward`, backends/cpu/ops/TransposeOp.cpp L28-178, for
non-negative dims. `b` is the block size of the dtype (4: fp32, 2: int64), `thr` the row threshold of
its permute kernel. -/
def transposeCopies (b : Nat) (thr : Option Nat) (shape : List Nat) (d0 d1 : Nat) : Copies :=
  if shape.length = 2 ∧ d0 + d1 = 1 then
    transposeHW b (shape.getD 0 0) (shape.getD 1 0)
  else if shape.length = 4 ∧ ((d0 = 1 ∧ d1 = 2) ∨ (d0 = 2 ∧ d1 = 1)) then
    transposeBSHD (shape.getD 0 0) (shape.getD 1 0) (shape.getD 2 0) (shape.getD 3 0)
  else if shape.length ≠ 2 ∧ d0 + d1 = 1 then
    transposeLast b 0 (shape.getD 0 0) (shape.getD 1 0)
  else permuteCopies thr shape (swapAt d0 d1 (List.range shape.length))

/-- `Tensor::transpose(dim0, dim1)`: dims normalised and checked (TransposeOp.cpp L31-40). -/
def transpose (b : Nat) (thr : Option Nat) (t : Tens α) (dim0 dim1 : Int) : Option (Tens α) :=
  let n : Int := t.shape.length
  let d0 := if dim0 < 0 then dim0 + n else dim0
  let d1 := if dim1 < 0 then dim1 + n else dim1
  if 0 ≤ d0 ∧ d0 < n ∧ 0 ≤ d1 ∧ d1 < n then
    some (fresh (swapAt d0.toNat d1.toNat t.shape)
      (bufOf (transposeCopies b thr t.shape d0.toNat d1.toNat) t.raw))
  else none

/-! ### Contiguous -/

/-- Odometer step, backends/cpu/ops/ContiguousOp.cpp: `for d = ndim-1 … 0
{ if (++indices[d] < shape[d]) break; indices[d] = 0; }`. The flag says a carry leaves the front. -/
def odoStep : List Nat → List Nat → List Nat × Bool
  | d :: ds, i :: is =>
    let r := odoStep ds is
    if r.2 then (if i + 1 < d then ((i + 1) :: r.1, false) else (0 :: r.1, true))
    else (i :: r.1, false)
  | _, _ => ([], true)

/-- Element-by-element branch: source offsets of the successive output elements. -/
def odoRun (shape : List Nat) (stride : List Int) : Nat → List Nat → List Int
  | 0, _ => []
  | n + 1, idx => dot idx stride :: odoRun shape stride n (odoStep shape idx).1

/-- The branch condition: `i.stride()[d] == i.stride()[d+1] * i.stride()[d+1]` for all d. -/
def squareStrides : List Int → Bool
  | a :: b :: ss => (a == b * b) && squareStrides (b :: ss)
  | _ => true

/-- `cumulative_stride` and `outer_strides` of the row branch (from the last dimension). -/
def outerStrides : List Nat → List Int → List Int × Int
  | _ :: d2 :: ds, s :: ss =>
    let r := outerStrides (d2 :: ds) ss
    let cum := r.2 * d2
    (s * cum :: r.1, cum)
  | _, _ => ([], 1)

/-- Row branch: decoding starts with the *first* dimension. -/
def rowOffset : List Nat → List Int → Nat → Int
  | d :: ds, s :: ss, t => ((t % d : Nat) : Int) * s + rowOffset ds ss (t / d)
  | _, _, _ => 0

/-- `CPUContiguousOp::forward`: source offsets (relative to the view's pointer) of output elements
`0, 1, …`. Rank 0 indexes `shape()[-1]` and is excluded. -/
def contiguousSrc (shape : List Nat) (stride : List Int) : List Int :=
  if numel shape = 0 then []
  else if shape.length = 1 then
    (List.range (shape.getD 0 0)).map fun (j : Nat) => (j : Int) * stride.getD 0 0
  else if squareStrides stride then
    let inner := shape.getLastD 0
    (List.range (numel shape / inner)).flatMap fun o =>
      (List.range inner).map fun (m : Nat) =>
        rowOffset shape.dropLast (outerStrides shape stride).1 o + (m : Int)
  else odoRun shape stride (numel shape) (List.replicate shape.length 0)

/-- `Tensor::contiguous()`. -/
def contiguous (t : Tens α) : Tens α :=
  fresh t.shape fun k => match (contiguousSrc t.shape t.stride)[k]? with
    | some o => t.mem (t.off + o)
    | none => none

end Verif.Tensor
