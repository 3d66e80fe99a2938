import Verif.Kern.Llama
import Verif.Tensor.Index

/-!
The CPU operators that multiply matrices: `backends/cpu/ops/MatMulOp.cpp`, `backends/cpu/ops/LinearOp.cpp`, and the
dispatcher `backends/cpu/kernels/common/ggml/matmul.cpp`, for `float32` operands.
-/

namespace Verif.Kern

open Verif.Tensor (numel InB lin)

/-- What the operators read of a tensor: shape, element strides and the storage from its first element on. -/
structure Ten (α : Type) where
  shape : List Nat
  stride : List Nat
  data : Nat → α

/-- `Σ idx[i] * stride[i]`, `TensorViewImpl.hpp` L80-88. -/
def pos : List Nat → List Nat → Nat
  | i :: is, s :: ss => i * s + pos is ss
  | _, _ => 0

/-- The element at an index. -/
def Ten.get {α : Type} (t : Ten α) (idx : List Nat) : α := t.data (pos idx t.stride)

/-- Row-major strides, `TensorViewImpl.cpp` L35-49. -/
def rowStr : List Nat → List Nat
  | [] => []
  | _ :: ds => numel ds :: rowStr ds

/-- `v[v.size() - k]`, for `k ≤ v.size()`. -/
def back (l : List Nat) (k : Nat) : Nat := l.reverse.getD (k - 1) 0

/-- `for (i = 0; i < shape.size() - 2; ++i) batch_count *= shape[i]`, `MatMulOp.cpp` L41-44. -/
def batchOf (shape : List Nat) : Nat := numel (shape.take (shape.length - 2))

/-- The instruction sets the sources distinguish. -/
inductive Arch where
  | avx512
  | avx2
  | avx
  | sse
  | neon
deriving DecidableEq, Repr

/-- Lanes of the `float32` llamafile kernel, `llamafile_sgemm.cpp` L845-867 (`none`: no kernel). -/
def Arch.lanes : Arch → Option Nat
  | .avx512 => some 16
  | .avx2 => some 8
  | .avx => some 8
  | .sse => none
  | .neon => some 4

/-- `VECTOR_REGISTERS == 32`, `llamafile_sgemm.cpp` L60-64. -/
def Arch.wide : Arch → Bool
  | .avx512 => true
  | .neon => true
  | _ => false

/-- Which of mllm's own kernels is compiled, `MatMulOp.cpp` L99-125. -/
def Arch.blas : Arch → Blas
  | .neon => .arm
  | _ => .x86

/-- `check_llamafile_sgemm(m, n, k, F32, F32, F32, lda, ldb, ldc)`, `llamafile_sgemm.cpp` L958-990. -/
def checkLlama (a : Arch) (m n k lda ldb ldc : Nat) : Bool :=
  if lda < k then false else
  if ldb < k then false else
  if ldc < m then false else
  match a with
  | .avx512 => k % 16 = 0
  | .avx2 => k % 8 = 0
  | .avx => k % 8 = 0
  | .neon => 4 ≤ n ∧ k % 4 = 0
  | .sse => false

variable {α : Type} [CommRing α]

/-- `vec_dot_fp32`, `vec_dot.cpp` L34-97: running sums over blocks of 32 (AVX2) or 16 (NEON) elements, then the
leftovers; without AVX2 or NEON the result is never written and keeps the caller's zero. -/
def vecDot (a : Arch) (n : Nat) (x y : Nat → α) : α :=
  let blocked (step : Nat) : α :=
    accum (accum 0 step fun r => accum 0 (n / step) fun t => x (t * step + r) * y (t * step + r)) (n - n / step * step)
      fun d => x (n / step * step + d) * y (n / step * step + d)
  match a with
  | .avx512 => blocked 32
  | .avx2 => blocked 32
  | .neon => blocked 16
  | .avx => 0
  | .sse => 0

/-- The last loop of `ggml::mat_mul`, `matmul.cpp` L286-350, for `transpose0 = false`: one body per block of 16 output
columns.  The offset into the second operand has no batch term. -/
def vecDotBody (a : Arch) (s0 s1 : Ten α) (M K N batch : Nat) (dstStride : List Nat) (t1 : Bool)
    (bias : Option (Nat → α)) (combined : Nat) : List (Upd α) :=
  let blocks := N / 16 + 1
  let b := combined / (M * blocks)
  let m := combined % (M * blocks) / blocks
  let block := combined % (M * blocks) % blocks
  (List.range' (block * 16) (min ((block + 1) * 16) N - block * 16)).map fun n =>
    let o0 := (if batch > 1 then b * back s0.stride 3 else 0) + m * back s0.stride 2
    let o1 := if t1 then n * back s1.stride 2 else n
    let o := (if dstStride.length > 2 then b * back dstStride 3 else 0) + (m * N + n)
    Upd.put o (vecDot a K (fun l => s1.data (o1 + l)) (fun l => s0.data (o0 + l)) + bias.elim 0 fun β => β n)

/-- `ggml::mat_mul`, `matmul.cpp` L41-352, with `transpose0 = false` and `float32` tensors (no conversion of the first
operand, and no `gemv`/`gemm`: those entries of the traits table are null). -/
def ggmlMatMul (a : Arch) (s0 s1 : Ten α) (dstStride : List Nat) (bias : Option (Nat → α)) (t1 : Bool)
    (threads : Nat) : List (List (List (Upd α))) :=
  let M := back s0.shape 2
  let K := back s0.shape 1
  let N := if t1 then back s1.shape 2 else back s1.shape 1
  let batch := batchOf s0.shape
  if checkLlama a N M K K K N then
    let KN := a.lanes.getD 1
    if batch = 1 then
      [(List.range threads).map fun id => tinyBLAS a.wide KN N M K s1.data K s0.data K 0 N id threads bias]
    else
      (List.range batch).map fun b => (List.range threads).map fun id =>
        tinyBLAS a.wide KN N M K
          (fun x => s1.data ((if s1.stride.length > 2 ∧ back s1.stride 3 > 0 then b * back s1.stride 3 else 0) + x)) K
          (fun x => s0.data (b * back s0.stride 3 + x)) K (b * back dstStride 3) N id threads bias
  else
    [(List.range (batch * M * (N / 16 + 1))).map (vecDotBody a s0 s1 M K N batch dstStride t1 bias)]

/-- Why an operator refused. -/
inductive Fail where
  | assertion
deriving DecidableEq, Repr

/-- `MatMulOp::reshape`, `core/aops/MatMulOp.cpp` L27-62: the output shape. -/
def matMulShape (tb : Bool) (sa sb : List Nat) : Except Fail (List Nat) :=
  if back sa 1 ≠ (if tb then back sb 1 else back sb 2) then .error .assertion
  else .ok (sa.take (sa.length - 2) ++ [back sa 2, if tb then back sb 2 else back sb 1])

/-- `CPUMatMulOp::forward`, `MatMulOp.cpp` L17-129, with `matmul_type = kDefault` and `transpose_a = false`, in a build
without `MLLM_USE_BLAS`: the stores into the output, whose strides are `dst`. -/
def matMulForward (a : Arch) (tb : Bool) (lhs rhs : Ten α) (dst : List Nat) (threads : Nat) :
    Except Fail (List (List (List (Upd α)))) :=
  if lhs.shape.length < 2 ∨ rhs.shape.length < 2 then .error .assertion else
  let M := back lhs.shape 2
  let K := back lhs.shape 1
  let N := if tb then back rhs.shape 2 else back rhs.shape 1
  if K ≠ (if tb then back rhs.shape 1 else back rhs.shape 2) then .error .assertion else
  if batchOf lhs.shape ≠ batchOf rhs.shape then .error .assertion else
  if tb ∧ 4 ≤ M then .ok (ggmlMatMul a lhs rhs dst none true threads)
  else if batchOf lhs.shape = 1 then .ok (blasMatmul a.blas 1 M K N 0 0 0 lhs.data rhs.data none false tb threads)
  else .ok (blasMatmul a.blas (batchOf lhs.shape) M K N (back dst 3) (back lhs.stride 3) (back rhs.stride 3)
    lhs.data rhs.data none false tb threads)

/-- `CPULinearOp::forward`, `LinearOp.cpp` L100-317, with `impl_type = kDefault`, in a build without `MLLM_USE_BLAS`:
`NYI` only prints, so on x86 fewer than four input channels store nothing. -/
def linearForward (a : Arch) (inC outC : Nat) (x w : Ten α) (bias : Option (Nat → α)) (dst : List Nat) (threads : Nat) :
    Except Fail (List (List (List (Upd α)))) :=
  if x.shape.length < 2 then .error .assertion else
  let M := back x.shape 2
  let K := back x.shape 1
  if K ≠ inC then .error .assertion else
  if 4 ≤ K then .ok (ggmlMatMul a x w dst bias true threads) else
  match a.blas with
  | .x86 => .ok []
  | .arm =>
    if batchOf x.shape = 1 then .ok (blasMatmul .arm 1 M K outC 0 0 0 x.data w.data bias false true threads)
    else .ok (blasMatmul .arm (batchOf x.shape) M K outC (back dst 3) (back x.stride 3) 0 x.data w.data bias false true
      threads)

/-- `CPULinearOp::reshape`, `LinearOp.cpp` L319-371. -/
def linearShape (inC outC : Nat) (s : List Nat) : Except Fail (List Nat) :=
  if back s 1 ≠ inC then .error .assertion else .ok (s.take (s.length - 1) ++ [outC])

/-! ### Shapes of batches of matrices -/

theorem numel_append2 (l : List Nat) (a b : Nat) : numel (l ++ [a, b]) = numel l * (a * b) := by
  induction l with
  | nil => simp [numel]
  | cons d l ih => simp only [List.cons_append, numel, ih]; ring

theorem back_shape1 (l : List Nat) (a b : Nat) : back (l ++ [a, b]) 1 = b := by simp [back]

theorem back_shape2 (l : List Nat) (a b : Nat) : back (l ++ [a, b]) 2 = a := by simp [back]

theorem batchOf_shape (l : List Nat) (a b : Nat) : batchOf (l ++ [a, b]) = numel l := by simp [batchOf]

theorem rowStr_append2 (l : List Nat) (a b : Nat) : ∃ p, rowStr (l ++ [a, b]) = p ++ [b, 1] ∧ p.length = l.length ∧
    (l ≠ [] → ∃ q, p = q ++ [a * b]) := by
  induction l with
  | nil => exact ⟨[], by simp [rowStr, numel], rfl, fun h => absurd rfl h⟩
  | cons d l ih =>
    obtain ⟨p, h1, h2, h3⟩ := ih
    refine ⟨numel (l ++ [a, b]) :: p, by simp [rowStr, h1], by simp [h2], fun _ => ?_⟩
    by_cases hl : l = []
    · subst hl
      obtain rfl : p = [] := List.length_eq_zero_iff.mp h2
      exact ⟨[], by simp [numel]⟩
    · obtain ⟨q, rfl⟩ := h3 hl
      exact ⟨numel (l ++ [a, b]) :: q, rfl⟩

theorem rowStr_back2 (l : List Nat) (a b : Nat) : back (rowStr (l ++ [a, b])) 2 = b := by
  obtain ⟨p, h, _, _⟩ := rowStr_append2 l a b
  rw [h, back_shape2]

theorem rowStr_back3 {l : List Nat} (hl : l ≠ []) (a b : Nat) : back (rowStr (l ++ [a, b])) 3 = a * b := by
  obtain ⟨p, h, _, h3⟩ := rowStr_append2 l a b
  obtain ⟨q, rfl⟩ := h3 hl
  rw [h]
  simp [back]

theorem rowStr_length (l : List Nat) : (rowStr l).length = l.length := by
  induction l with
  | nil => rfl
  | cons d l ih => simp [rowStr, ih]

theorem pos_rowStr : ∀ {s idx : List Nat}, InB s idx → pos idx (rowStr s) = lin s idx
  | [], [], _ => rfl
  | _ :: ds, i :: is, h => by simp only [rowStr, pos, lin, pos_rowStr h.2]

theorem lin_append2 : ∀ {l ix : List Nat} (_ : InB l ix) (a b i j : Nat),
    lin (l ++ [a, b]) (ix ++ [i, j]) = lin l ix * (a * b) + i * b + j
  | [], [], _, a, b, i, j => by simp [lin, numel]
  | d :: l, x :: ix, h, a, b, i, j => by
    simp only [List.cons_append, lin, lin_append2 h.2 a b i j, numel_append2]
    ring

theorem inB_append2 : ∀ {l ix : List Nat} (_ : InB l ix) {a b i j : Nat} (_ : i < a) (_ : j < b),
    InB (l ++ [a, b]) (ix ++ [i, j])
  | [], [], _, a, b, i, j, hi, hj => ⟨hi, hj, trivial⟩
  | d :: l, x :: ix, h, a, b, i, j, hi, hj => ⟨h.1, inB_append2 h.2 hi hj⟩

/-- A contiguous batch of matrices. -/
def Ten.Mats {α : Type} (t : Ten α) (lead : List Nat) (r c : Nat) : Prop :=
  t.shape = lead ++ [r, c] ∧ t.stride = rowStr t.shape

theorem Ten.Mats.get {α : Type} {t : Ten α} {lead : List Nat} {r c : Nat} (h : t.Mats lead r c) {ix : List Nat}
    (hix : InB lead ix) {i j : Nat} (hi : i < r) (hj : j < c) :
    t.get (ix ++ [i, j]) = t.data (lin lead ix * (r * c) + i * c + j) := by
  rw [Ten.get, h.2, h.1, pos_rowStr (inB_append2 hix hi hj), lin_append2 hix]

theorem lead_batch {lead : List Nat} (h : numel lead ≠ 1) : lead ≠ [] := fun e => h (by rw [e]; rfl)

end Verif.Kern
