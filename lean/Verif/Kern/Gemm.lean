import Verif.Kern.Par
import Mathlib.Algebra.BigOperators.Group.List.Basic
import Mathlib.Algebra.BigOperators.Intervals
import Mathlib.Algebra.BigOperators.Ring.Finset

/-!
mllm's own fp32 matrix kernels: `backends/cpu/kernels/arm/mllm_blas/mllm_blas_sgemm.{hpp,cpp}` and
`backends/cpu/kernels/x86/mllm_blas/mllm_blas_sgemm.{hpp,cpp}`.

Arithmetic is exact over any commutative ring: rounding is not modelled, and neither is `int` overflow of the
index arithmetic.
-/

namespace Verif.Kern

variable {α : Type} [CommRing α]

/-- `for (l = 0; l < k; ++l) s += f(l);` starting from `s`. -/
def accum (s : α) (k : Nat) (f : Nat → α) : α := (List.range k).foldl (fun s l => s + f l) s

/-- Which build: the tile sizes and register kernels differ. -/
inductive Blas where
  | arm
  | x86
deriving DecidableEq, Repr

/-- arm `mllm_blas_sgemm.cpp` L247 (`min(rm, 8)`, `min(rn, 16)`), x86 L280 (`min(rm, 8)`, `min(rn, 8)`). -/
def Blas.cap : Blas → Nat
  | .arm => 16
  | .x86 => 8

/-- The tiles with a hand-written register kernel: arm `mllm_blas_sgemm.hpp` L141-330 (`8x16`, `4x16`, `1x4`),
x86 `mllm_blas_sgemm.hpp` (`8x8`, `4x8`, `1x8`, with AVX). -/
def Blas.reg : Blas → Nat → Nat → Bool
  | .arm, rm, rn => (rm = 8 ∧ rn = 16) ∨ (rm = 4 ∧ rn = 16) ∨ (rm = 1 ∧ rn = 4)
  | .x86, rm, rn => (rm = 8 ∧ rn = 8) ∨ (rm = 4 ∧ rn = 8) ∨ (rm = 1 ∧ rn = 8)

/-- arm `mllm_blas_sgemm.hpp` L141-330, register kernels: the accumulators start at zero, collect
`b[l * ldb + j] * a[i * lda + l]` over `l`, and are stored once. -/
def tileReg (rm rn : Nat) (a : Nat → α) (lda : Nat) (b : Nat → α) (ldb c ldc k : Nat) : List (Upd α) :=
  (List.range rm).flatMap fun i => (List.range rn).map fun j =>
    Upd.put (c + i * ldc + j) (accum 0 k fun l => a (i * lda + l) * b (l * ldb + j))

/-- arm `mllm_blas_sgemm.hpp` L332-348 and the `default` case of `dispatch_tile` (`mllm_blas_sgemm.cpp` L281-293):
the tile is zeroed and then accumulated in memory. -/
def tileMem (rm rn : Nat) (a : Nat → α) (lda : Nat) (b : Nat → α) (ldb c ldc k : Nat) : List (Upd α) :=
  ((List.range rm).flatMap fun i => (List.range rn).map fun j => Upd.put (c + i * ldc + j) 0) ++
  (List.range k).flatMap fun l => (List.range rm).flatMap fun i => (List.range rn).map fun j =>
    ⟨c + i * ldc + j, fun s => s + a (i * lda + l) * b (l * ldb + j)⟩

/-- arm `dispatch_tile` `mllm_blas_sgemm.cpp` L241-297, x86 L273-330. -/
def dispatchTile (w : Blas) (rm rn : Nat) (a : Nat → α) (lda : Nat) (b : Nat → α) (ldb c ldc k : Nat) : List (Upd α) :=
  if w.reg (min rm 8) (min rn w.cap) then tileReg (min rm 8) (min rn w.cap) a lda b ldb c ldc k
  else tileMem (min rm 8) (min rn w.cap) a lda b ldb c ldc k

/-- `MicroKernel_NT_T_Bias` (arm `mllm_blas_sgemm.hpp` L353-377) and the `default` case of `dispatch_tile_nt_t`
(arm `mllm_blas_sgemm.cpp` L299-362, x86 L332-392): store the row-by-row products, then add the bias. -/
def dispatchTileNTT (w : Blas) (rm rn : Nat) (a : Nat → α) (lda : Nat) (b : Nat → α) (ldb c ldc k : Nat)
    (bias : Option (Nat → α)) : List (Upd α) :=
  ((List.range (min rm 8)).flatMap fun i => (List.range (min rn w.cap)).map fun j =>
    Upd.put (c + i * ldc + j) (accum 0 k fun l => a (i * lda + l) * b (j * ldb + l))) ++
  match bias with
  | none => []
  | some β => (List.range (min rm 8)).flatMap fun i => (List.range (min rn w.cap)).map fun j =>
      ⟨c + i * ldc + j, fun s => s + β j⟩

/-- "dynamic tiling", rows: arm `mllm_blas_sgemm.cpp` L370-372. -/
def tileM (m : Nat) : Nat := if m < 4 then 1 else if m < 8 then 4 else 8

/-- "dynamic tiling", columns: arm `mllm_blas_sgemm.cpp` L373-374, x86 L406-407. -/
def tileN (w : Blas) (n : Nat) : Nat := if n < 4 then 1 else if n < w.cap then 4 else w.cap

/-- `(x + t - 1) / t`. -/
def tilesOf (x t : Nat) : Nat := (x + t - 1) / t

/-- `__mllm_blas_sgemm_nt_nt` arm `mllm_blas_sgemm.cpp` L366-386, x86 L395-421: `C[m,n] = A[m,k] B[k,n]`, one body per
tile.  A refused call returns `false` and writes nothing; no caller looks at the result. `c` is the first output cell. -/
def sgemmNN (w : Blas) (m n k : Nat) (A : Nat → α) (lda : Nat) (B : Nat → α) (ldb c ldc threads : Nat) :
    List (List (Upd α)) :=
  if m = 0 ∨ n = 0 ∨ k = 0 then [] else
  if lda < k ∨ ldb < n ∨ ldc < n then [] else
  if threads = 0 then [] else
  let xt := tilesOf n (tileN w n)
  (List.range (tilesOf m (tileM m) * xt)).map fun job =>
    let ii := job / xt * tileM m
    let jj := job % xt * tileN w n
    dispatchTile w (min (tileM m) (m - ii)) (min (tileN w n) (n - jj)) (fun x => A (ii * lda + x)) lda
      (fun x => B (jj + x)) ldb (c + (ii * ldc + jj)) ldc k

/-- `__mllm_blas_sgemm_nt_t` arm `mllm_blas_sgemm.cpp` L388-408, x86 L423-449: `C[m,n] = A[m,k] B[n,k]ᵀ + bias`. -/
def sgemmNT (w : Blas) (m n k : Nat) (A : Nat → α) (lda : Nat) (B : Nat → α) (ldb c ldc : Nat)
    (bias : Option (Nat → α)) (threads : Nat) : List (List (Upd α)) :=
  if m = 0 ∨ n = 0 ∨ k = 0 then [] else
  if lda < k ∨ ldb < k ∨ ldc < n then [] else
  if threads = 0 then [] else
  let xt := tilesOf n (tileN w n)
  (List.range (tilesOf m (tileM m) * xt)).map fun job =>
    let ii := job / xt * tileM m
    let jj := job % xt * tileN w n
    dispatchTileNTT w (min (tileM m) (m - ii)) (min (tileN w n) (n - jj)) (fun x => A (ii * lda + x)) lda
      (fun x => B (jj * ldb + x)) ldb (c + (ii * ldc + jj)) ldc k (bias.map fun β x => β (jj + x))

/-- `__mllm_blas_matmul_fp32_gemv_nt_t_decode_small_d_qk` arm `mllm_blas_sgemm.cpp` L41-119 (8 accumulators of 4 lanes,
no tail), x86 L38-124 (4 accumulators of 8 lanes, scalar tail): 32 running sums, added up at the end. -/
def gemvNT (w : Blas) (k n : Nat) (A B : Nat → α) (c : Nat) (bias : Option (Nat → α)) : List (Upd α) :=
  (List.range n).map fun s =>
    let lanes := accum 0 32 fun r => accum 0 (k / 32) fun d => A (d * 32 + r) * B (s * k + (d * 32 + r))
    let full := match w with
      | .arm => lanes
      | .x86 => accum lanes (k - k / 32 * 32) fun d => A (k / 32 * 32 + d) * B (s * k + (k / 32 * 32 + d))
    Upd.put (c + s) (match bias with | none => full | some β => full + β s)

/-- `__mllm_blas_matmul_fp32_gemv_nt_nt_decode_small_d_wv` arm `mllm_blas_sgemm.cpp` L145-197, x86 L147-234: start from
the bias or zero, then add four rows of `B` at a time, then the rest one by one.  Simplification: the vector and
scalar parts of each row do the same per cell. -/
def gemvNN (k n : Nat) (A B : Nat → α) (c : Nat) (bias : Option (Nat → α)) : List (Upd α) :=
  ((List.range n).map fun j => Upd.put (c + j) (match bias with | none => 0 | some β => β j)) ++
  ((List.range (k / 4)).flatMap fun q => (List.range n).map fun j =>
    ⟨c + j, fun s => s + A (q * 4) * B ((q * 4) * n + j) + A (q * 4 + 1) * B ((q * 4 + 1) * n + j)
      + A (q * 4 + 2) * B ((q * 4 + 2) * n + j) + A (q * 4 + 3) * B ((q * 4 + 3) * n + j)⟩) ++
  (List.range (k - k / 4 * 4)).flatMap fun q => (List.range n).map fun j =>
    ⟨c + j, fun s => s + A (k / 4 * 4 + q) * B ((k / 4 * 4 + q) * n + j)⟩

/-- When the one-row kernel is used: arm `mllm_blas_sgemm.cpp` L416, L431 (`K % 32 == 0`), x86 L457, L471. -/
def useGemv (w : Blas) (M K : Nat) (tb : Bool) : Bool :=
  match w, tb with
  | _, false => M = 1
  | .arm, true => M = 1 ∧ K % 32 = 0
  | .x86, true => M = 1

/-- `mllm_blas_batch_matmul_fp32` arm `mllm_blas_sgemm.cpp` L443-488, x86 L487-529, and, with `batch = 1`,
`mllm_blas_matmul_fp32` arm L410-441, x86 L451-485.  One-row products run the batch in parallel (arm
`mllm_blas_sgemm.hpp` L37-69, L92-125); the others run the batch in order, the tiles of one product in parallel.
`transpose_a` prints a message and does nothing.  A bias with `transpose_b = false` and several rows prints a message
and is dropped. -/
def blasMatmul (w : Blas) (batch M K N ds sa sb : Nat) (A B : Nat → α) (bias : Option (Nat → α)) (ta tb : Bool)
    (threads : Nat) : List (List (List (Upd α))) :=
  if ta then [] else
  if useGemv w M K tb then
    [(List.range batch).map fun b =>
      if tb then gemvNT w K N (fun x => A (b * sa + x)) (fun x => B (b * sb + x)) (b * ds) bias
      else gemvNN K N (fun x => A (b * sa + x)) (fun x => B (b * sb + x)) (b * ds) bias]
  else
    (List.range batch).map fun b =>
      if tb then sgemmNT w M N K (fun x => A (b * sa + x)) K (fun x => B (b * sb + x)) K (b * ds) N bias threads
      else sgemmNN w M N K (fun x => A (b * sa + x)) K (fun x => B (b * sb + x)) N (b * ds) N threads

/-! ### Specification -/

/-- Row `i` of the left operand against row or column `j` of the right one. -/
def prodAt (K N : Nat) (tb : Bool) (A B : Nat → α) (i j : Nat) : α :=
  ∑ l ∈ Finset.range K, A (i * K + l) * B (if tb then j * K + l else l * N + j)

/-! ### Proofs -/

theorem accum_eq (s : α) (k : Nat) (f : Nat → α) : accum s k f = s + ∑ l ∈ Finset.range k, f l := by
  induction k with
  | zero => simp [accum]
  | succ k ih =>
    have : accum s (k + 1) f = accum s k f + f k := by simp [accum, List.range_succ]
    rw [this, ih, Finset.sum_range_succ, add_assoc]

/-- The cells of a tile. -/
theorem mem_tile {β : Type} {rm rn : Nat} {f : Nat → Nat → β} {u : β} :
    (u ∈ (List.range rm).flatMap fun i => (List.range rn).map fun j => f i j) ↔ ∃ i < rm, ∃ j < rn, f i j = u := by
  simp [List.mem_flatMap]

omit [CommRing α] in
theorem tile_nodup {rm rn c ldc : Nat} (h : rn ≤ ldc) (fn : Nat → Nat → α → α) :
    (((List.range rm).flatMap fun i => (List.range rn).map fun j =>
      (⟨c + i * ldc + j, fn i j⟩ : Upd α)).map Upd.addr).Nodup := by
  rw [List.map_flatMap]
  rw [List.nodup_flatMap]
  refine ⟨?_, ?_⟩
  · intro i _
    rw [List.map_map]
    refine List.Nodup.map ?_ List.nodup_range
    intro a b hab
    simpa using hab
  · refine List.Pairwise.imp_of_mem ?_ List.nodup_range
    intro a b _ _ hne
    rw [Function.onFun, List.disjoint_left]
    intro x hx hx'
    simp only [List.map_map, List.mem_map, List.mem_range, Function.comp] at hx hx'
    obtain ⟨j, hj, rfl⟩ := hx
    obtain ⟨j', hj', he⟩ := hx'
    apply hne
    rcases Nat.lt_trichotomy a b with hlt | heq | hgt
    · exfalso
      have : (a + 1) * ldc ≤ b * ldc := Nat.mul_le_mul_right _ hlt
      rw [Nat.add_mul] at this
      omega
    · exact heq
    · exfalso
      have : (b + 1) * ldc ≤ a * ldc := Nat.mul_le_mul_right _ hgt
      rw [Nat.add_mul] at this
      omega

omit [CommRing α] in
/-- A pass over the tile acts once on each cell. -/
theorem run_tile {rm rn c ldc : Nat} (h : rn ≤ ldc) (fn : Nat → Nat → α → α) (m : Nat → α) {i j : Nat} (hi : i < rm)
    (hj : j < rn) :
    run ((List.range rm).flatMap fun i => (List.range rn).map fun j => (⟨c + i * ldc + j, fn i j⟩ : Upd α)) m
      (c + i * ldc + j) = fn i j (m (c + i * ldc + j)) := by
  have := run_once (tile_nodup (rm := rm) (c := c) h fn)
    (u := ⟨c + i * ldc + j, fn i j⟩) (mem_tile.mpr ⟨i, hi, j, hj, rfl⟩) m
  exact this

omit [CommRing α] in
theorem run_flatMap (k : Nat) (g : Nat → List (Upd α)) (m : Nat → α) :
    run ((List.range (k + 1)).flatMap g) m = run (g k) (run ((List.range k).flatMap g) m) := by
  rw [List.range_succ, List.flatMap_append, run_append]
  simp

theorem run_tileReg {rm rn c ldc : Nat} (h : rn ≤ ldc) (a : Nat → α) (lda : Nat) (b : Nat → α) (ldb k : Nat) (m : Nat → α)
    {i j : Nat} (hi : i < rm) (hj : j < rn) :
    run (tileReg rm rn a lda b ldb c ldc k) m (c + i * ldc + j) =
      ∑ l ∈ Finset.range k, a (i * lda + l) * b (l * ldb + j) := by
  unfold tileReg Upd.put
  rw [run_tile h (fun i j _ => accum 0 k fun l => a (i * lda + l) * b (l * ldb + j)) m hi hj, accum_eq, zero_add]

theorem run_tileMem {rm rn c ldc : Nat} (h : rn ≤ ldc) (a : Nat → α) (lda : Nat) (b : Nat → α) (ldb k : Nat) (m : Nat → α)
    {i j : Nat} (hi : i < rm) (hj : j < rn) :
    run (tileMem rm rn a lda b ldb c ldc k) m (c + i * ldc + j) =
      ∑ l ∈ Finset.range k, a (i * lda + l) * b (l * ldb + j) := by
  unfold tileMem Upd.put
  rw [run_append]
  have h0 := run_tile (c := c) h (fun _ _ _ => (0 : α)) m hi hj
  generalize run _ m = m0 at h0
  induction k with
  | zero => simpa [run] using h0
  | succ k ih =>
    rw [run_flatMap, run_tile h (fun i j s => s + a (i * lda + k) * b (k * ldb + j)) _ hi hj, ih, Finset.sum_range_succ]

theorem run_dispatch (w : Blas) {rm rn c ldc : Nat} (hm : rm ≤ 8) (hn : rn ≤ w.cap) (h : rn ≤ ldc) (a : Nat → α) (lda : Nat)
    (b : Nat → α) (ldb k : Nat) (m : Nat → α) {i j : Nat} (hi : i < rm) (hj : j < rn) :
    run (dispatchTile w rm rn a lda b ldb c ldc k) m (c + i * ldc + j) =
      ∑ l ∈ Finset.range k, a (i * lda + l) * b (l * ldb + j) := by
  unfold dispatchTile
  rw [Nat.min_eq_left hm, Nat.min_eq_left hn]
  split
  · exact run_tileReg h a lda b ldb k m hi hj
  · exact run_tileMem h a lda b ldb k m hi hj

theorem run_dispatchNTT (w : Blas) {rm rn c ldc : Nat} (hm : rm ≤ 8) (hn : rn ≤ w.cap) (h : rn ≤ ldc) (a : Nat → α)
    (lda : Nat) (b : Nat → α) (ldb k : Nat) (bias : Option (Nat → α)) (m : Nat → α) {i j : Nat} (hi : i < rm) (hj : j < rn) :
    run (dispatchTileNTT w rm rn a lda b ldb c ldc k bias) m (c + i * ldc + j) =
      (∑ l ∈ Finset.range k, a (i * lda + l) * b (j * ldb + l)) + (bias.elim 0 fun β => β j) := by
  unfold dispatchTileNTT
  rw [Nat.min_eq_left hm, Nat.min_eq_left hn]
  cases bias with
  | none =>
    dsimp only
    rw [List.append_nil]
    unfold Upd.put
    rw [run_tile h (fun i j _ => accum 0 k fun l => a (i * lda + l) * b (j * ldb + l)) m hi hj, accum_eq]
    simp
  | some β =>
    dsimp only
    rw [run_append]
    unfold Upd.put
    rw [run_tile h (fun i j s => s + β j) _ hi hj,
      run_tile h (fun i j _ => accum 0 k fun l => a (i * lda + l) * b (j * ldb + l)) m hi hj, accum_eq]
    simp

theorem dispatch_addr (w : Blas) {rm rn c ldc : Nat} (a : Nat → α) (lda : Nat) (b : Nat → α) (ldb k : Nat) {u : Upd α}
    (hu : u ∈ dispatchTile w rm rn a lda b ldb c ldc k) : ∃ i < rm, ∃ j < rn, u.addr = c + i * ldc + j := by
  unfold dispatchTile at hu
  split at hu
  · obtain ⟨i, hi, j, hj, rfl⟩ := mem_tile.mp hu
    exact ⟨i, by omega, j, by omega, rfl⟩
  · unfold tileMem at hu
    rcases List.mem_append.mp hu with hu | hu
    · obtain ⟨i, hi, j, hj, rfl⟩ := mem_tile.mp hu
      exact ⟨i, by omega, j, by omega, rfl⟩
    · obtain ⟨l, -, hu⟩ := List.mem_flatMap.mp hu
      obtain ⟨i, hi, j, hj, rfl⟩ := mem_tile.mp hu
      exact ⟨i, by omega, j, by omega, rfl⟩

theorem dispatchNTT_addr (w : Blas) {rm rn c ldc : Nat} (a : Nat → α) (lda : Nat) (b : Nat → α) (ldb k : Nat)
    (bias : Option (Nat → α)) {u : Upd α} (hu : u ∈ dispatchTileNTT w rm rn a lda b ldb c ldc k bias) :
    ∃ i < rm, ∃ j < rn, u.addr = c + i * ldc + j := by
  unfold dispatchTileNTT at hu
  rcases List.mem_append.mp hu with hu | hu
  · obtain ⟨i, hi, j, hj, rfl⟩ := mem_tile.mp hu
    exact ⟨i, by omega, j, by omega, rfl⟩
  · cases bias with
    | none => cases hu
    | some β =>
      obtain ⟨i, hi, j, hj, rfl⟩ := mem_tile.mp hu
      exact ⟨i, by omega, j, by omega, rfl⟩

theorem tileM_pos (m : Nat) : 0 < tileM m ∧ tileM m ≤ 8 := by unfold tileM; split_ifs <;> omega
theorem tileN_pos (w : Blas) (n : Nat) : 0 < tileN w n ∧ tileN w n ≤ w.cap := by
  unfold tileN Blas.cap; cases w <;> dsimp only <;> split_ifs <;> omega

theorem lt_tilesOf {x t i : Nat} (ht : 0 < t) (hi : i < x) : i / t < tilesOf x t := by
  unfold tilesOf
  rw [Nat.div_lt_iff_lt_mul ht]
  have h := Nat.div_add_mod (x + t - 1) t
  have := Nat.mod_lt (x + t - 1) ht
  rw [Nat.mul_comm] at h
  omega

/-- Two cells of an output of row length `N` and batch step `ds` with the same address are the same cell. -/
theorem cell_inj {N M ds b i j b' i' j' : Nat} (hM : M * N ≤ ds) (hi : i < M) (hj : j < N) (hi' : i' < M) (hj' : j' < N)
    (h : b * ds + i * N + j = b' * ds + i' * N + j') : b = b' ∧ i = i' ∧ j = j' := by
  have e1 : i * N + j < ds := by
    have : (i + 1) * N ≤ M * N := Nat.mul_le_mul_right _ hi
    rw [Nat.add_mul] at this; omega
  have e2 : i' * N + j' < ds := by
    have : (i' + 1) * N ≤ M * N := Nat.mul_le_mul_right _ hi'
    rw [Nat.add_mul] at this; omega
  have hb : b = b' := by
    rcases Nat.lt_trichotomy b b' with hlt | heq | hgt
    · exfalso
      have : (b + 1) * ds ≤ b' * ds := Nat.mul_le_mul_right _ hlt
      rw [Nat.add_mul] at this; omega
    · exact heq
    · exfalso
      have : (b' + 1) * ds ≤ b * ds := Nat.mul_le_mul_right _ hgt
      rw [Nat.add_mul] at this; omega
  subst hb
  refine ⟨rfl, ?_⟩
  rcases Nat.lt_trichotomy i i' with hlt | heq | hgt
  · exfalso
    have : (i + 1) * N ≤ i' * N := Nat.mul_le_mul_right _ hlt
    rw [Nat.add_mul] at this; omega
  · subst heq; exact ⟨rfl, by omega⟩
  · exfalso
    have : (i' + 1) * N ≤ i * N := Nat.mul_le_mul_right _ hgt
    rw [Nat.add_mul] at this; omega

/-- What a sequence of parallel sections does to a batch of matrices: it fills every cell with `val`, whatever the
schedule, and leaves the rest of the buffer alone. -/
def Fills (ss : List (List (List (Upd α)))) (batch M N ds : Nat) (val : Nat → Nat → Nat → α) : Prop :=
  ∀ m m' : Nat → α, Exec ss m m' →
    (∀ b < batch, ∀ i < M, ∀ j < N, m' (b * ds + i * N + j) = val b i j) ∧
    (∀ x, (∀ b < batch, ∀ i < M, ∀ j < N, x ≠ b * ds + i * N + j) → m' x = m x)

/-- Tiled products, for either tile kernel. -/
theorem tiles_fill (mc nc batch M N ds : Nat) (hmc : 0 < mc) (hnc : 0 < nc) (hds : batch ≤ 1 ∨ M * N ≤ ds)
    (tile : Nat → Nat → Nat → List (Upd α)) (val : Nat → Nat → Nat → α)
    (hrun : ∀ b ii jj i j m, i < min mc (M - ii) → j < min nc (N - jj) →
      run (tile b ii jj) m (b * ds + (ii * N + jj) + i * N + j) = val b (ii + i) (jj + j))
    (haddr : ∀ b ii jj, ∀ u ∈ tile b ii jj, ∃ i < min mc (M - ii), ∃ j < min nc (N - jj),
      u.addr = b * ds + (ii * N + jj) + i * N + j) :
    Fills ((List.range batch).map fun b => (List.range (tilesOf M mc * tilesOf N nc)).map fun job =>
      tile b (job / tilesOf N nc * mc) (job % tilesOf N nc * nc)) batch M N ds val := by
  intro m m' hex
  constructor
  · intro b hb i hi j hj
    set xt := tilesOf N nc with hxt
    have hx : j / nc < xt := lt_tilesOf hnc hj
    have hy : i / mc < tilesOf M mc := lt_tilesOf hmc hi
    have ht : i / mc * xt + j / nc < tilesOf M mc * xt := by
      have : (i / mc + 1) * xt ≤ tilesOf M mc * xt := Nat.mul_le_mul_right _ hy
      rw [Nat.add_mul] at this; omega
    have hxp : 0 < xt := Nat.lt_of_le_of_lt (Nat.zero_le _) hx
    have hd : (i / mc * xt + j / nc) / xt = i / mc := by
      rw [Nat.mul_comm, Nat.mul_add_div hxp, Nat.div_eq_of_lt hx, Nat.add_zero]
    have hm : (i / mc * xt + j / nc) % xt = j / nc := by
      rw [Nat.mul_comm, Nat.mul_add_mod, Nat.mod_eq_of_lt hx]
    have hdi := Nat.div_add_mod i mc
    have hdj := Nat.div_add_mod j nc
    have hmi := Nat.mod_lt i hmc
    have hmj := Nat.mod_lt j hnc
    rw [Nat.mul_comm] at hdi hdj
    have := hex.grid (b * ds + i * N + j) b (i / mc * xt + j / nc) hb ht (by
      intro b' hb' t' ht' hne u hu he
      obtain ⟨i', hi', j', hj', ha⟩ := haddr _ _ _ u hu
      rw [he] at ha
      have hinj : b = b' ∧ i = t' / xt * mc + i' ∧ j = t' % xt * nc + j' := by
        have e : b * ds + i * N + j = b' * ds + (t' / xt * mc + i') * N + (t' % xt * nc + j') := by
          rw [ha, Nat.add_mul (t' / xt * mc)]; omega
        rcases hds with h1 | hds
        · have hbb : b = b' := by omega
          subst hbb
          have e'' : i * N + j = (t' / xt * mc + i') * N + (t' % xt * nc + j') := by omega
          have e' : 0 * (M * N) + i * N + j = 0 * (M * N) + (t' / xt * mc + i') * N + (t' % xt * nc + j') := by
            rw [Nat.zero_mul, Nat.zero_add, Nat.zero_add]; exact e''
          exact ⟨rfl, (cell_inj (Nat.le_refl _) hi hj (by omega) (by omega) e').2⟩
        · exact cell_inj hds hi hj (by omega) (by omega) e
      obtain ⟨rfl, e2, e3⟩ := hinj
      have d1 : i / mc = t' / xt := by
        rw [e2, Nat.mul_comm, Nat.mul_add_div hmc, Nat.div_eq_of_lt (lt_of_lt_of_le hi' (min_le_left _ _)), Nat.add_zero]
      have d2 : j / nc = t' % xt := by
        rw [e3, Nat.mul_comm, Nat.mul_add_div hnc, Nat.div_eq_of_lt (lt_of_lt_of_le hj' (min_le_left _ _)), Nat.add_zero]
      have : t' = i / mc * xt + j / nc := by
        rw [d1, d2]
        have := Nat.div_add_mod t' xt
        rw [Nat.mul_comm] at this
        omega
      rcases hne with h | h
      · exact h rfl
      · exact h this)
    rw [this]
    beta_reduce
    rw [hd, hm]
    have hr := hrun b (i / mc * mc) (j / nc * nc) (i % mc) (j % nc) m
      (lt_min hmi (by omega)) (lt_min hmj (by omega))
    rw [show b * ds + i * N + j = b * ds + (i / mc * mc * N + j / nc * nc) + i % mc * N + j % nc by
      conv_lhs => rw [← hdi, ← hdj]
      rw [Nat.add_mul (i / mc * mc)]
      omega]
    rw [hr, hdi, hdj]
  · intro x hx
    refine hex.grid_other x ?_
    intro b hb t ht u hu he
    obtain ⟨i', hi', j', hj', ha⟩ := haddr _ _ _ u hu
    refine hx b hb (t / tilesOf N nc * mc + i') (by omega) (t % tilesOf N nc * nc + j') (by omega) ?_
    rw [← he, ha, Nat.add_mul (t / tilesOf N nc * mc)]
    omega

/-- One-row products. -/
theorem rows_fill (batch N ds : Nat) (hds : batch ≤ 1 ∨ N ≤ ds) (row : Nat → List (Upd α)) (val : Nat → Nat → Nat → α)
    (hrun : ∀ b j m, j < N → run (row b) m (b * ds + j) = val b 0 j)
    (haddr : ∀ b, ∀ u ∈ row b, ∃ j < N, u.addr = b * ds + j) :
    Fills [(List.range batch).map row] batch 1 N ds val := by
  intro m m' hex
  have hex' : Exec ((List.range 1).map fun _ => (List.range batch).map row) m m' := hex
  constructor
  · intro b hb i hi j hj
    obtain rfl : i = 0 := by omega
    have := hex'.grid (job := fun _ => row) (b * ds + 0 * N + j) 0 b (by omega) hb (by
      intro b' hb' t' ht' hne u hu he
      obtain ⟨j', hj', ha⟩ := haddr _ u hu
      have htb : t' ≠ b := by omega
      rcases hds with h1 | hds
      · omega
      · have := cell_inj (M := 1) (N := N) (ds := ds) (b := b) (i := 0) (j := j) (b' := t') (i' := 0) (j' := j')
          (by omega) (by omega) hj (by omega) hj' (by omega)
        exact htb this.1.symm)
    rw [this, Nat.zero_mul, Nat.add_zero]
    exact hrun b j m hj
  · intro x hx
    refine hex'.grid_other (job := fun _ => row) x ?_
    intro _ _ b hb u hu he
    obtain ⟨j, hj, ha⟩ := haddr _ u hu
    exact hx b hb 0 (by omega) j hj (by omega)

omit [CommRing α] in
theorem row_nodup (n c : Nat) (fn : Nat → α → α) :
    (((List.range n).map fun j => (⟨c + j, fn j⟩ : Upd α)).map Upd.addr).Nodup := by
  rw [List.map_map]
  refine List.Nodup.map ?_ List.nodup_range
  intro a b hab
  simpa using hab

omit [CommRing α] in
theorem run_row (n c : Nat) (fn : Nat → α → α) (m : Nat → α) {j : Nat} (hj : j < n) :
    run ((List.range n).map fun j => (⟨c + j, fn j⟩ : Upd α)) m (c + j) = fn j (m (c + j)) :=
  run_once (row_nodup n c fn) (u := ⟨c + j, fn j⟩) (List.mem_map.mpr ⟨j, List.mem_range.mpr hj, rfl⟩) m

/-- 32 running sums make up one sum. -/
theorem lanes_sum (q n : Nat) (f : Nat → α) :
    (∑ r ∈ Finset.range n, ∑ d ∈ Finset.range q, f (d * n + r)) = ∑ l ∈ Finset.range (q * n), f l := by
  rw [Finset.sum_comm]
  induction q with
  | zero => simp
  | succ q ih =>
    rw [Finset.sum_range_succ, ih, Nat.add_mul, Nat.one_mul, Finset.sum_range_add]

theorem run_gemvNT (w : Blas) (k n : Nat) (hw : w = .x86 ∨ k % 32 = 0) (A B : Nat → α) (c : Nat) (bias : Option (Nat → α))
    (m : Nat → α) {j : Nat} (hj : j < n) :
    run (gemvNT w k n A B c bias) m (c + j) =
      (∑ l ∈ Finset.range k, A l * B (j * k + l)) + bias.elim 0 fun β => β j := by
  unfold gemvNT Upd.put
  dsimp only
  rw [run_row n c (fun s _ => _) m hj]
  have hs : ∀ q, (accum 0 32 fun r => accum 0 q fun d => A (d * 32 + r) * B (j * k + (d * 32 + r))) =
      ∑ l ∈ Finset.range (q * 32), A l * B (j * k + l) := by
    intro q
    rw [accum_eq, zero_add, ← lanes_sum q 32 (fun l => A l * B (j * k + l))]
    refine Finset.sum_congr rfl fun r _ => ?_
    rw [accum_eq, zero_add]
  have hfull : (match w with
      | .arm => accum 0 32 fun r => accum 0 (k / 32) fun d => A (d * 32 + r) * B (j * k + (d * 32 + r))
      | .x86 => accum (accum 0 32 fun r => accum 0 (k / 32) fun d => A (d * 32 + r) * B (j * k + (d * 32 + r)))
          (k - k / 32 * 32) fun d => A (k / 32 * 32 + d) * B (j * k + (k / 32 * 32 + d))) =
      ∑ l ∈ Finset.range k, A l * B (j * k + l) := by
    cases w with
    | arm =>
      dsimp only
      rw [hs]
      have : k / 32 * 32 = k := by
        rcases hw with h | h
        · cases h
        · omega
      rw [this]
    | x86 =>
      dsimp only
      rw [hs, accum_eq]
      conv_rhs => rw [show k = k / 32 * 32 + (k - k / 32 * 32) by omega, Finset.sum_range_add]
      have : k / 32 * 32 + (k - k / 32 * 32) = k := by omega
      rw [this]
  cases bias with
  | none =>
    dsimp only [Option.elim]
    rw [add_zero, ← hfull]
    cases w <;> rfl
  | some β =>
    dsimp only [Option.elim]
    rw [← hfull]
    cases w <;> rfl

theorem run_gemvNN (k n : Nat) (A B : Nat → α) (c : Nat) (bias : Option (Nat → α)) (m : Nat → α) {j : Nat} (hj : j < n) :
    run (gemvNN k n A B c bias) m (c + j) =
      (∑ l ∈ Finset.range k, A l * B (l * n + j)) + bias.elim 0 fun β => β j := by
  unfold gemvNN
  rw [run_append, run_append]
  unfold Upd.put
  have h0 := run_row n c (fun j _ => (match bias with | none => (0 : α) | some β => β j)) m hj
  generalize run _ m = m0 at h0
  have h1 : ∀ q, run ((List.range q).flatMap fun q => (List.range n).map fun j =>
      (⟨c + j, fun s => s + A (q * 4) * B ((q * 4) * n + j) + A (q * 4 + 1) * B ((q * 4 + 1) * n + j)
        + A (q * 4 + 2) * B ((q * 4 + 2) * n + j) + A (q * 4 + 3) * B ((q * 4 + 3) * n + j)⟩ : Upd α)) m0 (c + j) =
      m0 (c + j) + ∑ l ∈ Finset.range (q * 4), A l * B (l * n + j) := by
    intro q
    induction q with
    | zero => simp [run]
    | succ q ih =>
      rw [run_flatMap, run_row n c (fun j s => s + A (q * 4) * B ((q * 4) * n + j) +
        A (q * 4 + 1) * B ((q * 4 + 1) * n + j) + A (q * 4 + 2) * B ((q * 4 + 2) * n + j) +
        A (q * 4 + 3) * B ((q * 4 + 3) * n + j)) _ hj, ih, show (q + 1) * 4 = q * 4 + 1 + 1 + 1 + 1 by omega]
      rw [Finset.sum_range_succ, Finset.sum_range_succ, Finset.sum_range_succ, Finset.sum_range_succ]
      ring
  have h1' := h1 (k / 4)
  generalize run _ m0 = m1 at h1'
  have h2 : ∀ q, run ((List.range q).flatMap fun q => (List.range n).map fun j =>
      (⟨c + j, fun s => s + A (k / 4 * 4 + q) * B ((k / 4 * 4 + q) * n + j)⟩ : Upd α)) m1 (c + j) =
      m1 (c + j) + ∑ l ∈ Finset.range q, A (k / 4 * 4 + l) * B ((k / 4 * 4 + l) * n + j) := by
    intro q
    induction q with
    | zero => simp [run]
    | succ q ih =>
      rw [run_flatMap, run_row n c (fun j s => s + A (k / 4 * 4 + q) * B ((k / 4 * 4 + q) * n + j)) _ hj, ih,
        Finset.sum_range_succ]
      ring
  rw [h2, h1', h0, add_assoc, ← Finset.sum_range_add (fun l => A l * B (l * n + j)),
    show k / 4 * 4 + (k - k / 4 * 4) = k by omega]
  cases bias <;> simp [add_comm]

/-- `blasMatmul` computes the product (plus the bias, when it supports one) for every size, batch, thread count and
schedule. -/
theorem blasMatmul_fills (w : Blas) (batch M K N ds sa sb : Nat) (A B : Nat → α) (bias : Option (Nat → α)) (tb : Bool)
    (threads : Nat) (hM : 0 < M) (hK : 0 < K) (hN : 0 < N) (ht : 0 < threads) (hds : batch ≤ 1 ∨ M * N ≤ ds)
    (hb : tb = true ∨ bias = none ∨ M = 1) :
    Fills (blasMatmul w batch M K N ds sa sb A B bias false tb threads) batch M N ds fun b i j =>
      prodAt K N tb (fun x => A (b * sa + x)) (fun x => B (b * sb + x)) i j + bias.elim 0 fun β => β j := by
  unfold blasMatmul
  rw [if_neg (by simp)]
  cases hg : useGemv w M K tb with
  | true =>
    rw [if_pos rfl]
    have hM1 : M = 1 := by
      unfold useGemv at hg
      cases w <;> cases tb <;> simp at hg <;> omega
    subst hM1
    refine rows_fill batch N ds (by omega) _ _ ?_ ?_
    · intro b j m hj
      cases tb with
      | true =>
        rw [if_pos rfl]
        have hw : w = .x86 ∨ K % 32 = 0 := by
          unfold useGemv at hg
          cases w <;> simp at hg ⊢
          exact hg
        rw [run_gemvNT w K N hw _ _ _ _ _ hj]
        simp [prodAt]
      | false =>
        rw [if_neg (by simp), run_gemvNN _ _ _ _ _ _ _ hj]
        simp [prodAt]
    · intro b u hu
      cases tb with
      | true =>
        rw [if_pos rfl] at hu
        unfold gemvNT at hu
        obtain ⟨j, hj, rfl⟩ := List.mem_map.mp hu
        exact ⟨j, List.mem_range.mp hj, rfl⟩
      | false =>
        rw [if_neg (by simp)] at hu
        unfold gemvNN at hu
        rcases List.mem_append.mp hu with hu | hu
        · rcases List.mem_append.mp hu with hu | hu
          · obtain ⟨j, hj, rfl⟩ := List.mem_map.mp hu
            exact ⟨j, List.mem_range.mp hj, rfl⟩
          · obtain ⟨q, -, hu⟩ := List.mem_flatMap.mp hu
            obtain ⟨j, hj, rfl⟩ := List.mem_map.mp hu
            exact ⟨j, List.mem_range.mp hj, rfl⟩
        · obtain ⟨q, -, hu⟩ := List.mem_flatMap.mp hu
          obtain ⟨j, hj, rfl⟩ := List.mem_map.mp hu
          exact ⟨j, List.mem_range.mp hj, rfl⟩
  | false =>
    rw [if_neg (by simp)]
    have hmc := tileM_pos M
    have hnc := tileN_pos w N
    cases tb with
    | true =>
      simp only [if_true]
      unfold sgemmNT
      have c1 : ¬ (M = 0 ∨ N = 0 ∨ K = 0) := by omega
      have c2 : ¬ (K < K ∨ K < K ∨ N < N) := by omega
      have c3 : ¬ (threads = 0) := by omega
      simp only [if_neg c1, if_neg c2, if_neg c3]
      refine tiles_fill (tileM M) (tileN w N) batch M N ds hmc.1 hnc.1 hds
        (fun b ii jj => dispatchTileNTT w (min (tileM M) (M - ii)) (min (tileN w N) (N - jj))
          (fun x => A (b * sa + (ii * K + x))) K (fun x => B (b * sb + (jj * K + x))) K (b * ds + (ii * N + jj)) N K
          (bias.map fun β x => β (jj + x))) _ ?_ ?_
      · intro b ii jj i j m hi hj
        beta_reduce
        rw [run_dispatchNTT w (by omega) (by omega) (by omega) _ _ _ _ _ _ _ hi hj]
        unfold prodAt
        congr 1
        · refine Finset.sum_congr rfl fun l _ => ?_
          simp only [if_true]
          rw [Nat.add_mul, Nat.add_mul, Nat.add_assoc (ii * K), Nat.add_assoc (jj * K)]
        · cases bias <;> rfl
      · intro b ii jj u hu
        exact dispatchNTT_addr w _ _ _ _ _ _ hu
    | false =>
      have hbn : bias = none := by
        rcases hb with h | h | h
        · cases h
        · exact h
        · subst h
          unfold useGemv at hg
          cases w <;> simp at hg
      subst hbn
      simp only [if_neg (show ¬ (false = true) by simp)]
      unfold sgemmNN
      have c1 : ¬ (M = 0 ∨ N = 0 ∨ K = 0) := by omega
      have c2 : ¬ (K < K ∨ N < N ∨ N < N) := by omega
      have c3 : ¬ (threads = 0) := by omega
      simp only [if_neg c1, if_neg c2, if_neg c3]
      refine tiles_fill (tileM M) (tileN w N) batch M N ds hmc.1 hnc.1 hds
        (fun b ii jj => dispatchTile w (min (tileM M) (M - ii)) (min (tileN w N) (N - jj))
          (fun x => A (b * sa + (ii * K + x))) K (fun x => B (b * sb + (jj + x))) N (b * ds + (ii * N + jj)) N K) _ ?_ ?_
      · intro b ii jj i j m hi hj
        beta_reduce
        rw [run_dispatch w (by omega) (by omega) (by omega) _ _ _ _ _ _ hi hj]
        unfold prodAt
        rw [Option.elim_none, add_zero]
        refine Finset.sum_congr rfl fun l _ => ?_
        rw [if_neg (by simp), Nat.add_mul, Nat.add_assoc (ii * K)]
        congr 3
        omega
      · intro b ii jj u hu
        exact dispatch_addr w _ _ _ _ _ hu

/-- An empty inner dimension: the tiled kernels refuse it and write nothing. -/
theorem blasMatmul_empty (w : Blas) (batch M N ds sa sb : Nat) (A B : Nat → α) (tb : Bool) (threads : Nat) (hM : 1 < M)
    (m m' : Nat → α) (h : Exec (blasMatmul w batch M 0 N ds sa sb A B none false tb threads) m m') : m' = m := by
  funext x
  refine h.other x ?_
  intro js hjs j hj
  unfold blasMatmul at hjs
  rw [if_neg (by simp)] at hjs
  have hg : useGemv w M 0 tb = false := by
    unfold useGemv; cases w <;> cases tb <;> simp <;> omega
  rw [hg, if_neg (by simp)] at hjs
  obtain ⟨b, -, rfl⟩ := List.mem_map.mp hjs
  cases tb
  · simp [sgemmNN] at hj
  · simp [sgemmNT] at hj

end Verif.Kern
