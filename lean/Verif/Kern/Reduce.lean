import Verif.Kern.Rows
import Verif.Kern.Softmax

/-!
Reductions: `backends/cpu/ops/ReduceOps.cpp`, `core/aops/ReduceOps.cpp`, `backends/cpu/kernels/arm/reduce.{hpp,cpp}`,
`backends/cpu/kernels/common/reduce-inl.hpp`.

Generic in the element type.  Real numbers stand for `float`, `BitVec w` for the wrapping integers.
-/

namespace Verif.Kern

open Verif.Tensor (numel)

/-- `for (l = 0; l < k; ++l) s = op(s, f(l));` -/
def foldFrom {α : Type} (op : α → α → α) (s : α) (k : Nat) (f : Nat → α) : α :=
  (List.range k).foldl (fun s l => op s (f l)) s

/-- The scalar loop, arm `reduce.hpp` L47-48, `reduce-inl.hpp` L104-108: start from the first element. -/
def foldSeq {α : Type} (op : α → α → α) (n : Nat) (f : Nat → α) : α := foldFrom op (f 0) (n - 1) fun i => f (i + 1)

/-- One lane of `vec_result` after the vector loops, arm `reduce.hpp` L29-43: the unrolled loop and the loop of single
vectors visit the vectors in the same order. -/
def laneFold {α : Type} (op : α → α → α) (lanes n : Nat) (f : Nat → α) (v : Nat) : α :=
  foldFrom op (f v) (n / lanes - 1) fun t => f ((t + 1) * lanes + v)

/-- `Reduce::run`, arm `reduce.hpp` L16-55; `f i` is `src[i * src_stride]`.  The reduction of a vector to a scalar
(`primitives.hpp` L672-816, pairwise) is taken as a loop over its lanes. -/
def armReduce {α : Type} (op : α → α → α) (zero : α) (lanes stride n : Nat) (f : Nat → α) : α :=
  if n = 0 then zero
  else if lanes ≤ n / lanes * lanes ∧ stride = 1 then
    foldFrom op (foldFrom op (laneFold op lanes n f 0) (lanes - 1) fun v => laneFold op lanes n f (v + 1))
      (n - n / lanes * lanes) fun j => f (n / lanes * lanes + j)
  else foldSeq op n f

/-- `reduce_impl`, `reduce-inl.hpp` L61-110: the rest is loaded as a vector filled up with zeros. -/
def x86Reduce {α : Type} (op : α → α → α) (zero : α) (lanes stride n : Nat) (f : Nat → α) : α :=
  if n = 0 then zero
  else if stride = 1 ∧ lanes ≤ n then
    let lane (v : Nat) :=
      if n / lanes * lanes < n then
        op (laneFold op lanes n f v) (if n / lanes * lanes + v < n then f (n / lanes * lanes + v) else zero)
      else laneFold op lanes n f v
    foldFrom op (lane 0) (lanes - 1) fun v => lane (v + 1)
  else foldSeq op n f

/-- What the loops of `ReduceOps.cpp` call, with stride, size and elements: `none` when the sources call nothing on x86. -/
structure RedKernel (α : Type) where
  arm : Nat → Nat → (Nat → α) → α
  x86 : Option (Nat → Nat → (Nat → α) → α)

/-- `RedKernel` at a build. -/
def RedKernel.on {α : Type} (k : RedKernel α) : Simd → Option (Nat → Nat → (Nat → α) → α)
  | .arm => some k.arm
  | .x86 _ => k.x86

/-- `reduce_sum_fp32`, arm `reduce.cpp` L12-16, `reduce-inl.hpp` L113-118, `ReduceOps.cpp` L293-301, L339-356. -/
noncomputable def sumF32 (lanes : Nat) : RedKernel ℝ :=
  ⟨armReduce (· + ·) 0 4, some (x86Reduce (· + ·) 0 lanes)⟩

/-- `reduce_max_fp32`, arm `reduce.cpp` L24-28, `ReduceOps.cpp` L25-31, L69-83: no branch for x86. -/
noncomputable def maxF32 : RedKernel ℝ := ⟨armReduce max 0 4, none⟩

/-- `reduce_min_fp32`, arm `reduce.cpp` L30-34, `ReduceOps.cpp` L159-165, L203-217: no branch for x86. -/
noncomputable def minF32 : RedKernel ℝ := ⟨armReduce min 0 4, none⟩

/-- `reduce_mean_fp32`, arm `reduce.cpp` L138-142, `ReduceOps.cpp` L432-438, L476-491: no branch for x86. -/
noncomputable def meanF32 : RedKernel ℝ := ⟨fun stride n f => armReduce (· + ·) 0 4 stride n f / n, none⟩

/-- `reduce_sum_int8`, `_int16`, `_int32`, arm `reduce.cpp` L66-70, L90-94, L114-118; `lanes` is 16, 8, 4. -/
def sumInt (w lanes : Nat) : RedKernel (BitVec w) := ⟨armReduce (· + ·) 0 lanes, none⟩

/-- Signed comparison: `a > b ? a : b`, `primitives.hpp` L40-42 and `vmaxq_s8`. -/
def smax {w : Nat} (a b : BitVec w) : BitVec w := if b.toInt < a.toInt then a else b

/-- `a < b ? a : b`, `primitives.hpp` L45-47 and `vminq_s8`. -/
def smin {w : Nat} (a b : BitVec w) : BitVec w := if a.toInt < b.toInt then a else b

/-- `reduce_max_int8`, `_int16`, `_int32`, arm `reduce.cpp` L78-82, L102-106, L126-130. -/
def maxInt (w lanes : Nat) : RedKernel (BitVec w) := ⟨armReduce smax 0 lanes, none⟩

/-- `reduce_min_int8`, `_int16`, `_int32`, arm `reduce.cpp` L84-88, L108-112, L132-136. -/
def minInt (w lanes : Nat) : RedKernel (BitVec w) := ⟨armReduce smin 0 lanes, none⟩

/-- `reduce_mean_int8`, `_int16`, arm `reduce.cpp` L153-163: the wrapped sum, as a `float`, divided by the `float` size and
truncated.  Exact for sizes below `2^24` (both operands fit a `float` and the rounded quotient of 16-bit by 24-bit integers
does not cross an integer).  The same code for `int32` is not modelled: there the conversions round. -/
def meanInt (w lanes : Nat) : RedKernel (BitVec w) :=
  ⟨fun stride n f => BitVec.ofInt w ((armReduce (· + ·) 0 lanes stride n f).toInt.tdiv n), none⟩

/-- `dim < 0 ? dim + shape.size() : dim`. -/
def dimOf (shape : List Nat) (dim : Int) : Int := if dim < 0 then dim + shape.length else dim

/-- `0x7fffffff`: reduce everything. -/
def dimAll : Int := 0x7fffffff

/-- `reshape`, `core/aops/ReduceOps.cpp` L31-65 (the same text for the four operators).  `none`: the code indexes outside the
shape. -/
def redShape (shape : List Nat) (dim : Int) (keep : Bool) : Option (List Nat) :=
  if dim = dimAll then some (if keep then List.replicate shape.length 1 else [1])
  else
    let d := dimOf shape dim
    if 0 ≤ d ∧ d < shape.length then some (if keep then shape.set d.toNat 1 else shape.eraseIdx d.toNat) else none

/-- `forward`, `ReduceOps.cpp` L13-137 and the three others: the stores, in order.  `none`: the code indexes outside the
shape. -/
def redForward {α : Type} (k : RedKernel α) (s : Simd) (x : Ten α) (dim : Int) : Option (List (Upd α)) :=
  let d := dimOf x.shape dim
  if d = dimAll then
    some (match k.on s with
      | some r => [Upd.put 0 (r 1 (numel x.shape) x.data)]
      | none => [])
  else if 0 ≤ d ∧ d < x.shape.length then
    let outer := numel (x.shape.take d.toNat)
    let inner := numel (x.shape.drop (d.toNat + 1))
    let axis := x.shape.getD d.toNat 0
    some (match k.on s with
      | some r => (List.range outer).flatMap fun o => (List.range inner).map fun i =>
          Upd.put (o * inner + i) (r inner axis fun j => x.data (o * axis * inner + i + j * inner))
      | none => [])
  else none

/-- What a caller gets: shape and storage, allocated with arbitrary contents `m`. -/
def reduce {α : Type} (k : RedKernel α) (s : Simd) (x : Ten α) (dim : Int) (keep : Bool) (m : Nat → α) : Option (Ten α) := do
  let sh ← redShape x.shape dim keep
  let us ← redForward k s x dim
  pure (outRows sh (run us m))

/-! ### Proofs -/

section
variable {α : Type} {op : α → α → α}

theorem foldFrom_succ (s : α) (k : Nat) (f : Nat → α) : foldFrom op s (k + 1) f = op (foldFrom op s k f) (f k) := by
  simp [foldFrom, List.range_succ]

/-- A map that turns `op` into addition turns loops into sums. -/
theorem foldFrom_hom {M : Type} [AddCommMonoid M] {h : α → M} (hh : ∀ a b, h (op a b) = h a + h b) (s : α) (k : Nat)
    (f : Nat → α) : h (foldFrom op s k f) = h s + ∑ i ∈ Finset.range k, h (f i) := by
  induction k with
  | zero => simp [foldFrom]
  | succ k ih => rw [foldFrom_succ, hh, ih, Finset.sum_range_succ, add_assoc]

theorem foldSeq_hom {M : Type} [AddCommMonoid M] {h : α → M} (hh : ∀ a b, h (op a b) = h a + h b) {n : Nat} (hn : 0 < n)
    (f : Nat → α) : h (foldSeq op n f) = ∑ i ∈ Finset.range n, h (f i) := by
  unfold foldSeq
  rw [foldFrom_hom hh]
  obtain ⟨k, rfl⟩ : ∃ k, n = k + 1 := ⟨n - 1, by omega⟩
  rw [Finset.sum_range_succ', add_comm, Nat.add_sub_cancel]

theorem laneFold_hom {M : Type} [AddCommMonoid M] {h : α → M} (hh : ∀ a b, h (op a b) = h a + h b) {lanes n : Nat}
    (hl : 0 < n / lanes) (f : Nat → α) (v : Nat) :
    h (laneFold op lanes n f v) = ∑ t ∈ Finset.range (n / lanes), h (f (t * lanes + v)) := by
  unfold laneFold
  rw [foldFrom_hom hh]
  obtain ⟨k, hk⟩ : ∃ k, n / lanes = k + 1 := ⟨n / lanes - 1, by omega⟩
  rw [hk, Finset.sum_range_succ', add_comm, Nat.add_sub_cancel]
  simp

theorem sum_lanes {M : Type} [AddCommMonoid M] (q lanes : Nat) (g : Nat → M) :
    ∑ v ∈ Finset.range lanes, ∑ t ∈ Finset.range q, g (t * lanes + v) = ∑ i ∈ Finset.range (q * lanes), g i := by
  induction q with
  | zero => simp
  | succ q ih =>
    rw [Nat.add_mul, Nat.one_mul, Finset.sum_range_add, ← ih, ← Finset.sum_add_distrib]
    exact Finset.sum_congr rfl fun v _ => Finset.sum_range_succ _ _

theorem armReduce_hom {M : Type} [AddCommMonoid M] {h : α → M} (hh : ∀ a b, h (op a b) = h a + h b) (zero : α)
    {lanes : Nat} (hl : 0 < lanes) (stride : Nat) {n : Nat} (hn : 0 < n) (f : Nat → α) :
    h (armReduce op zero lanes stride n f) = ∑ i ∈ Finset.range n, h (f i) := by
  unfold armReduce
  rw [if_neg (by omega)]
  split
  · rename_i hc
    have hq : 0 < n / lanes := by
      rcases Nat.eq_zero_or_pos (n / lanes) with h0 | h0
      · rw [h0] at hc; omega
      · exact h0
    rw [foldFrom_hom hh, foldFrom_hom hh]
    simp only [laneFold_hom hh hq]
    obtain ⟨k, hk⟩ : ∃ k, lanes = k + 1 := ⟨lanes - 1, by omega⟩
    have e1 : (∑ t ∈ Finset.range (n / lanes), h (f (t * lanes + 0))) +
        ∑ v ∈ Finset.range (lanes - 1), ∑ t ∈ Finset.range (n / lanes), h (f (t * lanes + (v + 1))) =
        ∑ i ∈ Finset.range (n / lanes * lanes), h (f i) := by
      rw [← sum_lanes (n / lanes) lanes fun i => h (f i)]
      have e : ∀ F : Nat → M, F 0 + ∑ v ∈ Finset.range (lanes - 1), F (v + 1) = ∑ v ∈ Finset.range lanes, F v := by
        intro F
        rw [hk, Finset.sum_range_succ', add_comm, Nat.add_sub_cancel]
      exact e fun v => ∑ t ∈ Finset.range (n / lanes), h (f (t * lanes + v))
    rw [e1]
    have e2 : n = n / lanes * lanes + (n - n / lanes * lanes) := by
      have := Nat.div_mul_le_self n lanes
      omega
    conv_rhs => rw [e2, Finset.sum_range_add]
  · exact foldSeq_hom hh hn f

theorem x86Reduce_sum {M : Type} [AddCommMonoid M] {lanes : Nat} (hl : 0 < lanes) (stride : Nat) {n : Nat} (hn : 0 < n)
    (f : Nat → M) : x86Reduce (· + ·) 0 lanes stride n f = ∑ i ∈ Finset.range n, f i := by
  have hh : ∀ a b : M, id (a + b) = id a + id b := fun _ _ => rfl
  unfold x86Reduce
  rw [if_neg (by omega)]
  split
  · rename_i hc
    have hq : 0 < n / lanes := Nat.div_pos hc.2 hl
    have hlane : ∀ v, laneFold (· + ·) lanes n f v = ∑ t ∈ Finset.range (n / lanes), f (t * lanes + v) :=
      fun v => laneFold_hom (h := id) hh hq f v
    have e : ∀ F : Nat → M, foldFrom (· + ·) (F 0) (lanes - 1) (fun v => F (v + 1)) = ∑ v ∈ Finset.range lanes, F v := by
      intro F
      have h1 : foldFrom (· + ·) (F 0) (lanes - 1) (fun v => F (v + 1)) = F 0 + ∑ v ∈ Finset.range (lanes - 1), F (v + 1) :=
        foldFrom_hom (h := id) hh (F 0) (lanes - 1) fun v => F (v + 1)
      rw [h1]
      obtain ⟨k, rfl⟩ : ∃ k, lanes = k + 1 := ⟨lanes - 1, by omega⟩
      rw [Finset.sum_range_succ', Nat.add_sub_cancel, add_comm]
    have hr : n - n / lanes * lanes < lanes := by
      have h1 := Nat.div_add_mod n lanes
      have h2 := Nat.mod_lt n hl
      rw [Nat.mul_comm] at h1
      omega
    have hle := Nat.div_mul_le_self n lanes
    dsimp only
    by_cases hlt : n / lanes * lanes < n
    · simp only [if_pos hlt]
      rw [e fun v => laneFold (· + ·) lanes n f v + if n / lanes * lanes + v < n then f (n / lanes * lanes + v) else 0]
      rw [Finset.sum_add_distrib]
      simp only [hlane]
      rw [sum_lanes]
      have e2 : n = n / lanes * lanes + (n - n / lanes * lanes) := by omega
      conv_rhs => rw [e2, Finset.sum_range_add]
      congr 1
      have e3 : lanes = (n - n / lanes * lanes) + (lanes - (n - n / lanes * lanes)) := by omega
      generalize n / lanes * lanes = b at *
      rw [e3, Finset.sum_range_add, Finset.sum_eq_zero (s := Finset.range (lanes - (n - b))), add_zero]
      · refine Finset.sum_congr rfl fun v hv => ?_
        rw [if_pos (by have := Finset.mem_range.mp hv; omega)]
      · intro v _
        rw [if_neg (by omega)]
    · simp only [if_neg hlt]
      rw [e fun v => laneFold (· + ·) lanes n f v]
      simp only [hlane]
      rw [sum_lanes]
      have : n / lanes * lanes = n := by omega
      rw [this]
  · exact foldSeq_hom (h := id) hh hn f

/-- Every order of a commutative, associative operation gives the same result. -/
theorem armReduce_seq (ha : ∀ a b c, op (op a b) c = op a (op b c)) (hc : ∀ a b, op a b = op b a) (zero : α)
    {lanes : Nat} (hl : 0 < lanes) (stride : Nat) {n : Nat} (hn : 0 < n) (f : Nat → α) :
    armReduce op zero lanes stride n f = foldSeq op n f := by
  let _ : AddCommSemigroup α := { add := op, add_assoc := ha, add_comm := hc }
  have hh : ∀ a b : α, ((op a b : α) : WithZero α) = (a : WithZero α) + (b : WithZero α) := fun a b =>
    WithZero.coe_add a b
  have h1 := armReduce_hom (h := fun a : α => (a : WithZero α)) hh zero hl stride hn f
  have h2 := foldSeq_hom (h := fun a : α => (a : WithZero α)) hh hn f
  exact WithZero.coe_injective (h1.trans h2.symm)

end

end Verif.Kern
