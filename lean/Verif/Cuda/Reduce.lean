import Verif.Prelude
import Mathlib.Data.Real.Basic
import Mathlib.Algebra.BigOperators.Intervals

/-!
# Block-wide sums in CUDA
(`gdn_decode.cuh` `block_reduce_sum`, L104-121; the same code inlined in `rms_norm_gated.cuh` L111-130)

A warp runs in lockstep (its lanes are joined by `__shfl_xor_sync`); the warps of a block advance in any order
between barriers.  Sums are exact.
-/

namespace Verif.Cuda

/-- One round of `val += __shfl_xor_sync(mask, val, offset)`, gdn_decode.cuh L49-55. -/
def bfly (off : ℕ) (f : ℕ → ℝ) : ℕ → ℝ := fun lane => f lane + f (lane ^^^ off)

/-- `warp_reduce_sum`, gdn_decode.cuh L49-55 (rms_norm_gated.cuh L34-40): offsets 16, 8, 4, 2, 1. -/
def warpSum (f : ℕ → ℝ) : ℕ → ℝ := bfly 1 (bfly 2 (bfly 4 (bfly 8 (bfly 16 f))))

theorem warpSum_eq (f : ℕ → ℝ) (lane : ℕ) (h : lane < 32) : warpSum f lane = ∑ l ∈ Finset.range 32, f l := by
  unfold warpSum bfly
  simp only [Finset.sum_range_succ, Finset.range_zero, Finset.sum_empty, zero_add]
  interval_cases lane <;> simp only [Nat.reduceXor] <;> ring

/-- What a warp does with shared memory. -/
inductive Ins
  /-- `val = warp_reduce_sum(val); if (lane_id == 0) smem[warp_id] = val;` -/
  | share (second : Bool)
  /-- `__syncthreads()` -/
  | sync
  /-- `if (warp_id == 0) { v = lane < num_warps ? smem[lane] : 0; v = warp_reduce_sum(v); if (lane_id == 0) smem[0] = v; }` -/
  | fold
  /-- `return smem[0]` -/
  | load (second : Bool)
  deriving DecidableEq

/-- `block_reduce_sum`, gdn_decode.cuh L104-121; rms_norm_gated.cuh L111-130. -/
def callSum (second : Bool) : List Ins := [.share second, .sync, .fold, .sync, .load second]

/-- Two sums in a row through the same buffer, gdn_decode.cuh L234-235 (`q_sq_sum`, then `k_sq_sum`). -/
def twoSums : List Ins := callSum false ++ callSum true

/-- Where each warp is, shared memory, and what each warp got from its two sums. -/
structure Cfg where
  pc : ℕ → ℕ
  mem : ℕ → ℝ
  got : Bool → ℕ → ℝ

/-- One warp advances.  `W` warps; `val i t` is what thread `t` brings to sum `i`. -/
inductive Step (W : ℕ) (val : Bool → ℕ → ℝ) (prog : List Ins) : Cfg → Cfg → Prop
  | share {c : Cfg} {w : ℕ} {i : Bool} : w < W → prog[c.pc w]? = some (.share i) →
      Step W val prog c
        ⟨Function.update c.pc w (c.pc w + 1), Function.update c.mem w (warpSum (fun l => val i (w * 32 + l)) 0), c.got⟩
  | sync {c : Cfg} {w : ℕ} : w < W → prog[c.pc w]? = some .sync → (∀ v < W, c.pc w ≤ c.pc v) →
      Step W val prog c ⟨Function.update c.pc w (c.pc w + 1), c.mem, c.got⟩
  | fold {c : Cfg} : 0 < W → prog[c.pc 0]? = some .fold →
      Step W val prog c
        ⟨Function.update c.pc 0 (c.pc 0 + 1),
          Function.update c.mem 0 (warpSum (fun l => if l < W then c.mem l else 0) 0), c.got⟩
  | skip {c : Cfg} {w : ℕ} : w < W → w ≠ 0 → prog[c.pc w]? = some .fold →
      Step W val prog c ⟨Function.update c.pc w (c.pc w + 1), c.mem, c.got⟩
  | load {c : Cfg} {w : ℕ} {i : Bool} : w < W → prog[c.pc w]? = some (.load i) →
      Step W val prog c
        ⟨Function.update c.pc w (c.pc w + 1), c.mem,
          fun j => if j = i then Function.update (c.got j) w (c.mem 0) else c.got j⟩

/-- The configurations a block can reach from any contents of shared memory. -/
inductive Reach (W : ℕ) (val : Bool → ℕ → ℝ) (prog : List Ins) : Cfg → Prop
  | start (mem : ℕ → ℝ) (got : Bool → ℕ → ℝ) : Reach W val prog ⟨fun _ => 0, mem, got⟩
  | step {c c' : Cfg} : Reach W val prog c → Step W val prog c c' → Reach W val prog c'

/-! ## The invariant -/

/-- What warp `w` contributes to sum `i`. -/
def part (val : Bool → ℕ → ℝ) (i : Bool) (w : ℕ) : ℝ := ∑ l ∈ Finset.range 32, val i (w * 32 + l)

/-- The sum over all threads of the block. -/
def total (W : ℕ) (val : Bool → ℕ → ℝ) (i : Bool) : ℝ := ∑ t ∈ Finset.range (W * 32), val i t

theorem total_eq (W : ℕ) (val : Bool → ℕ → ℝ) (i : Bool) :
    total W val i = ∑ w ∈ Finset.range W, part val i w := by
  unfold total part
  induction W with
  | zero => simp
  | succ n ih =>
    rw [Finset.sum_range_succ, ← ih, Nat.add_mul, Nat.one_mul, Finset.sum_range_add]

theorem fold_eq {W : ℕ} (hW : W ≤ 32) (m : ℕ → ℝ) (val : Bool → ℕ → ℝ) (i : Bool)
    (h : ∀ v < W, m v = part val i v) : warpSum (fun l => if l < W then m l else 0) 0 = total W val i := by
  rw [warpSum_eq _ _ (by decide), total_eq]
  rw [← Finset.sum_subset (s₁ := Finset.range W) (Finset.range_mono hW)]
  · refine Finset.sum_congr rfl fun w hw => ?_
    have hw := Finset.mem_range.mp hw
    rw [if_pos hw, h w hw]
  · intro x _ hx
    rw [if_neg (by simpa using hx)]

structure Inv (W : ℕ) (val : Bool → ℕ → ℝ) (pc : ℕ → ℕ) (mem : ℕ → ℝ) (got : Bool → ℕ → ℝ) : Prop where
  s2 : ∀ w < W, 2 ≤ pc w → ∀ v < W, 1 ≤ pc v
  s4 : ∀ w < W, 4 ≤ pc w → ∀ v < W, 3 ≤ pc v
  s7 : ∀ w < W, 7 ≤ pc w → ∀ v < W, 6 ≤ pc v
  s9 : ∀ w < W, 9 ≤ pc w → ∀ v < W, 8 ≤ pc v
  m1 : ∀ v < W, 1 ≤ pc v → pc 0 ≤ 2 → mem v = part val false v
  m2 : 3 ≤ pc 0 → pc 0 ≤ 5 → mem 0 = total W val false
  m3 : ∀ v < W, 6 ≤ pc v → pc 0 ≤ 7 → mem v = part val true v
  m4 : 8 ≤ pc 0 → mem 0 = total W val true
  g1 : ∀ v < W, 5 ≤ pc v → got false v = total W val false ∨ (v ≠ 0 ∧ 6 ≤ pc 0 ∧ got false v = part val true 0)
  g2 : ∀ v < W, 10 ≤ pc v → got true v = total W val true

theorem two_cases {p : ℕ} {x : Ins} (h : twoSums[p]? = some x) :
    (p = 0 ∧ x = .share false) ∨ (p = 1 ∧ x = .sync) ∨ (p = 2 ∧ x = .fold) ∨ (p = 3 ∧ x = .sync) ∨
    (p = 4 ∧ x = .load false) ∨ (p = 5 ∧ x = .share true) ∨ (p = 6 ∧ x = .sync) ∨ (p = 7 ∧ x = .fold) ∨
    (p = 8 ∧ x = .sync) ∨ (p = 9 ∧ x = .load true) := by
  have hp : p < 10 := (List.getElem?_eq_some_iff.mp h).1
  interval_cases p <;> simp [twoSums, callSum] at h <;> subst h <;> simp

end Verif.Cuda
