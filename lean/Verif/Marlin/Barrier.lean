import Verif.Marlin.Stripe

/-!
# Adding up the parts of a column across thread blocks

`marlin_template.h`: the end of the main loop (L1422-1484), `barrier_acquire` / `barrier_release` /
`wait_negative_and_add` (L197-237), `global_reduce_fp32` / `global_reduce_fp16` (L1132-1238) and
the zeroing for the atomic mode in `init_slice` (L389-405).

Every thread block is one sequential process (its threads are separated by `__syncthreads` at each
of these points); the blocks run at the same time, in any interleaving of the steps below.  All
blocks of the grid are resident: the grid has one block per multiprocessor.  Memory is
sequentially consistent: the acquire/release annotations and fences are not modelled.

The accumulator of a whole block for one column (its `frag_c`) is one value of type `α`; `add` is
the addition of accumulators, `st` what storing an accumulator in the intermediate buffer does to
it (nothing for fp32, rounding for fp16).  No laws are assumed of them.
-/

namespace Verif.Marlin

/-- What the arithmetic of a launch looks like from the barrier. -/
structure Arith (α : Type) where
  /-- `frag_c += …` -/
  add : α → α → α
  /-- the value another block reads back after this one stored its accumulator
  (L1194-1207 for fp16, L1231-1236 for fp32) -/
  st : α → α
  /-- the accumulator after the main loop over the tiles of a slice, as a function of the block's
  slice (`matmul` over its tiles, then `thread_block_reduce`) -/
  part : Slice → α

/-- Where a block is in its program for the current slice. -/
inductive Pc
  /-- computing, then waiting in `barrier_acquire` (or, for an unshared column, about to write) -/
  | wait
  /-- between `barrier_acquire` and the end of `global_reduce_*` -/
  | crit
  /-- reduced, about to call `barrier_release` -/
  | rel
  /-- after the barrier: `if (last) write_result()` -/
  | out
deriving DecidableEq, Repr

/-- A thread block: the slices it still has to do (the first one is the current one), where it is,
and its accumulator. -/
structure Blk (α : Type) where
  todo : List Slice
  pc : Pc
  acc : Option α

/-- The whole grid: blocks and the shared memory they use. -/
structure BSt (α : Type) where
  blk : Nat → Blk α
  /-- `locks` (the workspace) -/
  lock : Int → Int
  /-- the intermediate buffer: `C_tmp` at `locks_off` (fp32), the column's output itself (fp16) -/
  tmp : Int → Option α
  /-- what `write_result` wrote for a column -/
  res : Nat → Option α

/-- Where the intermediate sums of a slice live: `C_tmp + locks_off * c_size` for the fp32
reduction (L1222), the column's place in `C` for the fp16 one (L1142-1153). -/
def Slice.slot (fp32 : Bool) (s : Slice) : Int := if fp32 then s.lock else s.col

/-- Function update. -/
def upd {κ β : Type} [DecidableEq κ] (f : κ → β) (k : κ) (v : β) : κ → β :=
  fun x => if x = k then v else f x

/-- Start of the kernel: every block has all its slices to do; `locks` as the previous launch left
them; the intermediate buffer and the output hold garbage. -/
def BSt.start (α : Type) (G : Grid) (lock : Int → Int) (tmp : Int → Option α) : BSt α :=
  { blk := fun b => if b < G.blocks then ⟨G.blockSlices b, .wait, none⟩ else ⟨[], .wait, none⟩,
    lock := lock, tmp := tmp, res := fun _ => none }

/-- One step of one block (lock mode: `use_atomic_add` false). -/
inductive BStep {α : Type} (A : Arith α) (fp32 : Bool) : BSt α → BSt α → Prop
  /-- `slice_count > 1`: `barrier_acquire` sees `locks[locks_off] == slice_idx` (L1462-1464,
  L197-208); the accumulator holds the block's own part. -/
  | acquire (σ : BSt α) (b : Nat) (s : Slice) (rest : List Slice) (a : Option α)
      (hb : σ.blk b = ⟨s :: rest, .wait, a⟩) (hc : s.count > 1) (hl : σ.lock s.lock = s.idx) :
      BStep A fp32 σ { σ with blk := upd σ.blk b ⟨s :: rest, .crit, some (A.part s)⟩ }
  /-- `global_reduce_*(slice_idx == 0, last)` (L1465-1469): add what is in the buffer unless
  first, store the sum unless last. -/
  | reduce (σ : BSt α) (b : Nat) (s : Slice) (rest : List Slice) (v : α)
      (hb : σ.blk b = ⟨s :: rest, .crit, some v⟩) (w : α)
      (hw : if s.idx = 0 then w = v else ∃ u, σ.tmp (s.slot fp32) = some u ∧ w = A.add v u) :
      BStep A fp32 σ { σ with
        blk := upd σ.blk b ⟨s :: rest, .rel, some w⟩,
        tmp := if s.idx = s.count - 1 then σ.tmp else upd σ.tmp (s.slot fp32) (some (A.st w)) }
  /-- `barrier_release(&locks[locks_off], last)` (L1470, L210-225): reset to 0 if last, add 1
  otherwise. -/
  | release (σ : BSt α) (b : Nat) (s : Slice) (rest : List Slice) (v : α)
      (hb : σ.blk b = ⟨s :: rest, .rel, some v⟩) :
      BStep A fp32 σ { σ with
        blk := upd σ.blk b ⟨s :: rest, .out, some v⟩,
        lock := upd σ.lock s.lock (if s.idx = s.count - 1 then 0 else σ.lock s.lock + 1) }
  /-- An unshared column goes straight to the end of the slice (L1462). -/
  | alone (σ : BSt α) (b : Nat) (s : Slice) (rest : List Slice) (a : Option α)
      (hb : σ.blk b = ⟨s :: rest, .wait, a⟩) (hc : ¬ s.count > 1) :
      BStep A fp32 σ { σ with blk := upd σ.blk b ⟨s :: rest, .out, some (A.part s)⟩ }
  /-- `if (last) write_result();` then the next slice (L1473-1484). -/
  | finish (σ : BSt α) (b : Nat) (s : Slice) (rest : List Slice) (v : α)
      (hb : σ.blk b = ⟨s :: rest, .out, some v⟩) :
      BStep A fp32 σ { σ with
        blk := upd σ.blk b ⟨rest, .wait, none⟩,
        res := if s.idx = s.count - 1 then upd σ.res s.col (some v) else σ.res }

/-- States the grid can be in. -/
inductive BReach {α : Type} (A : Arith α) (fp32 : Bool) (σ₀ : BSt α) : BSt α → Prop
  | init : BReach A fp32 σ₀ σ₀
  | step {σ τ : BSt α} : BReach A fp32 σ₀ σ → BStep A fp32 σ τ → BReach A fp32 σ₀ τ

/-! ## The atomic mode -/

/-- A block in the atomic mode: slices to do, and whether the block has passed
`wait_negative_and_add` for the current one. -/
structure ABlk where
  todo : List Slice
  /-- the start-of-kernel zeroing is done (L389-405: only in the first `init_slice`) -/
  begun : Bool
  passed : Bool

structure ASt (α : Type) where
  blk : Nat → ABlk
  lock : Int → Int
  /-- the output of a column -/
  out : Nat → Option α

def ASt.start (α : Type) (G : Grid) (lock : Int → Int) (out : Nat → Option α) : ASt α :=
  { blk := fun b => if b < G.blocks then ⟨G.blockSlices b, false, false⟩ else ⟨[], true, false⟩,
    lock := lock, out := out }

/-- One step of one block with `use_atomic_add`. `zero` is the zeroed output, `add` the atomic
addition into the output (applied to a whole column part at once: the elements are independent). -/
inductive AStep {α : Type} (zero : α) (add : α → α → α) (part : Slice → α) : ASt α → ASt α → Prop
  /-- `init_slice(true)` (L389-405): the bottom block of a shared column zeroes the output and
  sets the lock to `1 - slice_count`. -/
  | begin (σ : ASt α) (b : Nat) (s : Slice) (rest : List Slice) (p : Bool)
      (hb : σ.blk b = ⟨s :: rest, false, p⟩) :
      AStep zero add part σ { σ with
        blk := upd σ.blk b ⟨s :: rest, true, p⟩,
        out := if s.count > 1 ∧ s.idx = 0 then upd σ.out s.col (some zero) else σ.out,
        lock := if s.count > 1 ∧ s.idx = 0 then upd σ.lock s.lock (1 - s.count) else σ.lock }
  /-- a block without slices begins and is done -/
  | beginNone (σ : ASt α) (b : Nat) (p : Bool) (hb : σ.blk b = ⟨[], false, p⟩) :
      AStep zero add part σ { σ with blk := upd σ.blk b ⟨[], true, p⟩ }
  /-- `if (slice_count > 1 && slice_idx != 0) wait_negative_and_add(...)` (L1472, L227-237). -/
  | wait (σ : ASt α) (b : Nat) (s : Slice) (rest : List Slice)
      (hb : σ.blk b = ⟨s :: rest, true, false⟩) (hc : s.count > 1) (hi : s.idx ≠ 0)
      (hl : σ.lock s.lock < 0) :
      AStep zero add part σ { σ with
        blk := upd σ.blk b ⟨s :: rest, true, true⟩,
        lock := upd σ.lock s.lock (σ.lock s.lock + 1) }
  /-- the condition does not apply -/
  | skip (σ : ASt α) (b : Nat) (s : Slice) (rest : List Slice)
      (hb : σ.blk b = ⟨s :: rest, true, false⟩) (hc : ¬ (s.count > 1 ∧ s.idx ≠ 0)) :
      AStep zero add part σ { σ with blk := upd σ.blk b ⟨s :: rest, true, true⟩ }
  /-- `write_result` (L1299-1313): `atomicAdd` if the column is shared, a plain store otherwise;
  then the next slice. -/
  | write (σ : ASt α) (b : Nat) (s : Slice) (rest : List Slice)
      (hb : σ.blk b = ⟨s :: rest, true, true⟩) (v : α)
      (hv : if s.count > 1 then ∃ u, σ.out s.col = some u ∧ v = add u (part s) else v = part s) :
      AStep zero add part σ { σ with
        blk := upd σ.blk b ⟨rest, true, false⟩,
        out := upd σ.out s.col (some v) }

inductive AReach {α : Type} (zero : α) (add : α → α → α) (part : Slice → α) (σ₀ : ASt α) :
    ASt α → Prop
  | init : AReach zero add part σ₀ σ₀
  | step {σ τ : ASt α} : AReach zero add part σ₀ σ → AStep zero add part σ τ →
      AReach zero add part σ₀ τ

end Verif.Marlin
