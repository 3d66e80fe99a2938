import Verif.Prelude

/-!
# The striped work partition of the quantised GEMM

`mllm-kernel/mllm_kernel/cuda/csrc/gemm/marlin/marlin_template.h` (kernel `Marlin`).

The weight matrix is cut into `kt × nt` tiles, and there are `par` row blocks of the input; a
"column" is one column of tiles for one row block, so there are `nt * par` columns of `kt` tiles
each.  The thread blocks of the grid share the tiles out.  This file models what every thread
block computes for itself about the tiles it works on.

Integers: the C++ code mixes `int` and `unsigned`; the model uses `Int` where a difference may be
negative and `Nat` elsewhere, and does not model overflow of 32-bit integers.
-/

namespace Verif.Marlin

/-- `host::div_ceil` (mllm-kernel/include/mllm_kernel/utils.h, used through marlin.cuh). -/
def divCeil (a b : Nat) : Nat := (a + b - 1) / b

/-- The launch-wide quantities every thread block knows. -/
structure Grid where
  /-- `k_tiles` (marlin_template.h L320) -/
  kt : Nat
  /-- `n_tiles` (L321) -/
  nt : Nat
  /-- `parallel` (L314-318) -/
  par : Nat
  /-- `gridDim.x` -/
  blocks : Nat
  /-- `group_blocks / thread_k_blocks` when a scale group spans several tiles, 1 otherwise
  (L324-331) -/
  g : Nat

/-- Number of tile columns, over all row blocks. -/
def Grid.cols (G : Grid) : Nat := G.nt * G.par

/-- marlin_template.h L322-331: the number of tiles of a stripe, rounded up to whole scale
groups. -/
def Grid.iters (G : Grid) : Nat :=
  G.g * divCeil (divCeil (G.kt * G.nt * G.par) G.blocks) G.g

/-- What a thread block knows about the slice it is working on: the part of one column in its
stripe (marlin_template.h L333-343). -/
structure Slice where
  /-- `slice_col_par`: the column -/
  col : Nat
  /-- `slice_row`: first tile of the column -/
  row : Nat
  /-- `slice_iters`: number of tiles -/
  iters : Nat
  /-- `slice_count`: number of blocks that work on this column -/
  count : Int
  /-- `slice_idx` -/
  idx : Int
  /-- `locks_off` -/
  lock : Int
deriving DecidableEq, Repr

/-- `slice_iters` as computed at the top of `init_slice` (marlin_template.h L364-367); the answer
0 means the block has no (more) work. -/
def Grid.sliceIters (G : Grid) (b row col : Nat) : Nat :=
  let si : Int := (G.iters * (b + 1) : Nat) - ((G.kt * col + row : Nat) : Int)
  let si := if si < 0 ∨ col ≥ G.nt * G.par then 0 else si
  if si = 0 then 0
  else if (row : Int) + si > G.kt then G.kt - row else si.toNat

/-- `slice_count` (marlin_template.h L368-374). -/
def Grid.sliceCount (G : Grid) (col : Nat) : Int :=
  let colFirst := G.iters * divCeil (G.kt * col) G.iters
  if colFirst ≤ G.kt * (col + 1) then
    let colOff := colFirst - G.kt * col
    let c : Int := divCeil (G.kt - colOff) G.iters
    if colOff > 0 then c + 1 else c
  else 1

/-- `slice_idx` (marlin_template.h L369, L375-382). -/
def Grid.sliceIdx (G : Grid) (b col : Nat) : Int :=
  let colFirst := G.iters * divCeil (G.kt * col) G.iters
  if colFirst ≤ G.kt * (col + 1) then
    let colOff := colFirst - G.kt * col
    let count := G.sliceCount col
    let delta : Int := (G.iters * b : Nat) - (colFirst : Int)
    if delta < 0 ∨ (colOff = 0 ∧ delta = 0) then count - 1
    else
      let i := count - 1 - delta / (G.iters : Int)
      if colOff > 0 then i - 1 else i
  else 0

/-- `locks_off` before the first `init_slice` (marlin_template.h L353-359). -/
def Grid.lock0 (G : Grid) (b : Nat) : Int :=
  if G.par * G.nt ≥ G.blocks then b else (G.iters * b / G.kt : Nat) - 1

/-- The update of `locks_off` in `init_slice` (marlin_template.h L383-387). -/
def Grid.lockNext (G : Grid) (b col : Nat) (lock : Int) : Int :=
  if G.par * G.nt ≥ G.blocks then
    if G.sliceCount col > 1 ∧ G.sliceIdx b col = G.sliceCount col - 1 then lock + 1 else lock
  else lock + 1

/-- `init_slice` (marlin_template.h L363-412, without the zeroing of the output, which is in
`Barrier.lean`, and without the advance of `A`/`C`, which is `Slice.rowBlock` below). -/
def Grid.initSlice (G : Grid) (b row col : Nat) (lock : Int) : Option Slice :=
  let n := G.sliceIters b row col
  if n = 0 then none
  else some { col := col, row := row, iters := n, count := G.sliceCount col,
              idx := G.sliceIdx b col, lock := G.lockNext b col lock }

/-- The main loop (marlin_template.h L1394-1510) as the list of slices a block works on: after a
slice, `slice_row = 0` and `slice_col_par++`, then `init_slice` again.  `fuel` bounds the number
of slices; `blockSlices` gives enough. -/
def Grid.slicesFrom (G : Grid) (b : Nat) : Nat → Nat → Nat → Int → List Slice
  | 0, _, _, _ => []
  | fuel + 1, row, col, lock =>
    match G.initSlice b row col lock with
    | none => []
    | some s => s :: G.slicesFrom b fuel 0 (col + 1) s.lock

/-- All slices of thread block `b` (marlin_template.h L333-334: the first slice starts at tile
`iters * b`). -/
def Grid.blockSlices (G : Grid) (b : Nat) : List Slice :=
  G.slicesFrom b (G.nt * G.par + 1) ((G.iters * b) % G.kt) ((G.iters * b) / G.kt) (G.lock0 b)

/-- marlin_template.h L347-352, L407-411: which tile column of the weight and which row block of
the input a column stands for: `slice_col = slice_col_par % n_tiles`, `par_id = slice_col_par /
n_tiles`. (The code keeps both incrementally: it divides once at the start and then wraps
`slice_col` at `n_tiles`; see `wrapCol`.) -/
def Grid.place (G : Grid) (col : Nat) : Nat × Nat := (col % G.nt, col / G.nt)

/-- The incremental version: `slice_col++` then, in `init_slice`, `if (slice_col == n_tiles)
{ …; slice_col = 0; par_id++; }` (marlin_template.h L1482, L407-411). -/
def Grid.wrapCol (G : Grid) (p : Nat × Nat) : Nat × Nat :=
  if p.1 + 1 = G.nt then (0, p.2 + 1) else (p.1 + 1, p.2)

end Verif.Marlin
