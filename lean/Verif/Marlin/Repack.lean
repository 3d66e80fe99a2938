import Verif.Marlin.Stripe
import Verif.Kern.Par

/-!
# Repacking quantised weights into the tile layout of the GEMM

`mllm-kernel/mllm_kernel/cuda/csrc/gemm/marlin/awq_marlin_repack.cuh` and `gptq_marlin_repack.cuh`.

Words are natural numbers below 2^32 (the kernels use `int` and `uint32_t` for the same words; a
value is always masked after the shift, so the sign does not matter).  `B` is the packed source in
row-major order, `out` the destination.  `b` is `num_bits`, 4 or 8.
-/

namespace Verif.Marlin

open Verif.Kern (Upd)

/-- `(w >> (i * num_bits)) & mask` (awq_marlin_repack.cuh L124-125, gptq_marlin_repack.cuh
L175-183, L204-205). -/
def field (b w i : Nat) : Nat := (w >>> (i * b)) &&& (2 ^ b - 1)

/-- `res = 0; for i: res |= v[i] << (i * num_bits)` (awq L136-140, L147-153; gptq L217-234). -/
def packFrom (b : Nat) : Nat → List Nat → Nat
  | _, [] => 0
  | i, v :: vs => (v <<< (i * b)) ||| packFrom b (i + 1) vs

def packWord (b : Nat) (vs : List Nat) : Nat := packFrom b 0 vs

/-- `repack_threads` (marlin.cuh L26). -/
def repackThreads : Nat := 256
/-- `repack_stages` (marlin.cuh L24). -/
def repackStages : Nat := 8

/-- `tc_offsets` (awq L94, gptq L157). -/
def tcOffset : Nat → Nat
  | 0 => 0 | 1 => 1 | 2 => 8 | _ => 9

/-! ## Fetching a tile into shared memory

Each is a function of the *integer* index `x` in the stage: thread `x / 4` copies four integers
with one `cp.async`; threads at or beyond `stage_size` copy nothing, and there are only
`repack_threads` of them. -/

/-- awq L45-75. -/
def awqFetch (b N : Nat) (B : Nat → Nat) (kt nt : Nat) (junk : Nat → Nat) (x : Nat) : Nat :=
  let pf := 32 / b
  let snt := (64 / pf) / 4
  let t := x / 4
  if t < 16 * snt ∧ t < repackThreads then
    B ((16 * kt + t / snt) * (N / pf) + 64 * nt / pf + (t % snt) * 4 + x % 4)
  else junk x

/-- gptq L80-87, L128-141 (no permutation). -/
def gptqFetch (b N : Nat) (B : Nat → Nat) (kt nt : Nat) (junk : Nat → Nat) (x : Nat) : Nat :=
  let pf := 32 / b
  let t := x / 4
  if t < (16 / pf) * 16 ∧ t < repackThreads then
    B ((16 * kt / pf + t / 16) * N + 64 * nt + (t % 16) * 4 + x % 4)
  else junk x

/-- gptq L89-98, L110-126 (with a permutation of the rows). -/
def permFetch (b N : Nat) (perm B : Nat → Nat) (kt nt : Nat) (junk : Nat → Nat) (x : Nat) : Nat :=
  let pf := 32 / b
  let t := x / 4
  if t < 16 * 16 ∧ t < repackThreads then
    B ((perm (16 * kt + t / 16) / pf) * N + 64 * nt + (t % 16) * 4 + x % 4)
  else junk x

/-! ## What a thread reads: `vals[0 … 7]` -/

/-- `undo_pack` (awq L106-114). -/
def undoPack (b i : Nat) : Nat :=
  if b = 4 then [0, 4, 1, 5, 2, 6, 3, 7].getD i 0 else [0, 2, 1, 3].getD i 0

/-- awq L80-126: thread `th` of warp `w`. -/
def awqVals (b : Nat) (sh : Nat → Nat) (th w i : Nat) : Nat :=
  let pf := 32 / b
  let curN := w * 16 + th / 4
  let row := (th % 4) * 2 + tcOffset (i % 4)
  let col := if i < 4 then curN / pf else curN / pf + 8 / pf
  field b (sh (col + (64 / pf) * row)) (undoPack b (curN % pf))

/-- gptq L187-206. -/
def gptqVals (b : Nat) (sh : Nat → Nat) (th w i : Nat) : Nat :=
  let pf := 32 / b
  let curN := w * 16 + th / 4
  let row := (th % 4) * 2 + tcOffset (i % 4)
  let col := if i < 4 then curN else curN + 8
  field b (sh (col + 64 * (row / pf))) (row % pf)

/-- gptq L171-184. -/
def permVals (b : Nat) (perm : Nat → Nat) (kt : Nat) (sh : Nat → Nat) (th w i : Nat) : Nat :=
  let pf := 32 / b
  let curN := w * 16 + th / 4
  let row := (th % 4) * 2 + tcOffset (i % 4)
  let col := if i < 4 then curN else curN + 8
  field b (sh (row * 64 + col)) (perm (16 * kt + row) % pf)

/-! ## What a thread writes -/

/-- The word(s) a thread stores (awq L128-157, gptq L209-238): one for 4 bits, two for 8. -/
def outWord (b : Nat) (vals : Nat → Nat) (half : Nat) : Nat :=
  if b = 4 then packWord 4 ([0, 2, 4, 6, 1, 3, 5, 7].map vals)
  else packWord 8 ([0, 2, 1, 3].map (fun p => vals (4 * half + p)))

/-- The index the word goes to (the same lines; `n_tiles = size_n / 64`). -/
def outIndex (b N kt nt th w half : Nat) : Nat :=
  (kt * (N / 64) + nt) * (16 * 64 / (32 / b)) + if b = 4 then th * 4 + w else th * 8 + w * 2 + half

/-- The k tiles of a thread block (awq L24-33, gptq L52-61): `block_k_tiles` from
`blockIdx.x * block_k_tiles`, cut at the end. -/
def kTiles (kt blocks blk : Nat) : List Nat :=
  let per := divCeil kt blocks
  let start := blk * per
  if start ≥ kt then [] else (List.range (min (start + per) kt - start)).map (start + ·)

/-- Everything the kernel writes: every block, its k tiles, all n tiles (awq L168-186), the 32
threads of the four warps that repack.  `vals kt nt th w` are the eight values of a thread. -/
def repackWrites (b K N blocks : Nat) (vals : Nat → Nat → Nat → Nat → Nat → Nat) :
    List (Upd Nat) :=
  (List.range blocks).flatMap fun blk =>
    (kTiles (K / 16) blocks blk).flatMap fun kt =>
      (List.range (N / 64)).flatMap fun nt =>
        (List.range 32).flatMap fun th =>
          (List.range 4).flatMap fun w =>
            (List.range (b / 4)).map fun half =>
              Upd.put (outIndex b N kt nt th w half) (outWord b (vals kt nt th w) half)

/-- `awq_marlin_repack` -/
def awqWrites (b K N blocks : Nat) (B junk : Nat → Nat) : List (Upd Nat) :=
  repackWrites b K N blocks (fun kt nt th w => awqVals b (awqFetch b N B kt nt junk) th w)

/-- `gptq_marlin_repack` without a permutation -/
def gptqWrites (b K N blocks : Nat) (B junk : Nat → Nat) : List (Upd Nat) :=
  repackWrites b K N blocks (fun kt nt th w => gptqVals b (gptqFetch b N B kt nt junk) th w)

/-- `gptq_marlin_repack` with a permutation -/
def permWrites (b K N blocks : Nat) (perm B junk : Nat → Nat) : List (Upd Nat) :=
  repackWrites b K N blocks
    (fun kt nt th w => permVals b perm kt (permFetch b N perm B kt nt junk) th w)

end Verif.Marlin
