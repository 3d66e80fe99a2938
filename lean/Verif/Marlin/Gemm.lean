import Verif.Marlin.Dequant
import Mathlib.Algebra.BigOperators.Group.Finset.Basic
import Mathlib.Algebra.BigOperators.Ring.Finset
import Mathlib.Algebra.Ring.Basic

/-!
# From operands to the output

`marlin_template.h`: the activations' way through shared memory (`transform_a`, `ldmatrix`), the
tensor-core products, `thread_block_reduce` and `write_result`, for kernels with blocks of 16 rows
(`m_block_size_8` is false).

Arithmetic is exact here: values live in a commutative ring, roundings of the accumulation and of the
conversion of the result are not modelled.  `write_result` with atomic additions and column scales
(C158) is not modelled here.
-/

namespace Verif.Marlin

open Verif.Kern (Upd)

variable {R : Type}

/-- `a_gl_rd_delta_o = a_sh_stride = 16 * thread_k_blocks / 8` (L415-418). -/
def aStride (c : GemmCfg) : Nat := 16 * c.tkb / 8

/-- `transform_a` (L571-574); `+` binds tighter than `^` in C++. -/
def transformA (gd i : Nat) : Nat := (gd * (i / gd) + i % gd) ^^^ (i / gd % 8)

/-- What one thread block writes into a stage of shared memory for the activations of tile row
`row` (L413-433, L477-481, L566-567, L578-580, L669-673).  `A` is the matrix in units of eight
elements, `lda8 = lda / 8` its row stride, `pm` is `prob_m`.  Rows at or beyond `prob_m` are not
written. -/
def aWrites (c : GemmCfg) (mb pm lda8 : Nat) (A : Nat → Nat → R) (row : Nat) : List (Upd (Nat → R)) :=
  let gd := aStride c
  let delta := gd * (c.threads / gd)
  (List.range (divCeil (gd * (16 * mb)) delta)).flatMap fun i =>
    (List.range c.threads).flatMap fun tid =>
      let x := delta * i + (gd * (tid / gd) + tid % gd)
      if x < gd * pm then
        [Upd.put (transformA gd x)
          (A (lda8 * (c.threads / gd) * i + (lda8 * (tid / gd) + tid % gd + gd * row)))]
      else []

/-- Where thread `tid` points `ldmatrix` for iteration `i`, row block `m` (L423-424, L482-485,
L585-592). -/
def aAddr (c : GemmCfg) (tid i m : Nat) : Nat :=
  let gd := aStride c
  transformA gd (2 * (c.threads / 32 / (c.tnb / 4)) * i + gd * 16 * m
    + (gd * (tid % 32 % 16) + tid % 32 / 16 + 2 * (tid / 32 / (c.tnb / 4))))

/-- `ldmatrix.sync.aligned.m8n8.x4` (PTX ISA): row `r` of matrix `mi` is the eight elements at the
address given by thread `8 * mi + r`; thread `l` receives elements `2 (l % 4)`, `2 (l % 4) + 1` of row
`l / 4` of each matrix. -/
def ldmatrix (sh : Nat → Nat → R) (addr : Nat → Nat) (l mi h : Nat) : R :=
  sh (addr (8 * mi + l / 4)) (2 * (l % 4) + h)

/-- `frag_a[k2][m]` of lane `l` of warp `w` (L750-753). -/
def fragA (c : GemmCfg) (sh : Nat → Nat → R) (w i m l mi h : Nat) : R :=
  ldmatrix sh (fun l' => aAddr c (32 * w + l') i m) l mi h

/-- `mma.sync.aligned.m16n8k16.row.col` (PTX ISA), the products added to register `x` of lane `l`:
`a lane reg half`, `b lane reg half` are the operands of the warp. -/
def mma [CommRing R] (a b : Nat → Nat → Nat → R) (l x : Nat) : R :=
  let row := l / 4 + 8 * (x / 2)
  let col := 2 * (l % 4) + x % 2
  ∑ k ∈ Finset.range 16,
    a (4 * (row % 8) + k % 8 / 2) (row / 8 + 2 * (k / 8)) (k % 2) * b (4 * col + k % 8 / 2) (k / 8) (k % 2)

/-- `frag_c[m][j][f][x]` of lane `l` of warp `w` after `n` tiles from tile row `r0` on: zeroed, then
for each tile two iterations of `matmul` (L1071-1075, L1353, L1371-1385).  `sh t` is the stage that
holds the activations of tile row `t`, `wop` the dequantised operands (`tid`, `i`, `j`, `f`, `r`, `h`).
The order of the two iterations and of the tiles is kept. -/
def acc [CommRing R] (c : GemmCfg) (sh : Nat → Nat → Nat → R) (wop : Nat → Nat → Nat → Nat → Nat → Nat → Nat → R)
    (r0 w m j f l x : Nat) : Nat → R
  | 0 => 0
  | n + 1 =>
    (acc c sh wop r0 w m j f l x n
      + mma (fragA c (sh (r0 + n)) w 0 m) (fun l' r h => wop (r0 + n) (32 * w + l') 0 j f r h) l x)
      + mma (fragA c (sh (r0 + n)) w 1 m) (fun l' r h => wop (r0 + n) (32 * w + l') 1 j f r h) l x

/-! ## `thread_block_reduce` (L1080-1126)

`red_idx` is the row of the warp; the values of one register of one column of warps are reduced
independently of the others: the place in shared memory is `red_sh_stride * red_idx + red_sh_delta * j +
threadIdx.x % b_sh_stride_threads`, so slot `s` below is a different address for every register and
column.  In a round every slot is read and written by one thread only, between barriers. -/

/-- A round: `frag`, `slot` before, `i` the distance. -/
def redRound [CommRing R] (off i : Nat) (s : (Nat → R) × (Nat → R)) : (Nat → R) × (Nat → R) :=
  let frag' := fun r => if i ≤ r ∧ r < 2 * i ∧ i < off then s.1 r + (s.2 r + s.2 (r - i)) else s.1 r
  (frag', fun t => if t < i then frag' (t + i) else s.2 t)

/-- `for (int i = red_off; i > 0; i /= 2)` -/
def redLoop [CommRing R] (off : Nat) : Nat → Nat → (Nat → R) × (Nat → R) → (Nat → R) × (Nat → R)
  | 0, _, s => s
  | fuel + 1, i, s => if i > 0 then redLoop off fuel (i / 2) (redRound off i s) else s

/-- The value of warp row 0 at the end; `rows` is `threads / b_sh_stride_threads`. -/
def blockReduce [CommRing R] (rows : Nat) (frag slot : Nat → R) : R :=
  let off := rows / 2
  if off ≥ 1 then
    let s := redLoop off (off + 1) off (frag, slot)
    s.1 0 + s.2 0
  else frag 0

/-- What register `(m, j, f, x)` of lane `l` of the `w`-th warp of the first row of warps holds after a
slice of `n` tiles from tile row `r0` on (L1353-1441): every row of warps accumulated its share
(`threadIdx.x / 32 = row * (thread_n_blocks / 4) + w`), then the rows are reduced. -/
def sliceReg [CommRing R] (c : GemmCfg) (sh : Nat → Nat → Nat → R)
    (wop : Nat → Nat → Nat → Nat → Nat → Nat → Nat → R) (slot : Nat → R) (r0 n w m j f l x : Nat) : R :=
  blockReduce (c.threads / 32 / (c.tnb / 4)) (fun r => acc c sh wop r0 (r * (c.tnb / 4) + w) m j f l x n) slot

/-! ## `write_result` (L1253-1331) -/

/-- The writes of pairs into shared memory: `res m j f l w x` is register `x` (L1262-1313).  Only the
first row of warps writes.  An address is that of a pair; the pair is a function of the half. -/
def cWrites (c : GemmCfg) (mb : Nat) (res : Nat → Nat → Nat → Nat → Nat → Nat → R) : List (Upd (Nat → R)) :=
  let cs := 2 * c.tnb + 1
  (List.range c.threads).flatMap fun tid =>
    if tid / 32 < c.tnb / 4 then
      (List.range mb).flatMap fun m => (List.range 4).flatMap fun j =>
        (List.range 2).flatMap fun f => (List.range 2).map fun v =>
          Upd.put (4 * cs * (tid % 32 / 4) + tid % 32 % 4 + 32 * (tid / 32) + 16 * (4 * cs) * m + 8 * j
              + 4 * cs * (8 * v) + 4 * f)
            (fun half => res m j f (tid % 32) (tid / 32) (2 * v + half))
    else []

/-- The copies from shared memory to the output, in units of eight elements (L1257-1260, L1275,
L1316-1329; a thread that fails the test once fails it for all later rows): `sh` is shared memory in
pairs. -/
def outWrites (c : GemmCfg) (mb pm col : Nat) (sh : Nat → Nat → R) : List (Upd (Nat → R)) :=
  let cs := 2 * c.tnb + 1
  let per := c.threads / (2 * c.tnb)
  (List.range c.threads).flatMap fun tid =>
    (List.range (divCeil (16 * mb) per)).flatMap fun i =>
      let wr := c.N / 8 * (tid / (2 * c.tnb)) + tid % (2 * c.tnb) + 2 * c.tnb * col + c.N / 8 * per * i
      let rd := cs * (tid / (2 * c.tnb)) + tid % (2 * c.tnb) + cs * per * i
      if wr < c.N / 8 * pm then [Upd.put wr (fun e => sh (4 * rd + e / 2) (e % 2))] else []

end Verif.Marlin
