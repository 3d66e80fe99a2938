import Verif.Marlin.Repack
import Mathlib.Algebra.Order.Ring.Rat
import Mathlib.Algebra.Field.Rat

/-!
# From packed words to tensor-core operands

`mllm-kernel/mllm_kernel/cuda/csrc/gemm/marlin/dequant.h`, the operand part of `marlin_template.h`,
and the layout of scales and zero points (`pymllm/quantization/methods/awq_marlin.py`, the same
functions in `compressed_tensors.py`).

Registers are 32-bit vectors.  A floating-point register is modelled by the rational number it
holds.  Not modelled: infinities and NaN (they decode to 0 here), the FP8 and FP4 types, float zero
points, act-order, 8-bit weights with bfloat16.
-/

namespace Verif.Marlin

/-! ## Floating point -/

/-- A 16-bit format: `mb` mantissa bits, exponent bias. -/
structure Fmt where
  mb : Nat
  bias : Nat

def fp16 : Fmt := ⟨10, 15⟩
def bf16 : Fmt := ⟨7, 127⟩

/-- The value of a 16-bit pattern (IEEE 754 interchange format). -/
def fval (f : Fmt) (w : BitVec 16) : Rat :=
  let m := w.toNat % 2 ^ f.mb
  let e := w.toNat / 2 ^ f.mb % 2 ^ (15 - f.mb)
  let mag : Rat :=
    if e = 2 ^ (15 - f.mb) - 1 then 0
    else if e = 0 then (2 * m : Nat) / (2 ^ (f.bias + f.mb) : Nat)
    else ((2 ^ f.mb + m) * 2 ^ e : Nat) / (2 ^ (f.bias + f.mb) : Nat)
  if w.toNat < 2 ^ 15 then mag else -mag

/-- The numbers of the format. -/
def Fmt.Has (f : Fmt) (x : Rat) : Prop := ∃ w, fval f w = x

/-- The arithmetic of the device: `__hsub2`, `__hfma2`, `__hmul2` on one lane.  IEEE operations
return the exact result whenever it is a number of the format; nothing else is assumed. -/
structure FArith (f : Fmt) where
  sub : Rat → Rat → Rat
  mul : Rat → Rat → Rat
  fma : Rat → Rat → Rat → Rat
  sub_exact : ∀ a b, f.Has a → f.Has b → f.Has (a - b) → sub a b = a - b
  fma_exact : ∀ a b c, f.Has a → f.Has b → f.Has c → f.Has (a * b + c) → fma a b c = a * b + c

/-! ## `dequant.h` -/

/-- Half `h` of a register seen as `half2` / `nv_bfloat162` (little endian). -/
def lane (q : BitVec 32) (h : Nat) : BitVec 16 := q.extractLsb' (16 * h) 16

/-- `lop3<(0xf0 & 0xcc) | 0xaa>(a, b, c)` (dequant.h L75-80). -/
def lop3 (a b c : BitVec 32) : BitVec 32 := a &&& b ||| c

/-- One selector digit of `prmt` / `__byte_perm`: byte `s` of the eight bytes of `b:a`. -/
def selByte (a b : BitVec 32) (s : Nat) : BitVec 8 :=
  if s < 4 then a.extractLsb' (8 * s) 8 else b.extractLsb' (8 * (s - 4)) 8

/-- `prmt.b32 res, a, b, mask` with selectors 0-7 (dequant.h L84-89). -/
def prmt (a b : BitVec 32) (s3 s2 s1 s0 : Nat) : BitVec 32 :=
  (selByte a b s3).setWidth 32 <<< 24 ||| (selByte a b s2).setWidth 32 <<< 16 |||
    (selByte a b s1).setWidth 32 <<< 8 ||| (selByte a b s0).setWidth 32

inductive QT
  | u4 | u4b8 | u8 | u8b128
deriving DecidableEq

/-- `dequant<half2, ·, true>` (dequant.h L105-116, L140-143, L214-231, L242-245): register `r` as a
bit pattern. -/
def bits16 (t : QT) (q : BitVec 32) (r : Nat) : BitVec 32 :=
  match t with
  | .u4 | .u4b8 =>
    if r = 0 then lop3 q 0x000f000f 0x64006400 else lop3 (q.sshiftRight 4) 0x000f000f 0x64006400
  | .u8 | .u8b128 =>
    if r = 0 then prmt q 0x64646464 5 2 5 0 else prmt q 0x64646464 5 3 5 1

/-- `dequant<half2, ·, false>` (dequant.h L118-137, L145-166, L233-240, L247-254). -/
def dequant16 (A : FArith fp16) (t : QT) (q : BitVec 32) (r h : Nat) : Rat :=
  match t with
  | .u4b8 =>
    if r = 0 then A.sub (fval fp16 (lane (lop3 q 0x000f000f 0x64006400) h)) (fval fp16 0x6408)
    else A.fma (fval fp16 (lane (lop3 q 0x00f000f0 0x64006400) h)) (fval fp16 0x2c00) (fval fp16 0xd480)
  | .u4 =>
    if r = 0 then A.sub (fval fp16 (lane (lop3 q 0x000f000f 0x64006400) h)) (fval fp16 0x6400)
    else A.fma (fval fp16 (lane (lop3 q 0x00f000f0 0x64006400) h)) (fval fp16 0x2c00) (fval fp16 0xd400)
  | .u8b128 => A.sub (fval fp16 (lane (bits16 .u8b128 q r) h)) (fval fp16 0x6480)
  | .u8 => A.sub (fval fp16 (lane (bits16 .u8 q r) h)) (fval fp16 0x6400)

/-- `dequant<nv_bfloat162, kU4B8 | kU4, true>` (dequant.h L168-183, L195-198). -/
def bitsB16 (q : BitVec 32) (r : Nat) : BitVec 32 :=
  if r = 0 then lop3 q 0x000f000f 0x43004300 else lop3 (q.sshiftRight 4) 0x000f000f 0x43004300

/-- `dequant<nv_bfloat162, ·, false>` for 4 bits (dequant.h L185-193, L200-208). -/
def dequantB16 (A : FArith bf16) (t : QT) (q : BitVec 32) (r h : Nat) : Rat :=
  A.sub (fval bf16 (lane (bitsB16 q r) h)) (fval bf16 (if t = .u4b8 then 0x4308 else 0x4300))

/-! ## Scales and zero points before the GEMM -/

/-- `scale_perm` (awq_marlin.py L164-166, compressed_tensors.py L107-109). -/
def scalePerm : List Nat := (List.range 8).flatMap fun i => (List.range 8).map fun j => i + 8 * j

/-- `scale_perm_single` (awq_marlin.py L167-171). -/
def scalePermSingle : List Nat :=
  (List.range 4).flatMap fun i => [0, 1, 8, 9, 16, 17, 24, 25].map fun j => 2 * i + j

/-- `x.reshape((-1, len(p)))[:, p]`, flattened. -/
def gather {α : Type} (p : List Nat) (x : Nat → α) (i : Nat) : α :=
  x (i / p.length * p.length + p.getD (i % p.length) 0)

/-- `marlin_permute_scales` (awq_marlin.py L175-185, compressed_tensors.py L118-126); `g` is the
group size, `none` for -1. -/
def permuteScales {α : Type} (g : Option Nat) (K : Nat) (s : Nat → α) : Nat → α :=
  if g.any (· < K) then gather scalePerm s else gather scalePermSingle s

/-- `pack_cols` (awq_marlin.py L188-199), flattened: `q` has rows of `N` values, the result rows of
`N / pf` words. -/
def packCols (b N : Nat) (q : Nat → Nat) (i : Nat) : Nat :=
  let pf := 32 / b
  packWord b ((List.range pf).map fun l => q (i / (N / pf) * N + (i % (N / pf) * pf + l)))

/-- `unpack_cols` (awq_marlin.py L202-214), flattened. -/
def unpackCols (b N : Nat) (z : Nat → Nat) (i : Nat) : Nat :=
  let pf := 32 / b
  field b (z (i / N * (N / pf) + i % N / pf)) (i % N % pf)

/-- `interleave` (awq_marlin.py L224-229, L248-253). -/
def interleave (b : Nat) : List Nat := if b = 4 then [0, 2, 4, 6, 1, 3, 5, 7] else [0, 2, 1, 3]

/-- `numpy.argsort` of a permutation: its inverse. -/
def argsort (p : List Nat) : List Nat := (List.range p.length).map fun v => p.idxOf v

/-- `marlin_zero_points` (awq_marlin.py L217-234). -/
def marlinZeroPoints (b N : Nat) (zp : Nat → Nat) : Nat → Nat :=
  packCols b N (gather (interleave b) (gather scalePerm zp))

/-- `awq_to_marlin_zero_points` (awq_marlin.py L237-260). -/
def awqToMarlinZeroPoints (b N : Nat) (z : Nat → Nat) : Nat → Nat :=
  marlinZeroPoints b N (gather (argsort (interleave b)) (unpackCols b N z))

/-! ## What a thread of the GEMM holds

A kernel has `threads` threads, tiles of `tkb × tnb` blocks of 16 × 16, groups of `gb` blocks.
Thread `tid` works on block tile `(row, col)`; its iteration `i` (`b_sh_wr_iters = 2` of them)
takes `16` rows. -/

structure GemmCfg where
  N : Nat
  threads : Nat
  tkb : Nat
  tnb : Nat
  gb : Nat

/-- A thread copies the words it reads itself (`b_sh_wr = b_sh_rd`, `b_sh_wr_delta =
b_sh_rd_delta`): index of word `x` of iteration `i` (marlin_template.h L441-453, L487-491, L605-607,
L677-682, L756-760). -/
def bWord (b : Nat) (c : GemmCfg) (row col tid i x : Nat) : Nat :=
  let pf := 32 / b
  let vecs := if b = 4 then 1 else 2
  let glStride := 16 * c.N / (pf * 4)
  let shStride := (c.tnb * 16) * 16 / pf / 4
  let shThreads := shStride / vecs
  4 * (glStride * (c.threads / shThreads) * i + (glStride * (tid / shThreads) + tid % shThreads * vecs
    + shStride * col + glStride * c.tkb * row) + x / 4) + x % 4

/-- `b_quant_0`, `b_quant_1` (marlin_template.h L1031-1038). -/
def bQuant (b : Nat) (c : GemmCfg) (B : Nat → Nat) (row col tid i j f : Nat) : BitVec 32 :=
  if b = 4 then
    let q := BitVec.ofNat 32 (B (bWord b c row col tid i j))
    if f = 0 then q else q.sshiftRight 8
  else BitVec.ofNat 32 (B (bWord b c row col tid i (j * 2 + f)))

/-- A row of `len` `int4`s copied into shared memory by the first `len` threads
(`s_sh_wr_pred`, `zp_sh_wr_pred`: marlin_template.h L514-527, L700-731). -/
def stageRow {α : Type} (threads len : Nat) (src : Nat → α) (base : Nat) (junk : Nat → α) (x : Nat) : α :=
  if x < len ∧ x < threads then src (base + x) else junk x

/-- Which scale group the thread uses in tile row `row`, iteration `i`: the tile's first group
(marlin_template.h L510, L521) plus, when a tile has several groups, `cur_group_id` (L806-815, L913-931). -/
def groupOf (c : GemmCfg) (row tid i : Nat) : Nat :=
  let warpRow := tid / 32 / (c.tnb / 4)
  c.tkb * row / c.gb
    + if c.gb ≥ c.tkb then 0 else (warpRow * 16 + 16 * c.tkb / 2 * i) / 16 / c.gb

/-- Half `e` (0-7) of the `int4` of scales the thread reads: `sh_s_stage[s_sh_rd]`, `s_sh_rd` for
groups (marlin_template.h L428-430, L541, L800-820). `S` are the scales in memory, one half each. -/
def sRead {α : Type} (c : GemmCfg) (S : Nat → α) (junk : Nat → Nat → α) (row col tid i e : Nat) : α :=
  let shStride := 16 * c.tnb / 8
  stageRow c.threads shStride (fun x e => S (8 * x + e))
    (c.N / 8 * groupOf c row tid i + shStride * col) junk
    (8 * (tid / 32 % (c.tnb / 4)) + tid % 32 / 4) e

/-- The word of packed zero points the thread reads, `frag_qzp` (4 bits: one word;
marlin_template.h L463-465, L551-561, L893-935). -/
def zpRead (c : GemmCfg) (Z : Nat → Nat) (junk : Nat → Nat → Nat) (row col tid i : Nat) : BitVec 32 :=
  let glStride := c.N / 8 / 4
  let shStride := 16 * c.tnb / 8 / 4
  let rd := 8 * (tid / 32 % (c.tnb / 4)) + tid % 32 / 4
  BitVec.ofNat 32 (stageRow c.threads shStride (fun x l => Z (4 * x + l))
    (glStride * groupOf c row tid i + shStride * col) junk (rd / 4) (rd % 4))

/-- `FragS frag_s[k2][j]` half `f`: eight halves per `int4`, two per `FragS`. -/
def fragS {α : Type} (c : GemmCfg) (S : Nat → α) (junk : Nat → Nat → α) (row col tid i j f : Nat) : α :=
  sRead c S junk row col tid i (2 * j + f)

/-- Operand of a layer with zero points (`kU4`), fp16: `dequant<…, true>` of weight and zero point,
`sub_zp`, `scale` (marlin_template.h L991-1003, L1042-1067, L144-182).  Fragment `f` of column
group `j`, register `r`, half `h`. -/
def operandZp16 (A : FArith fp16) (c : GemmCfg) (B Z : Nat → Nat) (S : Nat → Rat)
    (junkS : Nat → Nat → Rat) (junkZ : Nat → Nat → Nat) (row col tid i j f r h : Nat) : Rat :=
  let zq := zpRead c Z junkZ row col tid i
  let zp := fval fp16 (lane (bits16 .u4 (if j < 2 then zq else zq.sshiftRight 8) (j % 2)) f)
  A.mul (A.sub (fval fp16 (lane (bits16 .u4 (bQuant 4 c B row col tid i j f) r) h)) zp)
    (fragS c S junkS row col tid i j f)

/-- The same with bfloat16. -/
def operandZpB16 (A : FArith bf16) (c : GemmCfg) (B Z : Nat → Nat) (S : Nat → Rat)
    (junkS : Nat → Nat → Rat) (junkZ : Nat → Nat → Nat) (row col tid i j f r h : Nat) : Rat :=
  let zq := zpRead c Z junkZ row col tid i
  let zp := fval bf16 (lane (bitsB16 (if j < 2 then zq else zq.sshiftRight 8) (j % 2)) f)
  A.mul (A.sub (fval bf16 (lane (bitsB16 (bQuant 4 c B row col tid i j f) r) h)) zp)
    (fragS c S junkS row col tid i j f)

/-- Operand of a symmetric grouped layer (`kU4B8`, `kU8B128`), fp16. -/
def operandSym16 (A : FArith fp16) (t : QT) (b : Nat) (c : GemmCfg) (B : Nat → Nat) (S : Nat → Rat)
    (junkS : Nat → Nat → Rat) (row col tid i j f r h : Nat) : Rat :=
  A.mul (dequant16 A t (bQuant b c B row col tid i j f) r h) (fragS c S junkS row col tid i j f)

/-- Operand of a symmetric grouped 4-bit layer, bfloat16. -/
def operandSymB16 (A : FArith bf16) (c : GemmCfg) (B : Nat → Nat) (S : Nat → Rat)
    (junkS : Nat → Nat → Rat) (row col tid i j f r h : Nat) : Rat :=
  A.mul (dequantB16 A .u4b8 (bQuant 4 c B row col tid i j f) r h) (fragS c S junkS row col tid i j f)

/-! ## Scales of a layer without groups

One scale per column, applied to the result: `sh_s[s_sh_rd]`, `sh_s[s_sh_rd + 4]` (marlin_template.h
L542-545, L1417, L1427-1438, L1291-1299). -/

/-- `frag_s[j / 2][2 * (j % 2) + f]`, half `x`: kernels with 16-row blocks. -/
def colScale {α : Type} (c : GemmCfg) (S : Nat → α) (junk : Nat → Nat → α) (col tid j f x : Nat) : α :=
  let shStride := 16 * c.tnb / 8
  stageRow c.threads shStride (fun x e => S (8 * x + e)) (shStride * col) junk
    (8 * (tid / 32 % (c.tnb / 4)) + tid % 32 % 4 + 4 * (j / 2)) (2 * (2 * (j % 2) + f) + x)

/-- The same for kernels with 8-row blocks: both halves become half `(threadIdx.x / 4) % 2`. -/
def colScale8 {α : Type} (c : GemmCfg) (S : Nat → α) (junk : Nat → Nat → α) (col tid j f : Nat) : α :=
  let shStride := 16 * c.tnb / 8
  stageRow c.threads shStride (fun x e => S (8 * x + e)) (shStride * col) junk
    (8 * (tid / 32 % (c.tnb / 4)) + tid % 32 / 8 + 4 * (j / 2)) (2 * (2 * (j % 2) + f) + tid / 4 % 2)

end Verif.Marlin
