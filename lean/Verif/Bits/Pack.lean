import Verif.Bits.Rd

/-!
# Packed weights and activations

`mllm/backends/cpu/kernels/arm/quantize/bitspack/bitspack.hpp`, `bitspack.cpp` and `ux_packing.hpp` (cited by file
name).  A packer advances one byte pointer, so its output is a list of bytes.  A `float` is only moved: it is its
bit pattern.
-/

namespace Verif.Bits

/-- The template arguments `weight_nbit`, `nr`, `kr`, `sr`, `has_lut` of `pack_weights_impl` (bitspack.hpp L272). -/
structure Cfg where
  bits : Nat
  nr : Nat
  kr : Nat
  sr : Nat
  lut : Bool

/-- The arguments of `pack_weights` and `pack_weights_with_lut` (bitspack.hpp L433-440, L563-570); flat arrays. -/
structure Wt where
  n : Nat
  k : Nat
  gs : Nat
  ints : Nat → Byte
  nLuts : Nat
  luts : Nat → Byte
  scales : Nat → BitVec 32
  zeros : Option (Nat → Byte)
  bias : Option (Nat → BitVec 32)

/-- `groups_per_k` (bitspack.hpp L299). -/
def Wt.groups (w : Wt) : Nat := w.k / w.gs

/-- How often `for (i = 0; i < a; i += b)` runs. -/
def steps (a b : Nat) : Nat := (a + b - 1) / b

/-- `pack_buffer` and `pack_buffer_for_lut` (bitspack.hpp L160-193); other sizes stop at `assert(false)`. -/
def codecOf (c : Cfg) : Option Codec :=
  if c.lut then (if c.kr * c.nr = 128 then some (uint128 c.bits) else none)
  else (uintN c.bits (c.kr * c.nr)).map (lowbit c.bits)

/-- `pack_values` (ux_packing.hpp L21-38) with `sizeof(T) == 1`: the bytes in order. -/
def packValues (c : Cfg) (v : Nat → Byte) : List Byte :=
  (List.range c.sr).flatMap fun s => (List.range c.nr).flatMap fun j =>
    (List.range (c.kr / c.sr)).map fun x => v (j * c.kr + s * (c.kr / c.sr) + x)

/-- `compute_sum` (bitspack.cpp L77-90): vectors of 16, then the rest. -/
def computeSum (v : Nat → Byte) (size : Nat) : Int :=
  ((List.range (size / 16)).map fun i => ((List.range 16).map fun x => (v (16 * i + x)).toInt).sum).sum
    + ((List.range (size % 16)).map fun x => (v (16 * (size / 16) + x)).toInt).sum

/-- `vqtbl1q_s8`: an index outside the table gives zero. -/
def tbl (lut : Nat → Byte) (i : Byte) : Byte := if i.toNat < 16 then lut i.toNat else 0

/-- `lut_buffer` for the tile at column `n` (bitspack.hpp L313, L349-356): the table, extended by zeros. -/
def lutAt (c : Cfg) (w : Wt) (n : Nat) (i : Nat) : Byte :=
  if i < 2 ^ c.bits then w.luts (n / (w.n / w.nLuts) * 2 ^ c.bits + i) else 0

/-- `buffer` (bitspack.hpp L365-371): `kr` values of each of `nr` columns, zeros behind column `n`. -/
def buffer (c : Cfg) (w : Wt) (n k : Nat) (i : Nat) : Byte :=
  if n + i / c.kr < w.n then w.ints ((n + i / c.kr) * w.k + (k + i % c.kr)) else 0

/-- `qvals_sum[j]` of one group (bitspack.hpp L359-360, L371-376): the sum over the pieces of the group. -/
def qvalsSum (c : Cfg) (w : Wt) (n k j : Nat) : Int :=
  ((List.range (steps w.gs c.kr)).map fun b =>
    if n + j < w.n then
      (if c.lut then computeSum (fun x => tbl (lutAt c w n) (buffer c w n (k + b * c.kr) (c.kr * j + x))) c.kr
        else computeSum (fun x => buffer c w n (k + b * c.kr) (c.kr * j + x)) c.kr)
    else 0).sum

/-- The zeros of a group, as `int32_t` (bitspack.hpp L407-415). -/
def zeroBytes (c : Cfg) (w : Wt) (n g : Nat) : List Byte :=
  match w.zeros with
  | some z => (List.range c.nr).flatMap fun j => le32 (if n + j < w.n then (z ((n + j) * w.groups + g)).signExtend 32 else 0)
  | none => []

/-- The bias of a tile (bitspack.hpp L418-426). -/
def biasBytes (c : Cfg) (w : Wt) (n : Nat) : List Byte :=
  match w.bias with
  | some b => (List.range c.nr).flatMap fun j => le32 (if n + j < w.n then b (n + j) else 0)
  | none => []

/-- One group of a tile (bitspack.hpp L346-416). -/
def groupBytes (c : Cfg) (w : Wt) (cd : Codec) (n g : Nat) : List Byte :=
  (if c.lut ∧ g = 0 then (List.range 16).map (lutAt c w n) else [])
  ++ ((List.range (steps w.gs c.kr)).flatMap fun b =>
      block cd fun i => (packValues c (buffer c w n (g * w.gs + b * c.kr))).getD i 0)
  ++ ((List.range c.nr).flatMap fun j => le32 (if n + j < w.n then w.scales ((n + j) * w.groups + g) else 0))
  ++ ((List.range c.nr).flatMap fun j => le32 (BitVec.ofInt 32 (qvalsSum c w n (g * w.gs) j)))
  ++ zeroBytes c w n g

/-- One tile of `nr` columns (bitspack.hpp L344-427). -/
def tileBytes (c : Cfg) (w : Wt) (cd : Codec) (n : Nat) : List Byte :=
  (List.range w.groups).flatMap (groupBytes c w cd n)
  ++ biasBytes c w n

/-- `pack_weights_impl` (bitspack.hpp L272-428). -/
def packWeights (c : Cfg) (w : Wt) : Option (List Byte) :=
  (codecOf c).map fun cd => (List.range (steps w.n c.nr)).flatMap fun t => tileBytes c w cd (t * c.nr)

/-- `packed_weights_size_per_n` (bitspack.hpp L238-259). -/
def sizePerN (k gs bits : Nat) (hasZeros hasBias : Bool) : Nat :=
  k / 8 * bits + 4 * (k / gs) + 4 * (k / gs) + (if hasZeros then 4 * (k / gs) else 0) + (if hasBias then 4 else 0)

/-- `packed_weights_size` (bitspack.hpp L449-455). -/
def packedSize (n k gs bits : Nat) (hasZeros hasBias : Bool) (nr : Nat) : Nat :=
  sizePerN k gs bits hasZeros hasBias * ((n + nr - 1) / nr * nr)

/-- `packed_weights_with_lut_size` (bitspack.hpp L576-588). -/
def packedLutSize (n k gs bits : Nat) (hasZeros hasBias : Bool) (nr : Nat) : Nat :=
  sizePerN k gs bits hasZeros hasBias * ((n + nr - 1) / nr * nr) + (n + nr - 1) / nr * nr / nr * 16

/-- `packed_weights_offset` (mllm_blas_i8gemm.hpp L56-62). -/
def packedOffset (n k gs bits : Nat) (hasZeros hasBias : Bool) (nr : Nat) : Nat :=
  n / nr * packedSize nr k gs bits hasZeros hasBias nr

/-- `packed_weights_with_lut_offset` (mllm_blas_i8gemm.hpp L98-104). -/
def packedLutOffset (n k gs bits : Nat) (hasZeros hasBias : Bool) (nr : Nat) : Nat :=
  n / nr * packedLutSize nr k gs bits hasZeros hasBias nr

/-! ## Unpacking -/

/-- The arrays `unpack_weights` fills. -/
inductive Slot
  | qvals | scales | zeros | bias
  deriving DecidableEq

/-- A stored value: `int8_t` or `float`. -/
inductive Val
  | byte (b : Byte)
  | word (x : BitVec 32)
  deriving DecidableEq

abbrev Wr := (Slot × Nat) × Val

/-- `unpack_values` (ux_packing.hpp L41-60): the value stored for position `i` of `values`. -/
def unpackValues (c : Cfg) (p : Nat → Byte) (i : Nat) : Byte :=
  p (i % c.kr / (c.kr / c.sr) * (c.nr * (c.kr / c.sr)) + i / c.kr * (c.kr / c.sr) + i % c.kr % (c.kr / c.sr))

/-- One piece of a group (bitspack.hpp L495-504). -/
def unpackPiece (c : Cfg) (cd : Codec) (n0 nIdx k kIdx : Nat) : M (List Wr) := do
  let packed ← blockW cd
  let buf := unpackValues c packed
  pure ((List.range c.nr).flatMap fun j =>
    if nIdx + j < n0 then
      (List.range c.kr).map fun x => ((Slot.qvals, nIdx * k + (j * k + kIdx + x)), Val.byte (buf (c.kr * j + x)))
    else [])

/-- The zeros of a group (bitspack.hpp L520-527). -/
def unpackZeros (c : Cfg) (n0 nIdx groups g : Nat) (hasZeros : Bool) : M (List Wr) :=
  if hasZeros then do
    let z ← wordsW c.nr
    pure ((List.range c.nr).flatMap fun j =>
      if nIdx + j < n0 then [((Slot.zeros, nIdx * groups + (j * groups + g)), Val.byte ((z j).truncate 8))] else [])
  else pure []

/-- One group (bitspack.hpp L492-529). -/
def unpackGroup (c : Cfg) (cd : Codec) (n0 nIdx k gs g : Nat) (hasZeros : Bool) : M (List Wr) := do
  let q ← loopM (steps gs c.kr) [] fun b (acc : List Wr) => do
    let x ← unpackPiece c cd n0 nIdx k (g * gs + b * c.kr)
    pure (acc ++ x)
  let s ← wordsW c.nr
  let ws : List Wr := (List.range c.nr).flatMap fun j =>
    if nIdx + j < n0 then [((Slot.scales, nIdx * (k / gs) + (j * (k / gs) + g)), Val.word (s j))] else []
  let _ ← wordsW c.nr
  let z ← unpackZeros c n0 nIdx (k / gs) g hasZeros
  pure (q ++ ws ++ z)

/-- The bias of a tile (bitspack.hpp L531-538). -/
def unpackBias (c : Cfg) (n0 nIdx : Nat) (hasBias : Bool) : M (List Wr) :=
  if hasBias then do
    let b ← wordsW c.nr
    pure ((List.range c.nr).flatMap fun j =>
      if nIdx + j < n0 then [((Slot.bias, nIdx + j), Val.word (b j))] else [])
  else pure []

/-- `unpack_weights_at_n_idx` (bitspack.hpp L458-539), called by `unpack_weights` with the arrays advanced to the
tile: addresses are those of the whole arrays. -/
def unpackTile (c : Cfg) (cd : Codec) (n0 nIdx k gs : Nat) (hasZeros hasBias : Bool) : M (List Wr) := do
  let q ← loopM (k / gs) [] fun g (acc : List Wr) => do
    let x ← unpackGroup c cd n0 nIdx k gs g hasZeros
    pure (acc ++ x)
  let b ← unpackBias c n0 nIdx hasBias
  pure (q ++ b)

/-- `unpack_weights` (bitspack.hpp L541-560): all stores, in order. -/
def unpackWeights (c : Cfg) (cd : Codec) (n k gs : Nat) (hasZeros hasBias : Bool) (mem : Mem) : List Wr :=
  (List.range (steps n c.nr)).flatMap fun t =>
    (unpackTile c cd n (t * c.nr) k gs hasZeros hasBias mem (fun _ => 0)
      ⟨t * c.nr * sizePerN k gs c.bits hasZeros hasBias, 0⟩).1

end Verif.Bits
