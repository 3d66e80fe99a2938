import Verif.Bits.Pack

/-!
# Kernels on packed weights

`mllm/backends/cpu/kernels/arm/mllm_blas/mllm_blas_i8gemm_bitspack_{1x1x32,1x4x16,1x8x16}_fp32_neondot.hpp` (cited as
1x1x32, 1x4x16 and 1x8x16), and the activation layout of `pack_activations` (bitspack.hpp L65-149).  Floating
point is any type with the operations the kernels use; integers are exact 32-bit words.
-/

namespace Verif.Bits

open scoped BigOperators

/-- The floating-point operations of the kernels: a load, `0.0`, a product, `res + a * b`, a conversion from
`int32_t`, a sum and the clamp. -/
structure Fl (F : Type) where
  load : BitVec 32 → F
  zero : F
  mul : F → F → F
  mla : F → F → F → F
  cvt : BitVec 32 → F
  add : F → F → F
  clamp : F → F

/-- Quantised activations: `m` rows of `k` values with a scale and a zero per row. -/
structure Act where
  m : Nat
  scale : Nat → BitVec 32
  zero : Nat → Byte
  q : Nat → Nat → Byte

/-- One group of a row (bitspack.hpp L118-137): with weight zeros the sum follows the values. -/
def actGroup (a : Act) (gs : Nat) (hasZeros : Bool) (i g : Nat) : List Byte :=
  (List.range gs).map (fun x => a.q i (g * gs + x))
  ++ (if hasZeros then le32 (BitVec.ofInt 32 (computeSum (fun x => a.q i (g * gs + x)) gs)) else [])

/-- `scale` and `zero` of a row (bitspack.hpp L109-115). -/
def actHead (a : Act) (i : Nat) : List Byte := le32 (a.scale i) ++ [a.zero i]

/-- One row of `pack_activations` (bitspack.hpp L104-148); without weight zeros the groups are just `k` values in a
row. -/
def actRow (a : Act) (k gs : Nat) (hasZeros : Bool) (i : Nat) : List Byte :=
  actHead a i ++ (if hasZeros then (List.range (k / gs)).flatMap (actGroup a gs true i)
    else (List.range k).map (a.q i))

/-- `packed_activations_size` (bitspack.hpp L65-87). -/
def actSize (m k gs : Nat) (hasZeros : Bool) : Nat := (4 + 1 + k + if hasZeros then 4 * (k / gs) else 0) * m

/-- `vdotq_s32`: lane `l` gains the dot product of four pairs of bytes. -/
def vdot (acc : Nat → BitVec 32) (a b : Nat → Byte) : Nat → BitVec 32 :=
  fun l => acc l + BitVec.ofInt 32 (∑ t ∈ Finset.range 4, (a (4 * l + t)).toInt * (b (4 * l + t)).toInt)

/-- Vector `i` of an unpacked block. -/
def vec (v : Nat → Byte) (i : Nat) : Nat → Byte := fun x => v (16 * i + x)

/-- `vec_unpack_…_lowbit_values` and `vec_unpack_128_lowbit_values_with_lut` (ux.hpp L652-677). -/
def unpackQ (cd : Codec) (lut : Option (Nat → Byte)) : M (Nat → Byte) := do
  let v ← blockW cd
  match lut with
  | none => pure v
  | some t => pure fun i => tbl t (v i)

/-- One step of the inner loop of 1x4x16 (L133-159) and 1x8x16 (L164-203): `nr / 2` accumulators, one for each pair of
columns; the first half of the vectors holds the first eight values of each column. -/
def stepPairs (nr : Nat) (cd : Codec) (lut : Option (Nat → Byte)) (acc : Nat → Nat → BitVec 32) :
    M (Nat → Nat → BitVec 32) := do
  let wq ← unpackQ cd lut
  let aq ← bytesA 16
  pure fun p => vdot (vdot (acc p) (vec wq p) fun x => aq (x % 8)) (vec wq (nr / 2 + p)) fun x => aq (8 + x % 8)

/-- `vpaddq_s32` (1x4x16 L161, 1x8x16 L205-206): the dot product of column `j`. -/
def padd (acc : Nat → Nat → BitVec 32) (j : Nat) : BitVec 32 := acc (j / 2) (2 * (j % 2)) + acc (j / 2) (2 * (j % 2) + 1)

/-- One step of the inner loop of 1x1x32 (L106-123). -/
def step1 (cd : Codec) (acc : Nat → BitVec 32) : M (Nat → BitVec 32) := do
  let wq ← unpackQ cd none
  let a0 ← bytesA 16
  let a1 ← bytesA 16
  pure (vdot (vdot acc (vec wq 0) a0) (vec wq 1) a1)

/-- The dot products of one group: 1x4x16 and 1x8x16. -/
def dotsPairs (nr gs : Nat) (cd : Codec) (lut : Option (Nat → Byte)) : M (Nat → BitVec 32) := do
  let acc ← loopM (steps gs 16) (fun _ _ => 0) fun _ acc => stepPairs nr cd lut acc
  pure (padd acc)

/-- The dot product of one group: 1x1x32 (L103-124), with `vaddvq_s32`. -/
def dots1 (gs : Nat) (cd : Codec) : M (Nat → BitVec 32) := do
  let acc ← loopM (steps gs 32) (fun _ => 0) fun _ acc => step1 cd acc
  pure fun _ => acc 0 + acc 1 + acc 2 + acc 3

/-- Terms 2 and 3 (1x1x32 L133-145, 1x4x16 L173-199, 1x8x16 L240-277). -/
def tmpOf (nr gs : Nat) (hasZeros : Bool) (az : BitVec 32) (dot sums : Nat → BitVec 32) : M (Nat → BitVec 32) :=
  if hasZeros then do
    let asum ← wordA
    let wz ← wordsW nr
    pure fun j => dot j - sums j * az - wz j * asum + wz j * (BitVec.ofNat 32 gs * az)
  else pure fun j => dot j - sums j * az

/-- One group (1x1x32 L101-146, 1x4x16 L96-201, 1x8x16 L106-279). -/
def gemmGroup {F : Type} (fl : Fl F) (nr gs : Nat) (hasZeros : Bool) (dots : M (Nat → BitVec 32)) (as : F)
    (az : BitVec 32) (res : Nat → F) : M (Nat → F) := do
  let dot ← dots
  let ws ← wordsW nr
  let sums ← wordsW nr
  let tmp ← tmpOf nr gs hasZeros az dot sums
  pure fun j => fl.mla (res j) (fl.mul (fl.load (ws j)) as) (fl.cvt (tmp j))

/-- The bias (1x1x32 L147-151, 1x4x16 L202-206, 1x8x16 L280-290). -/
def gemmBias {F : Type} (fl : Fl F) (nr : Nat) (hasBias : Bool) (res : Nat → F) : M (Nat → F) :=
  if hasBias then do
    let b ← wordsW nr
    pure fun j => fl.add (res j) (fl.load (b j))
  else pure res

/-- The groups, the bias and the clamp of a tile. -/
def gemmTail {F : Type} (fl : Fl F) (nr k gs : Nat) (hasZeros hasBias hasClamp : Bool) (dots : M (Nat → BitVec 32))
    (as : F) (az : BitVec 32) : M (Nat → F) := do
  let res ← loopM (k / gs) (fun _ => fl.zero) fun _ res => gemmGroup fl nr gs hasZeros dots as az res
  let res ← gemmBias fl nr hasBias res
  pure fun j => if hasClamp then fl.clamp (res j) else res j

/-- One tile of 1x8x16 (L94-296) and 1x4x16 (L90-207); `lut` only in 1x8x16. -/
def tilePairs {F : Type} (fl : Fl F) (nr k gs : Nat) (cd : Codec) (lut hasZeros hasBias hasClamp : Bool)
    (as : F) (az : BitVec 32) : M (Nat → F) :=
  if lut then do
    let t ← bytesW 16
    gemmTail fl nr k gs hasZeros hasBias hasClamp (dotsPairs nr gs cd (some t)) as az
  else gemmTail fl nr k gs hasZeros hasBias hasClamp (dotsPairs nr gs cd none) as az

/-- One column of 1x1x32 (L95-152). -/
def tile1 {F : Type} (fl : Fl F) (k gs : Nat) (cd : Codec) (hasZeros hasBias hasClamp : Bool) (as : F) (az : BitVec 32) :
    M (Nat → F) :=
  gemmTail fl 1 k gs hasZeros hasBias hasClamp (dots1 gs cd) as az

/-- The lanes stored for the last columns: 1x8x16 (L299-323). -/
def stored8 (remaining : Nat) : List Nat :=
  if remaining ≥ 8 then [0, 1, 2, 3] ++ [4, 5, 6, 7]
  else if remaining ≥ 7 then [0, 1, 2, 3] ++ [4, 5] ++ [6]
  else if remaining ≥ 6 then [0, 1, 2, 3] ++ [4, 5]
  else if remaining ≥ 5 then [0, 1, 2, 3] ++ [4]
  else if remaining ≥ 4 then [0, 1, 2, 3]
  else if remaining ≥ 3 then [0, 1] ++ [2]
  else if remaining ≥ 2 then [0, 1]
  else [0]

/-- 1x4x16 (L210-221). -/
def stored4 (remaining : Nat) : List Nat :=
  if remaining ≥ 4 then [0, 1, 2, 3]
  else if remaining ≥ 3 then [0, 1] ++ [2]
  else if remaining ≥ 2 then [0, 1]
  else [0]

/-- 1x1x32 (L153). -/
def stored1 (_remaining : Nat) : List Nat := [0]

/-- The columns of one row: `n_idx = 0, nr, 2 nr, …`; the activation pointer returns to the start of the row for every
tile, the weight pointer runs on.  The stores are pairs of column and value; the pointers after the last tile are
returned.  With `n = 0` the kernels leave `activation_ptr` unset: the model keeps the pointer. -/
def gemmCols {F : Type} (nr n : Nat) (stored : Nat → List Nat) (tile : M (Nat → F)) (W A : Mem) (p : Ptr) :
    Nat → List (Nat × F) × Ptr
  | 0 => ([], p)
  | t + 1 =>
    let r := gemmCols nr n stored tile W A p t
    let x := tile W A ⟨r.2.w, p.a⟩
    (r.1 ++ (stored (n - t * nr)).map (fun l => (t * nr + l, x.1 l)), x.2)

/-- The rows (1x1x32 L85-156, 1x4x16 L76-225, 1x8x16 L80-327): scale and zero, then the columns from the start of the
weights; the next row starts where the activation pointer ended. -/
def gemmRows {F : Type} (fl : Fl F) (nr n stride : Nat) (stored : Nat → List Nat) (tile : F → BitVec 32 → M (Nat → F))
    (W A : Mem) (pw pa : Nat) : Nat → List (Nat × F) × Nat
  | 0 => ([], pa)
  | i + 1 =>
    let r := gemmRows fl nr n stride stored tile W A pw pa i
    let as := fl.load (read32 A r.2)
    let az := (A (r.2 + 4)).signExtend 32
    let c := gemmCols nr n stored (tile as az) W A ⟨pw, r.2 + 4 + 1⟩ (steps n nr)
    (r.1 ++ c.1.map (fun x => (i * stride + x.1, x.2)), c.2.a)

/-- `kernel_1x8x16_f32_neondot`: all stores to `output`, in order. -/
def kernel8 {F : Type} (fl : Fl F) (stride m n k gs bits : Nat) (lut hasZeros hasBias hasClamp : Bool) (W A : Mem) (pw pa : Nat) :
    List (Nat × F) :=
  let cd := if lut then uint128 bits else lowbit bits (uint128 bits)
  (gemmRows fl 8 n stride stored8 (tilePairs fl 8 k gs cd lut hasZeros hasBias hasClamp) W A pw pa m).1

/-- `kernel_1x4x16_f32_neondot`. -/
def kernel4 {F : Type} (fl : Fl F) (stride m n k gs bits : Nat) (hasZeros hasBias hasClamp : Bool) (W A : Mem) (pw pa : Nat) :
    List (Nat × F) :=
  (gemmRows fl 4 n stride stored4 (tilePairs fl 4 k gs (lowbit bits (uint64 bits)) false hasZeros hasBias hasClamp) W A pw pa m).1

/-- `kernel_1x1x32_f32_neondot`. -/
def kernel1 {F : Type} (fl : Fl F) (stride m n k gs bits : Nat) (hasZeros hasBias hasClamp : Bool) (W A : Mem) (pw pa : Nat) :
    List (Nat × F) :=
  (gemmRows fl 1 n stride stored1 (tile1 fl k gs (lowbit bits (uint32 bits)) hasZeros hasBias hasClamp) W A pw pa m).1

end Verif.Bits
