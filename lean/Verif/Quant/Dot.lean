import Verif.Quant.Blocks

/-!
The quantised dot products (`mllm/backends/cpu/kernels/common/ggml/vec_dot.cpp`).

A vector register is a function from lanes; integer lanes wrap or saturate as the instruction does, float lanes are
reals.  A row of blocks is a function from block indices: indices past the row are whatever lies behind it in memory.
The result of a call is the list of its stores through `s` (at address `s`).  Not modelled: SVE, VNNI, AVX without AVX2,
`QK_K = 64`.
-/

namespace Verif.Quant

open Verif.Kern (Upd)

/-! ### Instructions -/

/-- `vdotq_s32`. -/
def vdot (acc a b : Nat → Int) (l : Nat) : Int := i32 (acc l + ∑ t ∈ Finset.range 4, a (4 * l + t) * b (4 * l + t))
/-- `vmull_s8` of the eight lanes from `o`. -/
def vmull8 (o : Nat) (a b : Nat → Int) (l : Nat) : Int := i16 (a (o + l) * b (o + l))
/-- `vpaddlq_s16`. -/
def vpaddl (a : Nat → Int) (l : Nat) : Int := a (2 * l) + a (2 * l + 1)
/-- `vaddq_s32`, `_mm256_add_epi32`. -/
def vadd32 (a b : Nat → Int) (l : Nat) : Int := i32 (a l + b l)
/-- `vaddq_s16`. -/
def vadd16 (a b : Nat → Int) (l : Nat) : Int := i16 (a l + b l)
/-- `vaddvq_s32`. -/
def vaddv32 (a : Nat → Int) : Int := i32 (∑ l ∈ Finset.range 4, a l)
/-- `vaddvq_s16`: the sum is a 16-bit value. -/
def vaddv16 (a : Nat → Int) : Int := i16 (∑ l ∈ Finset.range 8, a l)
/-- `_mm256_sign_epi8`. -/
def sign8 (a b : Int) : Int := if b < 0 then i8 (-a) else if b = 0 then 0 else a
/-- `_mm256_maddubs_epi16`: unsigned bytes `a`, signed bytes `b`, saturating. -/
def maddubs (a : Nat → Nat) (b : Nat → Int) (l : Nat) : Int :=
  sat16 ((a (2 * l) : Int) * b (2 * l) + (a (2 * l + 1) : Int) * b (2 * l + 1))
/-- `_mm256_madd_epi16`. -/
def madd16 (a b : Nat → Int) (l : Nat) : Int := i32 (a (2 * l) * b (2 * l) + a (2 * l + 1) * b (2 * l + 1))
/-- Byte `t` of `_mm_srli_epi16(v, k)`. -/
def srli16 (k : Nat) (v : Nat → Nat) (t : Nat) : Nat := (((v (2 * (t / 2)) + 256 * v (2 * (t / 2) + 1)) >>> k) >>> (8 * (t % 2))) % 256
/-- Byte `t` of `_mm_slli_epi16(v, k)`. -/
def slli16 (k : Nat) (v : Nat → Nat) (t : Nat) : Nat :=
  ((((v (2 * (t / 2)) + 256 * v (2 * (t / 2) + 1)) <<< k) % 65536) >>> (8 * (t % 2))) % 256

/-- A float accumulator over blocks: `acc = fma(d_i, q_i, acc)`. -/
noncomputable def fmaLoop (nb : Nat) (d : Nat → ℝ) (q : Nat → Nat → Int) : Nat → ℝ :=
  (List.range nb).foldl (fun acc i l => acc l + d i * (q i l : ℝ)) (fun _ => 0)

/-- `hsum_float_8`, `vec_dot.hpp` L289-295. -/
noncomputable def hsum8 (x : Nat → ℝ) : ℝ :=
  let r := fun (l : Nat) => x (4 + l) + x l
  (r 0 + r 2) + (r 1 + r 3)

/-- `vaddvq_f32`. -/
noncomputable def vaddvF (x : Nat → ℝ) : ℝ := x 0 + x 1 + x 2 + x 3

/-! ### q4_0 · q8_0 and q8_0 · q8_0 -/

/-- `mul_sum_i8_pairs_float`, `vec_dot.hpp` L274-286 with L256-272 (no VNNI). -/
def mulSumI8 (x y : Nat → Int) (l : Nat) : Int :=
  madd16 (fun _ => 1) (maddubs (fun t => ((sign8 (x t) (x t)).emod 256).toNat) (fun t => sign8 (y t) (x t))) l

/-- `bytes_from_nibbles_32` and the subtraction of 8, `vec_dot.hpp` L244-249 and `vec_dot.cpp` L146-150. -/
def avxNibbles (qs : Nat → Nat) (t : Nat) : Int :=
  i8 ((((if t < 16 then qs t else srli16 4 qs (t - 16)) &&& 0xF : Nat) : Int) - 8)

/-- `vec_dot.cpp` L268-277: low and high nibbles minus 8. -/
def neonLow (qs : Nat → Nat) (t : Nat) : Int := i8 (((qs t &&& 0x0F : Nat) : Int) - 8)
def neonHigh (qs : Nat → Nat) (t : Nat) : Int := i8 (((qs t >>> 4 : Nat) : Int) - 8)

/-- `vec_dot.cpp` L285-291: `vdotq_s32` twice. -/
def neonDot (xl xh y : Nat → Int) : Nat → Int := vdot (vdot (fun _ => 0) xl y) xh (fun t => y (16 + t))

/-- `vec_dot.cpp` L293-309: widening multiplies and pairwise adds. -/
def neonMull (xl xh y : Nat → Int) : Nat → Int :=
  vadd32 (vadd32 (vpaddl (vmull8 0 xl y)) (vpaddl (vmull8 8 xl y)))
    (vadd32 (vpaddl (vmull8 0 xh (fun t => y (16 + t)))) (vpaddl (vmull8 8 xh (fun t => y (16 + t)))))

/-- `mllm_vdotq_s32` without dot products, `vec_dot.hpp` L320-325. -/
def vdotMull (acc a b : Nat → Int) : Nat → Int := vadd32 acc (vadd32 (vpaddl (vmull8 0 a b)) (vpaddl (vmull8 8 a b)))

/-- The loop `for (i = 0; i < nb; i += 2)` with one accumulator per parity, `vec_dot.cpp` L254-313 and L1545-1571. -/
noncomputable def pairLoop (nb : Nat) (d : Nat → ℝ) (q : Nat → Nat → Int) : ℝ :=
  vaddvF (fmaLoop ((nb + 1) / 2) (fun t => d (2 * t)) (fun t => q (2 * t))) +
    vaddvF (fmaLoop ((nb + 1) / 2) (fun t => d (2 * t + 1)) (fun t => q (2 * t + 1)))

/-- `vmmlaq_s32`: lane `2r + c` accumulates row `r` of `a` times row `c` of `b`. -/
def vmmla (acc a b : Nat → Int) (l : Nat) : Int :=
  i32 (acc l + ∑ t ∈ Finset.range 8, a (8 * (l / 2) + t) * b (8 * (l % 2) + t))

/-- `vzip1q_s64` / `vzip2q_s64` of two byte vectors. -/
def zip64 (hi : Bool) (a b : Nat → Int) (t : Nat) : Int :=
  let o := if hi then 8 else 0
  if t < 8 then a (o + t) else b (o + (t - 8))

/-- The int8 matrix multiply of one pair of blocks, `vec_dot.cpp` L222-239 and L1515-1530. -/
def mmla (x0l x0h x1l x1h y0 y1 : Nat → Int) : Nat → Int :=
  let y0h := fun t => y0 (16 + t)
  let y1h := fun t => y1 (16 + t)
  vmmla (vmmla (vmmla (vmmla (fun _ => 0) (zip64 false x0l x1l) (zip64 false y0 y1))
    (zip64 true x0l x1l) (zip64 true y0 y1)) (zip64 false x0h x1h) (zip64 false y0h y1h))
    (zip64 true x0h x1h) (zip64 true y0h y1h)

/-- A float accumulator with one scale per lane. -/
noncomputable def fmaLanes (nb : Nat) (d : Nat → Nat → ℝ) (q : Nat → Nat → Int) : Nat → ℝ :=
  (List.range nb).foldl (fun acc i l => acc l + d i l * (q i l : ℝ)) (fun _ => 0)

/-- The stores of the int8 matrix multiply path, `vec_dot.cpp` L241-246 and L1532-1537: `sumv2 = zip1(sumv0, ext(sumv0, 2))`,
two floats at `s` and two at `s + bs`. -/
noncomputable def mmlaStores (s bs : Nat) (v : Nat → ℝ) : List (Upd ℝ) :=
  [Upd.put s (v 0), Upd.put (s + 1) (v 2), Upd.put (s + bs) (v 1), Upd.put (s + bs + 1) (v 3)]

/-- Build targets of the two functions. -/
inductive Simd | avx2 | neonDotprod | neonPlain | neonI8mm | none
  deriving DecidableEq

/-- `vec_dot_q4_0_q8_0`, `vec_dot.cpp` L131-323. -/
noncomputable def dotQ40 (tg : Simd) (P : Plat) (n s : Nat) (x : Nat → Q40) (y : Nat → Q80) : List (Upd ℝ) :=
  let nb := n / 32
  let d := fun i => P.load (x i).d * P.load (y i).d
  match tg with
  | .avx2 => [Upd.put s (hsum8 (fmaLoop nb d fun i => mulSumI8 (avxNibbles (x i).qs) (y i).qs))]
  | .neonDotprod => [Upd.put s (pairLoop nb d fun i => neonDot (neonLow (x i).qs) (neonHigh (x i).qs) (y i).qs)]
  | .neonPlain => [Upd.put s (pairLoop nb d fun i => neonMull (neonLow (x i).qs) (neonHigh (x i).qs) (y i).qs)]
  | .neonI8mm => mmlaStores s 0 (fmaLanes nb (fun i _ => d i) fun i =>
      mmla (neonLow (x i).qs) (neonHigh (x i).qs) (neonLow (x i).qs) (neonHigh (x i).qs) (y i).qs (y i).qs)
  | .none => []

/-- `vec_dot_q8_0_q8_0`, `vec_dot.cpp` L1470-1595.  `x1` and `y1` are the rows at `vx + bx` and `vy + by`. -/
noncomputable def dotQ80 (tg : Simd) (P : Plat) (n s bs : Nat) (x y x1 y1 : Nat → Q80) : List (Upd ℝ) :=
  let nb := n / 32
  let d := fun i => P.load (x i).d * P.load (y i).d
  let hi := fun (q : Nat → Int) t => q (16 + t)
  match tg with
  | .avx2 => [Upd.put s (hsum8 (fmaLoop nb d fun i => mulSumI8 (x i).qs (y i).qs))]
  | .neonDotprod => [Upd.put s (pairLoop nb d fun i =>
      vadd32 (vdot (fun _ => 0) (x i).qs (y i).qs) (vdot (fun _ => 0) (hi (x i).qs) (hi (y i).qs)))]
  | .neonPlain => [Upd.put s (pairLoop nb d fun i =>
      vadd32 (vdotMull (fun _ => 0) (x i).qs (y i).qs) (vdotMull (fun _ => 0) (hi (x i).qs) (hi (y i).qs)))]
  | .neonI8mm => mmlaStores s bs (fmaLanes nb
      (fun i l => P.load (if l / 2 = 0 then x i else x1 i).d * P.load (if l % 2 = 0 then y i else y1 i).d) fun i =>
      mmla (x i).qs (hi (x i).qs) (x1 i).qs (hi (x1 i).qs) (y i).qs (y1 i).qs)
  | .none => []

/-! ### q4_K · q8_K -/

def kmask1 : Nat := 0x3f3f3f3f
def kmask2 : Nat := 0x0f0f0f0f
def kmask3 : Nat := 0x03030303

/-- `memcpy(utmp, x[i].scales, 12)`. -/
def utmp (sc : Nat → Nat) (k : Nat) : Nat := word (fun t => sc (4 * k + t))

/-- The two words of scales, `vec_dot.cpp` L443-444, 524, 527, 604, 607. -/
def scaleWord (sc : Nat → Nat) (k : Nat) : Nat :=
  if k = 0 then utmp sc 0 &&& kmask1
  else (utmp sc 2 &&& kmask2) ||| (((utmp sc 0 >>> 6) &&& kmask3) <<< 4)

/-- The two words of minima, `vec_dot.cpp` L442, 522-523, 526, 602-603, 606. -/
def minWord (sc : Nat → Nat) (k : Nat) : Nat :=
  if k = 0 then utmp sc 1 &&& kmask1
  else ((utmp sc 2 >>> 4) &&& kmask2) ||| (((utmp sc 1 >>> 6) &&& kmask3) <<< 4)

/-- `scales[g]` and `mins[g]` read as bytes. -/
def scaleByte (sc : Nat → Nat) (g : Nat) : Nat := byteOf (scaleWord sc (g / 4)) (g % 4)
def minByte (sc : Nat → Nat) (g : Nat) : Nat := byteOf (minWord sc (g / 4)) (g % 4)

/-- `vpaddq_s16` (NEON, L438) and `_mm_hadd_epi16` (AVX2, L535) of the sixteen block sums. -/
def q8sums (bs : Nat → Int) (l : Nat) : Int := i16 (bs (2 * l) + bs (2 * l + 1))

/-- NEON, `vec_dot.cpp` L434-508: the integer `Σ min·bsum` of a block, L446-449. -/
def k4MinNeon (x : Q4K) (y : Q8K) : Int :=
  vaddv32 (vadd32 (fun l => i32 (q8sums y.bsums l * minByte x.scales l))
    (fun l => i32 (q8sums y.bsums (4 + l) * minByte x.scales (4 + l))))

/-- NEON with dot products, L467-482: the integer of one group of 32 (nibble half `h` of byte row `j`). -/
def k4GroupDot (x : Q4K) (y : Q8K) (j h : Nat) : Int :=
  let a := fun (o t : Nat) => ((if h = 0 then x.qs (32 * j + o + t) &&& 0xF else x.qs (32 * j + o + t) >>> 4 : Nat) : Int)
  let b := fun (o t : Nat) => y.qs (64 * j + 32 * h + o + t)
  vaddv32 (vdot (vdot (fun _ => 0) (a 0) (b 0)) (a 16) (b 16))

/-- NEON without dot products, L484-503. -/
def k4GroupMull (x : Q4K) (y : Q8K) (j h : Nat) : Int :=
  let a := fun (o t : Nat) => ((if h = 0 then x.qs (32 * j + o + t) &&& 0xF else x.qs (32 * j + o + t) >>> 4 : Nat) : Int)
  let b := fun (o t : Nat) => y.qs (64 * j + 32 * h + o + t)
  vaddv16 (vadd16 (vadd16 (vmull8 0 (a 0) (b 0)) (vmull8 8 (a 0) (b 0))) (vadd16 (vmull8 0 (a 16) (b 16)) (vmull8 8 (a 16) (b 16))))

/-- `sumi += group * scale`, an `int32_t`. -/
def k4Acc (grp : Nat → Int) (sc : Nat → Nat) : Int := (List.range 4).foldl (fun s j => i32 (s + i32 (grp j * sc j))) 0

/-- NEON, L434-510. -/
noncomputable def dotQ4KNeon (P : Plat) (grp : Q4K → Q8K → Nat → Nat → Int) (nb : Nat) (x : Nat → Q4K) (y : Nat → Q8K) : ℝ :=
  (List.range nb).foldl (fun sumf i =>
    let sumf := sumf - (y i).d * P.load (x i).dmin * (k4MinNeon (x i) (y i) : ℝ)
    let s1 := k4Acc (fun j => grp (x i) (y i) j 0) (fun j => scaleByte (x i).scales (2 * j + 0))
    let s2 := k4Acc (fun j => grp (x i) (y i) j 1) (fun j => scaleByte (x i).scales (2 * j + 1))
    sumf + (y i).d * P.load (x i).d * (i32 (s1 + s2) : ℝ)) 0

/-- `KShuffle`, `quantize.hpp` L238-247. -/
def kShuffle : List Nat :=
  [0,  1,  0,  1,  0,  1,  0,  1,  0,  1,  0,  1,  0,  1,  0,  1,  0,  1,  0,  1,  0,  1,  0,  1,  0,  1,  0,  1,  0,
   1,  0,  1,  2,  3,  2,  3,  2,  3,  2,  3,  2,  3,  2,  3,  2,  3,  2,  3,  2,  3,  2,  3,  2,  3,  2,  3,  2,  3,
   2,  3,  2,  3,  2,  3,  4,  5,  4,  5,  4,  5,  4,  5,  4,  5,  4,  5,  4,  5,  4,  5,  4,  5,  4,  5,  4,  5,  4,
   5,  4,  5,  4,  5,  4,  5,  4,  5,  6,  7,  6,  7,  6,  7,  6,  7,  6,  7,  6,  7,  6,  7,  6,  7,  6,  7,  6,  7,
   6,  7,  6,  7,  6,  7,  6,  7,  6,  7,  6,  7,  8,  9,  8,  9,  8,  9,  8,  9,  8,  9,  8,  9,  8,  9,  8,  9,  8,
   9,  8,  9,  8,  9,  8,  9,  8,  9,  8,  9,  8,  9,  8,  9,  10, 11, 10, 11, 10, 11, 10, 11, 10, 11, 10, 11, 10, 11,
   10, 11, 10, 11, 10, 11, 10, 11, 10, 11, 10, 11, 10, 11, 10, 11, 10, 11, 12, 13, 12, 13, 12, 13, 12, 13, 12, 13, 12,
   13, 12, 13, 12, 13, 12, 13, 12, 13, 12, 13, 12, 13, 12, 13, 12, 13, 12, 13, 12, 13, 14, 15, 14, 15, 14, 15, 14, 15,
   14, 15, 14, 15, 14, 15, 14, 15, 14, 15, 14, 15, 14, 15, 14, 15, 14, 15, 14, 15, 14, 15, 14, 15]

/-- The 16-bit lanes of `_mm256_shuffle_epi8(scales, get_scale_shuffle_k4(i))`: `scales` repeats the eight 16-bit
scales in both halves, L540-541, 546-547. -/
def scaleLanes (sc : Nat → Nat) (i l : Nat) : Int :=
  let byte := fun (t : Nat) => if t % 2 = 0 then scaleByte sc (t / 2) else 0          -- `_mm256_cvtepu8_epi16`
  ((byte (kShuffle.getD (32 * i + 2 * l) 0) + 256 * byte (kShuffle.getD (32 * i + 2 * l + 1) 0) : Nat) : Int)

/-- AVX2, L545-567: the eight 32-bit lanes of `sumi`. -/
def k4SumAvx (x : Q4K) (y : Q8K) : Nat → Int :=
  (List.range 4).foldl (fun sumi j =>
    let ql := fun (t : Nat) => x.qs (32 * j + t) &&& 0xF
    let qh := fun (t : Nat) => srli16 4 (fun t => x.qs (32 * j + t)) t &&& 0xF
    let pl := madd16 (scaleLanes x.scales (2 * j + 0)) (maddubs ql (fun t => y.qs (64 * j + t)))
    let ph := madd16 (scaleLanes x.scales (2 * j + 1)) (maddubs qh (fun t => y.qs (64 * j + 32 + t)))
    vadd32 sumi (vadd32 pl ph)) (fun _ => 0)

/-- AVX2, L514-575. -/
noncomputable def dotQ4KAvx (P : Plat) (nb : Nat) (x : Nat → Q4K) (y : Nat → Q8K) : ℝ :=
  let acc := fmaLoop nb (fun i => (y i).d * P.load (x i).d) (fun i => k4SumAvx (x i) (y i))
  let accM := fmaLoop nb (fun i => -(y i).d * P.load (x i).dmin)
    (fun i => madd16 (fun l => (minByte (x i).scales l : Int)) (q8sums (y i).bsums))
  hsum8 acc + ((accM 0 + accM 2) + (accM 1 + accM 3))

/-- The scalar loop of a K format, L596-632 and L1184-1217: eight 32-bit lanes; `a` are the unpacked codes, `w` the number
of elements that share a scale. -/
def aux32 (w : Nat) (scale : Nat → Int) (q8 a : Nat → Int) : Nat → Int :=
  (List.range (256 / w)).foldl (fun s j => (List.range (w / 8)).foldl (fun s c =>
    fun l => i32 (s l + scale j * i16 (q8 (w * j + 8 * c + l) * a (w * j + 8 * c + l)))) s) (fun _ => 0)

/-- Scalar, L585-592: the unpacked nibbles. -/
def k4Codes (qs : Nat → Nat) (t : Nat) : Int :=
  let j := t / 64
  ((if t % 64 < 32 then qs (32 * j + t % 64) &&& 0xF else qs (32 * j + (t % 64 - 32)) >>> 4 : Nat) : Int)

/-- Scalar, L577-636. -/
noncomputable def dotQ4KScalar (P : Plat) (nb : Nat) (x : Nat → Q4K) (y : Nat → Q8K) : ℝ :=
  let r := (List.range nb).foldl (fun (st : ℝ × (Nat → ℝ)) i =>
    let sumi := (List.range 16).foldl (fun s j => i32 (s + (y i).bsums j * minByte (x i).scales (j / 2))) 0
    let a32 := aux32 32 (fun g => scaleByte (x i).scales g) (y i).qs (k4Codes (x i).qs)
    (st.1 - P.load (x i).dmin * (y i).d * (sumi : ℝ), fun l => st.2 l + P.load (x i).d * (y i).d * (a32 l : ℝ))) (0, fun _ => 0)
  (List.range 8).foldl (fun s l => s + r.2 l) r.1

/-- Build targets of the K dot products. -/
inductive SimdK | neonDotprod | neonPlain | avx2 | scalar
  deriving DecidableEq

/-- `vec_dot_q4_K_q8_K`, `vec_dot.cpp` L325-638. -/
noncomputable def dotQ4K (tg : SimdK) (P : Plat) (n s : Nat) (x : Nat → Q4K) (y : Nat → Q8K) : List (Upd ℝ) :=
  match tg with
  | .neonDotprod => [Upd.put s (dotQ4KNeon P k4GroupDot (n / 256) x y)]
  | .neonPlain => [Upd.put s (dotQ4KNeon P k4GroupMull (n / 256) x y)]
  | .avx2 => [Upd.put s (dotQ4KAvx P (n / 256) x y)]
  | .scalar => [Upd.put s (dotQ4KScalar P (n / 256) x y)]

/-! ### q6_K · q8_K -/

/-- NEON, L836-847: `Σ scale·bsum` of a block. -/
def k6Mins (x : Q6K) (y : Q8K) : Int :=
  let m := fun (o l : Nat) => i32 (y.bsums (o + l) * x.scales (o + l))
  vaddv32 (vadd32 (vadd32 (m 0) (m 4)) (vadd32 (m 8) (m 12)))

/-- NEON, L851-874, 904-920: the unsigned six-bit codes of sixteen lanes; `c < 4` the quarter, `v < 2` the half-vector. -/
def k6Bytes (x : Q6K) (j c v t : Nat) : Int :=
  let h := ((x.qh (32 * j + 16 * v + t) >>> (2 * c)) &&& 3) <<< 4
  let b := x.ql (64 * j + 32 * (c % 2) + 16 * v + t)
  (((if c < 2 then b &&& 0xF else b >>> 4) ||| h : Nat) : Int)

/-- NEON group sums: with and without dot products (L878-881, 886-888). -/
def k6GroupDot (a b : Nat → Int) : Int := vaddv32 (vdot (fun _ => 0) a b)
def k6GroupMull (a b : Nat → Int) : Int := vaddv16 (vadd16 (vmull8 0 a b) (vmull8 8 a b))

/-- NEON, L830-953. -/
noncomputable def dotQ6KNeon (P : Plat) (grp : (Nat → Int) → (Nat → Int) → Int) (nb : Nat) (x : Nat → Q6K) (y : Nat → Q8K) : ℝ :=
  (List.range nb).foldl (fun sum i =>
    let isum := (List.range 16).foldl (fun s g =>
      -- group `g` is half `g / 8`, quarter `g % 8 / 2`, half-vector `g % 2`
      i32 (s + grp (k6Bytes (x i) (g / 8) (g % 8 / 2) (g % 2)) (fun t => (y i).qs (16 * g + t)) * (x i).scales g)) 0
    sum + P.load (x i).d * (y i).d * (i32 (isum - 32 * k6Mins (x i) (y i)) : ℝ)) 0

/-- `k_shuffle`, `quantize.hpp` L251-256. -/
def kShuffle6 : List Nat :=
  [0,  0,  0,  0,  0,  0,  0,  0,  1,  1,  1,  1,  1,  1,  1,  1,  2,  2,  2,  2,  2,  2,
   2,  2,  3,  3,  3,  3,  3,  3,  3,  3,  4,  4,  4,  4,  4,  4,  4,  4,  5,  5,  5,  5,
   5,  5,  5,  5,  6,  6,  6,  6,  6,  6,  6,  6,  7,  7,  7,  7,  7,  7,  7,  7,  8,  8,
   8,  8,  8,  8,  8,  8,  9,  9,  9,  9,  9,  9,  9,  9,  10, 10, 10, 10, 10, 10, 10, 10,
   11, 11, 11, 11, 11, 11, 11, 11, 12, 12, 12, 12, 12, 12, 12, 12, 13, 13, 13, 13, 13, 13,
   13, 13, 14, 14, 14, 14, 14, 14, 14, 14, 15, 15, 15, 15, 15, 15, 15, 15]

/-- AVX2, L985-993: the six-bit codes of 32 lanes, quarter `c` of half `j`. -/
def k6BytesAvx (x : Q6K) (j c t : Nat) : Nat :=
  let H := fun (t : Nat) => x.qh (32 * j + t)
  let h := slli16 4 (fun t => (if c = 0 then H t else srli16 (2 * c) H t) &&& 3) t
  let q := fun (t : Nat) => x.ql (64 * j + 32 * (c % 2) + t)
  ((if c < 2 then q t else srli16 4 q t) &&& 0xF) ||| h

/-- AVX2, L1004-1026: one `p16` after scaling. -/
def k6TermAvx (x : Q6K) (y : Q8K) (j c : Nat) : Nat → Int :=
  let q8 := fun (t : Nat) => y.qs (128 * j + 32 * c + t)
  let p := fun (l : Nat) => i16 (maddubs (k6BytesAvx x j c) q8 l - maddubs (fun _ => 32) q8 l)
  madd16 (fun l => x.scales (kShuffle6.getD (16 * (4 * j + c) + l) 0)) p

/-- AVX2, L967-1029. -/
def k6SumAvx (x : Q6K) (y : Q8K) : Nat → Int :=
  (List.range 2).foldl (fun sumi j =>
    vadd32 (vadd32 sumi (vadd32 (k6TermAvx x y j 0) (k6TermAvx x y j 1))) (vadd32 (k6TermAvx x y j 2) (k6TermAvx x y j 3)))
    (fun _ => 0)

/-- Scalar, L1190-1201: the unpacked codes. -/
def k6Codes (x : Q6K) (t : Nat) : Int := i8 (q6At x.ql x.qh (t / 128) (t % 32) (t % 128 / 32))

/-- `vec_dot_q6_K_q8_K`, `vec_dot.cpp` L807-1221. -/
noncomputable def dotQ6K (tg : SimdK) (P : Plat) (n s : Nat) (x : Nat → Q6K) (y : Nat → Q8K) : List (Upd ℝ) :=
  let nb := n / 256
  match tg with
  | .neonDotprod => [Upd.put s (dotQ6KNeon P k6GroupDot nb x y)]
  | .neonPlain => [Upd.put s (dotQ6KNeon P k6GroupMull nb x y)]
  | .avx2 => [Upd.put s (hsum8 (fmaLoop nb (fun i => (y i).d * P.load (x i).d) (fun i => k6SumAvx (x i) (y i))))]
  | .scalar => [Upd.put s ((List.range 8).foldl (fun t l => t +
      fmaLoop nb (fun i => P.load (x i).d * (y i).d) (fun i => aux32 16 (x i).scales (y i).qs (k6Codes (x i))) l) 0)]

end Verif.Quant
