import Verif.Prelude

/-!
# Low-bit packing of weights on ARM

`mllm/backends/cpu/kernels/arm/quantize/bitspack/u1.hpp` … `u7.hpp` and `ux.hpp` (cited by file name).

A vector function works lane by lane.  For each bit width the expressions of one lane are given once, as a
function from the values of the lane to its packed bytes and back; the functions for 32, 64 and 128 values are
the same expressions on 8 or 16 lanes, or a sequence of smaller blocks.  Values `16 * i` to `16 * i + 15` of a
block are the vector `unpackedi`; its low half is the first 8 of them.
-/

namespace Verif.Bits

/-- A byte; `int8_t` is the same bits read with `toInt`. -/
abbrev Byte := BitVec 8

/-! ## NEON instructions on one lane (Arm C Language Extensions) -/

/-- `vsli_n_u8(a, b, n)`: shift `b` left and insert, keeping the low `n` bits of `a`. -/
def vsli (a b : Byte) (n : Nat) : Byte := (a &&& ~~~(0xFF#8 <<< n)) ||| (b <<< n)

/-- `vsri_n_u8(a, b, n)`: shift `b` right and insert, keeping the high `n` bits of `a`. -/
def vsri (a b : Byte) (n : Nat) : Byte := (a &&& ~~~(0xFF#8 >>> n)) ||| (b >>> n)

/-- `vtst_u8`. -/
def vtst (a b : Byte) : Byte := if a &&& b = 0#8 then 0#8 else 0xFF#8

/-! ## One lane -/

/-- `pack_8_uint1_values` (u1.hpp L23-29) and `vec_pack_128_uint1_values` (u1.hpp L82-99). -/
def pk1 (u : Nat → Byte) (_ : Nat) : Byte :=
  u 0 <<< 7 ||| u 1 <<< 6 ||| u 2 <<< 5 ||| u 3 <<< 4 ||| u 4 <<< 3 ||| u 5 <<< 2 ||| u 6 <<< 1 ||| u 7

/-- `unpack_8_uint1_values` (u1.hpp L31-36), `vec_unpack_128_uint1_values` (u1.hpp L101-116). -/
def up1 (q : Nat → Byte) (j : Nat) : Byte := (q 0 >>> (7 - j)) &&& 1

/-- `vec_pack_32_uint2_values` (u2.hpp L39-54), `vec_pack_64_uint2_values` (u2.hpp L76-92). -/
def pk2 (u : Nat → Byte) (_ : Nat) : Byte := u 0 <<< 6 ||| u 1 <<< 4 ||| u 2 <<< 2 ||| u 3

/-- `vec_unpack_32_uint2_values` (u2.hpp L56-74), `vec_unpack_64_uint2_values` (u2.hpp L94-113). -/
def up2 (q : Nat → Byte) (j : Nat) : Byte :=
  match j with
  | 0 => (q 0 &&& 192) >>> 6
  | 1 => (q 0 &&& 48) >>> 4
  | 2 => (q 0 &&& 12) >>> 2
  | _ => q 0 &&& 3

/-- `pack_8_uint3_values` (u3.hpp L23-45), `vec_pack_64_uint3_values` (L70-108), `vec_pack_128_uint3_values`
(L165-203). -/
def pk3 (u : Nat → Byte) (r : Nat) : Byte :=
  match r with
  | 0 => (u 6 &&& 3) <<< 6 ||| (u 0 &&& 7) <<< 3 ||| u 1
  | 1 => (u 7 &&& 3) <<< 6 ||| (u 2 &&& 7) <<< 3 ||| u 3
  | _ => (u 6 &&& 4) <<< 5 ||| (u 7 &&& 4) <<< 4 ||| (u 4 &&& 7) <<< 3 ||| u 5

/-- `unpack_8_uint3_values` (u3.hpp L47-68), `vec_unpack_64_uint3_values` (L110-163),
`vec_unpack_128_uint3_values` (L205-250). -/
def up3 (q : Nat → Byte) (j : Nat) : Byte :=
  match j with
  | 0 => (q 0 >>> 3) &&& 7
  | 1 => q 0 &&& 7
  | 2 => (q 1 >>> 3) &&& 7
  | 3 => q 1 &&& 7
  | 4 => (q 2 >>> 3) &&& 7
  | 5 => q 2 &&& 7
  | 6 => q 0 >>> 6 ||| ((q 2 >>> 5) &&& 4)
  | _ => q 1 >>> 6 ||| ((q 2 >>> 4) &&& 4)

/-- `vec_pack_32_uint4_values` (u4.hpp L46-51). -/
def pk4 (u : Nat → Byte) (_ : Nat) : Byte := u 0 ||| u 1 <<< 4

/-- `vec_unpack_32_uint4_values` (u4.hpp L53-57). -/
def up4 (q : Nat → Byte) (j : Nat) : Byte :=
  match j with
  | 0 => q 0 &&& 0xF
  | _ => q 0 >>> 4

/-- `pack_8_uint5_values` (u5.hpp L23-35), `vec_pack_128_uint5_values` (L113-145). -/
def pk5 (u : Nat → Byte) (r : Nat) : Byte :=
  match r with
  | 0 => u 0 ||| u 1 <<< 5
  | 1 => u 2 ||| u 3 <<< 5
  | 2 => u 4 ||| u 5 <<< 5
  | 3 => u 6 ||| u 7 <<< 5
  | _ => u 1 >>> 3 ||| (u 3 >>> 3) <<< 2 ||| (u 5 >>> 3) <<< 4 ||| (u 7 >>> 3) <<< 6

/-- `unpack_8_uint5_values` (u5.hpp L37-60), `vec_unpack_128_uint5_values` (L147-175). -/
def up5 (q : Nat → Byte) (j : Nat) : Byte :=
  match j with
  | 0 => q 0 &&& 0b11111
  | 1 => q 0 >>> 5 ||| (q 4 &&& 0b00000011) <<< 3
  | 2 => q 1 &&& 0b11111
  | 3 => q 1 >>> 5 ||| (q 4 &&& 0b00001100) <<< 1
  | 4 => q 2 &&& 0b11111
  | 5 => q 2 >>> 5 ||| (q 4 &&& 0b00110000) >>> 1
  | 6 => q 3 &&& 0b11111
  | _ => q 3 >>> 5 ||| (q 4 &&& 0b11000000) >>> 3

/-- `vec_pack_32_uint6_values` (u6.hpp L53-89), `vec_pack_64_uint6_values` (L126-155). -/
def pk6 (u : Nat → Byte) (r : Nat) : Byte :=
  match r with
  | 0 => u 0 ||| (u 3 &&& 0b000011) <<< 6
  | 1 => u 1 ||| (u 3 &&& 0b001100) <<< 4
  | _ => u 2 ||| (u 3 &&& 0b110000) <<< 2

/-- `vec_unpack_32_uint6_values` (u6.hpp L91-124), `vec_unpack_64_uint6_values` (L157-191). -/
def up6 (q : Nat → Byte) (j : Nat) : Byte :=
  match j with
  | 0 => q 0 &&& 0b111111
  | 1 => q 1 &&& 0b111111
  | 2 => q 2 &&& 0b111111
  | _ => vsri (vsri (q 2) (q 1) 2) (q 0) 4 >>> 2

/-- `vec_pack_64_uint7_values` (u7.hpp L87-115), `vec_pack_128_uint7_values` (L159-187). -/
def pk7 (u : Nat → Byte) (r : Nat) : Byte := vsli (u r) (u 7 >>> r) 7

/-- The last value: `vec_unpack_64_uint7_values` (u7.hpp L117-157), `vec_unpack_128_uint7_values` (L189-236). -/
def up7last (q : Nat → Byte) : Byte :=
  vsri (vsri (vsri (vsri (vsri (vsri (q 6 >>> 1) (q 5) 2) (q 4) 3) (q 3) 4) (q 2) 5) (q 1) 6) (q 0) 7

/-- `vec_unpack_128_uint7_values` leaves the last value without mask (u7.hpp L189-236); `mask`: the mask of
`vec_unpack_64_uint7_values` (u7.hpp L156). -/
def up7 (mask : Bool) (q : Nat → Byte) (j : Nat) : Byte :=
  if j < 7 then q j &&& 0x7F else if mask then up7last q &&& 0x7F else up7last q

/-- `pack_8_uint7_values` (u7.hpp L23-55). -/
def pk7s (u : Nat → Byte) (r : Nat) : Byte := vsli (u r) (vtst (u 7) (1#8 <<< r)) 7

/-- `unpack_8_uint7_values` (u7.hpp L57-85): the last value is a sum over the lanes. -/
def up7s (q : Nat → Byte) (j : Nat) : Byte :=
  if j < 7 then q j &&& 0x7F
  else ((q 0 &&& 0x80) >>> 7) + ((q 1 &&& 0x80) >>> 6) + ((q 2 &&& 0x80) >>> 5) + ((q 3 &&& 0x80) >>> 4)
    + ((q 4 &&& 0x80) >>> 3) + ((q 5 &&& 0x80) >>> 2) + ((q 6 &&& 0x80) >>> 1) + (0#8 &&& 0x80)

/-! ## Blocks -/

/-- A pair of functions for `n` values in `b` bytes. -/
structure Codec where
  n : Nat
  b : Nat
  pack : (Nat → Byte) → Nat → Byte
  unpack : (Nat → Byte) → Nat → Byte

/-- `L` lanes: value `j` of lane `l` is value `j * L + l` of the block, byte `r` of lane `l` is byte
`r * L + l`. -/
def lanes (L J R : Nat) (pk up : (Nat → Byte) → Nat → Byte) : Codec where
  n := J * L
  b := R * L
  pack u p := pk (fun j => u (j * L + p % L)) (p / L)
  unpack q i := up (fun r => q (r * L + i % L)) (i / L)

/-- `m` blocks one after the other. -/
def Codec.times (c : Codec) (m : Nat) : Codec where
  n := m * c.n
  b := m * c.b
  pack u p := c.pack (fun i => u (p / c.b * c.n + i)) (p % c.b)
  unpack q i := c.unpack (fun p => q (i / c.n * c.b + p)) (i % c.n)

/-- `vec_pack_64_uint1_values` and `vec_unpack_64_uint1_values` (u1.hpp L43-74). -/
def u1x64 : Codec where
  n := 64
  b := 8
  pack u p :=
    let v (l : Nat) : Byte := u l <<< 3 ||| u (16 + l) <<< 2 ||| u (32 + l) <<< 1 ||| u (48 + l)
    vsli (v p) (v (8 + p)) 4
  unpack q i :=
    let l := i % 16
    let c : Byte := if l < 8 then q l &&& 0xF else q (l - 8) >>> 4
    match i / 16 with
    | 0 => (c &&& 8) >>> 3
    | 1 => (c &&& 4) >>> 2
    | 2 => (c &&& 2) >>> 1
    | _ => c &&& 1

/-- `vec_pack_64_uint5_values` and `vec_unpack_64_uint5_values` (u5.hpp L62-111). -/
def u5x64 : Codec where
  n := 64
  b := 40
  pack u p :=
    if p < 16 then u p ||| u (16 + p) <<< 5
    else if p < 32 then u (32 + (p - 16)) ||| u (48 + (p - 16)) <<< 5
    else
      let l := p - 32
      u (16 + l) >>> 3 ||| (u (24 + l) >>> 3) <<< 2 ||| (u (48 + l) >>> 3) <<< 4 ||| (u (56 + l) >>> 3) <<< 6
  unpack q i :=
    let l := i % 16
    match i / 16 with
    | 0 => q l &&& 0b11111
    | 1 => (if l < 8 then (q (32 + l) &&& 0b00000011) <<< 3 else (q (32 + (l - 8)) &&& 0b00001100) <<< 1) ||| q l >>> 5
    | 2 => q (16 + l) &&& 0b11111
    | _ => (if l < 8 then (q (32 + l) &&& 0b00110000) >>> 1 else (q (32 + (l - 8)) &&& 0b11000000) >>> 3)
        ||| q (16 + l) >>> 5

/-- Eight bits: the bytes themselves. -/
def raw (n : Nat) : Codec := ⟨n, n, fun u => u, fun q => q⟩

/-- `vec_pack_32_uintx_values`, `vec_unpack_32_uintx_values` (ux.hpp L138-216, L731-795). -/
def uint32 (bits : Nat) : Codec :=
  match bits with
  | 1 => (lanes 1 8 1 pk1 up1).times 4
  | 2 => lanes 8 4 1 pk2 up2
  | 3 => (lanes 1 8 3 pk3 up3).times 4
  | 4 => lanes 16 2 1 pk4 up4
  | 5 => (lanes 1 8 5 pk5 up5).times 4
  | 6 => lanes 8 4 3 pk6 up6
  | 7 => (lanes 1 8 7 pk7s up7s).times 4
  | _ => raw 32

/-- `vec_pack_64_uintx_values`, `vec_unpack_64_uintx_values` (ux.hpp L333-364, L679-704). -/
def uint64 (bits : Nat) : Codec :=
  match bits with
  | 1 => u1x64
  | 2 => lanes 16 4 1 pk2 up2
  | 3 => lanes 8 8 3 pk3 up3
  | 4 => (lanes 16 2 1 pk4 up4).times 2
  | 5 => u5x64
  | 6 => lanes 16 4 3 pk6 up6
  | 7 => lanes 8 8 7 pk7 (up7 true)
  | _ => raw 64

/-- `vec_pack_128_uintx_values`, `vec_unpack_128_uintx_values` (ux.hpp L408-455, L457-507). -/
def uint128 (bits : Nat) : Codec :=
  match bits with
  | 1 => lanes 16 8 1 pk1 up1
  | 2 => (lanes 16 4 1 pk2 up2).times 2
  | 3 => lanes 16 8 3 pk3 up3
  | 4 => (lanes 16 2 1 pk4 up4).times 4
  | 5 => lanes 16 8 5 pk5 up5
  | 6 => (lanes 16 4 3 pk6 up6).times 2
  | 7 => lanes 16 8 7 pk7 (up7 false)
  | _ => raw 128

/-- The block for `N` values (`if constexpr` of `pack_buffer`, bitspack.hpp L157-177). -/
def uintN (bits N : Nat) : Option Codec :=
  if N = 128 then some (uint128 bits) else if N = 64 then some (uint64 bits)
  else if N = 32 then some (uint32 bits) else none

/-- Signed values: `vec_pack_…_lowbit_values`, `vec_unpack_…_lowbit_values` (ux.hpp L67-136, L219-289, L291-331,
L366-406, L509-650): shifted to the nonnegative range below eight bits. -/
def lowbit (bits : Nat) (c : Codec) : Codec where
  n := c.n
  b := c.b
  pack u p := if bits < 8 then c.pack (fun i => u i + BitVec.ofNat 8 (2 ^ (bits - 1))) p else c.pack u p
  unpack q i := if bits < 8 then c.unpack q i + BitVec.ofInt 8 (-(2 ^ (bits - 1))) else c.unpack q i

end Verif.Bits
