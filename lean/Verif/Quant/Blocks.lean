import Verif.Quant.Half
import Verif.Kern.Par

/-!
Block formats, quantisation and dequantisation
(`mllm/core/DataTypes.hpp` L70-195, `quantize/quantize_q4.cpp`, `quantize_q6.cpp`, `quantize_q8.cpp`,
`quantize/quantize.hpp`).

Floats are reals; `Plat` says how a scale survives its half-precision store.  `rnd` is the rounding of the code
(`roundf`, `vcvtnq_s32_f32`, `_mm256_round_ps`, `nearest_int`): any function to a nearest integer.
`QK_K = 256` (the `MLLM_QKK_64` build is not modelled).
-/

namespace Verif.Quant

open Verif.Kern (run Upd)

/-- `rnd` rounds to a nearest integer. -/
def Rounds (rnd : ℝ → Int) : Prop := ∀ x, |x - rnd x| ≤ 1 / 2

/-- `block_q8_0`, `DataTypes.hpp` L167-170.  `d` is the stored half pattern. -/
structure Q80 where
  d : Nat
  qs : Nat → Int

/-- `block_q4_0`, `DataTypes.hpp` L118-121. -/
structure Q40 where
  d : Nat
  qs : Nat → Nat

/-- `block_q8_K`, `DataTypes.hpp` L188-192; its scale is a float. -/
structure Q8K where
  d : ℝ
  qs : Nat → Int
  bsums : Nat → Int

/-- `block_q4_K`, `DataTypes.hpp` L140-145. -/
structure Q4K where
  d : Nat
  dmin : Nat
  scales : Nat → Nat
  qs : Nat → Nat

/-- `block_q6_K`, `DataTypes.hpp` L154-159. -/
structure Q6K where
  ql : Nat → Nat
  qh : Nat → Nat
  scales : Nat → Int
  d : Nat

/-- A loop over blocks that writes `y[i]` from the `w` floats at `x + i*w`. -/
def byIndex {β : Type} (w : Nat) (f : (Nat → ℝ) → β) (nb : Nat) (x : Nat → ℝ) : List β :=
  (List.range nb).map fun i => f (fun j => x (i * w + j))

/-- A loop over blocks that advances `x += w`. -/
def byPtr {β : Type} (w : Nat) (f : (Nat → ℝ) → β) : Nat → (Nat → ℝ) → List β
  | 0, _ => []
  | nb + 1, x => f x :: byPtr w f nb (fun j => x (w + j))

/-! ### q8_0 -/

/-- `quantize_q8.cpp` L36-41: running maximum of the absolute values. -/
noncomputable def amaxLoop (n : Nat) (x : Nat → ℝ) : ℝ := (List.range n).foldl (fun m j => max m |x j|) 0

/-- `quantize_q8.cpp` L48-53: the codes of one block, scalar. -/
noncomputable def q80Scalar (P : Plat) (rnd : ℝ → Int) (x : Nat → ℝ) : Q80 :=
  let d := amaxLoop 32 x / 127
  let id := if d ≠ 0 then 1 / d else 0
  ⟨P.store d, fun j => i8 (rnd (x j * id))⟩

/-- `quantize_q8.cpp` L82-93: NEON maximum tree over 8 vectors of 4 lanes, then `vmaxvq_f32`. -/
noncomputable def amaxNeon (x : Nat → ℝ) : ℝ :=
  let a := fun (j l : Nat) => |x (4 * j + l)|
  let a1 := fun (j l : Nat) => max (a (2 * j) l) (a (2 * j + 1) l)            -- amaxv[2j], j < 4
  let a2 := fun (j l : Nat) => max (a1 (2 * j) l) (a1 (2 * j + 1) l)          -- amaxv[4j], j < 2
  let a3 := fun (l : Nat) => max (a2 0 l) (a2 1 l)                            -- amaxv[0]
  max (max (a3 0) (a3 1)) (max (a3 2) (a3 3))

/-- `quantize_q8.cpp` L77-110: one block with NEON. -/
noncomputable def q80Neon (P : Plat) (rnd : ℝ → Int) (x : Nat → ℝ) : Q80 :=
  let d := amaxNeon x / 127
  let id := if d ≠ 0 then 1 / d else 0
  ⟨P.store d, fun j => i8 (rnd (x (4 * (j / 4) + j % 4) * id))⟩

/-- `quantize_q8.cpp` L120-130: AVX2 maximum over 4 vectors of 8 lanes and the horizontal reduction. -/
noncomputable def amaxAvx (x : Nat → ℝ) : ℝ :=
  let m := fun (l : Nat) => max (max (max |x l| |x (8 + l)|) |x (16 + l)|) |x (24 + l)|
  let m4 := fun (l : Nat) => max (m (4 + l)) (m l)          -- extractf128 / castps256
  let m2 := fun (l : Nat) => max (m4 l) (m4 (2 + l))        -- movehl
  max (m2 0) (m2 1)                                         -- movehdup

/-- `_mm256_packs_epi32`: two vectors of 8 int32 to 16 int16, per 128-bit half, saturating. -/
def packs32 (a b : Nat → Int) (t : Nat) : Int :=
  let v := if t % 8 < 4 then a (4 * (t / 8) + t % 4) else b (4 * (t / 8) + t % 4)
  max (-32768) (min 32767 v)

/-- `_mm256_packs_epi16`: two vectors of 16 int16 to 32 int8, per 128-bit half, saturating. -/
def packs16 (a b : Nat → Int) (t : Nat) : Int :=
  let v := if t % 16 < 8 then a (8 * (t / 16) + t % 8) else b (8 * (t / 16) + t % 8)
  max (-128) (min 127 v)

/-- `_mm256_permutevar8x32_epi32` seen as bytes. -/
def perm8x32 (a : Nat → Int) (perm : List Nat) (t : Nat) : Int := a (4 * perm.getD (t / 4) 0 + t % 4)

/-- `quantize_q8.cpp` L112-166: one block with AVX2. -/
noncomputable def q80Avx (P : Plat) (rnd : ℝ → Int) (x : Nat → ℝ) : Q80 :=
  let ms := amaxAvx x
  let id := if ms ≠ 0 then 127 / ms else 0
  let v := fun (k l : Nat) => rnd (x (8 * k + l) * id)
  let i0 := packs32 (v 0) (v 1)
  let i2 := packs32 (v 2) (v 3)
  let p := packs16 i0 i2
  ⟨P.store (ms / 127), perm8x32 p [0, 4, 1, 5, 2, 6, 3, 7]⟩

/-- `quantize_row_q8_0`, `quantize_q8.cpp` L31-55, 57-193, by target. -/
inductive Target | scalar | neon | avx
  deriving DecidableEq

noncomputable def quantQ80 (t : Target) (P : Plat) (rnd : ℝ → Int) (k : Nat) (x : Nat → ℝ) : List Q80 :=
  match t with
  | .scalar => byIndex 32 (q80Scalar P rnd) (k / 32) x
  | .neon => byIndex 32 (q80Neon P rnd) (k / 32) x
  | .avx => byPtr 32 (q80Avx P rnd) (k / 32) x

/-- `dequantize_row_q8_0`, `quantize_q8.cpp` L195-209: the stores into `y`. -/
noncomputable def deqQ80 (P : Plat) (k : Nat) (b : Nat → Q80) (y : Nat → ℝ) : Nat → ℝ :=
  run ((List.range (k / 32)).flatMap fun i => (List.range 32).map fun j =>
    Upd.put (i * 32 + j) (((b i).qs j : ℝ) * P.load (b i).d)) y

/-! ### q4_0 -/

/-- `quantize_q4.cpp` L41-50 (also `quantize_q8.cpp` L217-225): the element of largest magnitude, first wins. -/
noncomputable def maxLoop (n : Nat) (x : Nat → ℝ) : ℝ × ℝ :=
  (List.range n).foldl (fun s j => if s.1 < |x j| then (|x j|, x j) else s) (0, 0)

/-- `quantize_q4.cpp` L61: `MIN(15, (int8_t)(x0 + 8.5F))`, stored in a `uint8_t`. -/
noncomputable def code4 (x0 : ℝ) : Nat := ((min 15 (i8 (trunc (x0 + 8.5)))).emod 256).toNat

/-- `quantize_q4.cpp` L40-67: one block. -/
noncomputable def q40Block (P : Plat) (x : Nat → ℝ) : Q40 :=
  let d := (maxLoop 32 x).2 / (-8)
  let id := if d ≠ 0 then 1 / d else 0
  ⟨P.store d, fun j => (code4 (x (0 + j) * id) ||| (code4 (x (16 + j) * id) <<< 4)) % 256⟩

/-- `quantize_row_q4_0`, `quantize_q4.cpp` L33-72. -/
noncomputable def quantQ40 (P : Plat) (k : Nat) (x : Nat → ℝ) : List Q40 := byIndex 32 (q40Block P) (k / 32) x

/-- `dequantize_row_q4_0`, `quantize_q4.cpp` L74-93. -/
noncomputable def deqQ40 (P : Plat) (k : Nat) (b : Nat → Q40) (y : Nat → ℝ) : Nat → ℝ :=
  run ((List.range (k / 32)).flatMap fun i => (List.range 16).flatMap fun j =>
    [Upd.put (i * 32 + j + 0) (((((b i).qs j &&& 0x0F : Nat) : Int) - 8 : Int) * P.load (b i).d),
     Upd.put (i * 32 + j + 16) (((((b i).qs j >>> 4 : Nat) : Int) - 8 : Int) * P.load (b i).d)]) y

/-! ### q8_K -/

/-- `quantize_q8.cpp` L217-247: one block.  `junk` is what `bsums` held before: the all-zero branch does not
write it. -/
noncomputable def q8KBlock (rnd : ℝ → Int) (junk : Nat → Int) (x : Nat → ℝ) : Q8K :=
  let s := maxLoop 256 x
  if s.1 = 0 then ⟨0, fun _ => 0, junk⟩
  else
    let iscale := -128 / s.2
    let qs := fun j => i8 (min 127 (rnd (iscale * x j)))
    ⟨1 / iscale, qs, fun j => i16 (∑ ii ∈ Finset.range 16, qs (j * 16 + ii))⟩

/-- `quantize_row_q8_K`, `quantize_q8.cpp` L213-249, 260-262. -/
noncomputable def quantQ8K (rnd : ℝ → Int) (junk : Nat → Int) (k : Nat) (x : Nat → ℝ) : List Q8K :=
  byPtr 256 (q8KBlock rnd junk) (k / 256) x

/-- `dequantize_row_q8_K`, `quantize_q8.cpp` L251-258: the floats written at `*y++`, in order. -/
noncomputable def deqQ8K (k : Nat) (b : Nat → Q8K) : List ℝ :=
  (List.range (k / 256)).flatMap fun i => (List.range 256).map fun j => (b i).d * (b i).qs j

/-! ### q4_K -/

/-- `get_scale_min_k4`, `quantize_q4.cpp` L174-182. -/
def getScaleMin (j : Nat) (q : Nat → Nat) : Nat × Nat :=
  if j < 4 then (q j &&& 63, q (j + 4) &&& 63)
  else ((q (j + 4) &&& 0xF) ||| ((q (j - 4) >>> 6) <<< 4), (q (j + 4) >>> 4) ||| ((q (j - 0) >>> 6) <<< 4))

/-- `MAX(0, MIN(nmax, l))`. -/
def clampTo (nmax : Nat) (l : Int) : Nat := (max 0 (min (nmax : Int) l)).toNat

/-- The state of the search in `make_qkx2_quants`: best error, scale, minimum and codes. -/
structure Qkx where
  mad : ℝ
  scale : ℝ
  min : ℝ
  L : Nat → Nat

/-- `quantize_q4.cpp` L102-113: the minimum, at most zero, and the maximum. -/
noncomputable def qkxMin (n : Nat) (x : Nat → ℝ) : ℝ :=
  let mn := (List.range (n - 1)).foldl (fun m i => if x (i + 1) < m then x (i + 1) else m) (x 0)
  if mn > 0 then 0 else mn

noncomputable def qkxMax (n : Nat) (x : Nat → ℝ) : ℝ :=
  (List.range (n - 1)).foldl (fun m i => if x (i + 1) > m then x (i + 1) else m) (x 0)

/-- `quantize_q4.cpp` L122-124, 139-141: the codes for an inverse scale. -/
noncomputable def qkxCodes (rnd : ℝ → Int) (nmax : Nat) (x : Nat → ℝ) (mn isc : ℝ) (i : Nat) : Nat :=
  clampTo nmax (rnd (isc * (x i - mn)))

/-- `quantize_q4.cpp` L125-129, 155-161: the weighted squared error (`use_mad = false`). -/
noncomputable def qkxErr (n : Nat) (x w : Nat → ℝ) (sc m : ℝ) (L : Nat → Nat) : ℝ :=
  ∑ i ∈ Finset.range n, w i * (sc * L i + m - x i) ^ 2

/-- `quantize_q4.cpp` L135-169: one round of the search, with the codes `La` of that round. -/
noncomputable def qkxStep (n : Nat) (x w : Nat → ℝ) (La : Nat → Nat) (s : Qkx) : Qkx :=
  let sumw := ∑ i ∈ Finset.range n, w i
  let sumx := ∑ i ∈ Finset.range n, w i * x i
  let sl := ∑ i ∈ Finset.range n, w i * La i
  let sl2 := ∑ i ∈ Finset.range n, w i * La i * La i
  let sxl := ∑ i ∈ Finset.range n, w i * La i * x i
  let D := sumw * sl2 - sl * sl
  if D > 0 then
    let m0 := (sl2 * sumx - sl * sxl) / D
    let sc := if m0 > 0 then sxl / sl2 else (sumw * sxl - sumx * sl) / D
    let m := if m0 > 0 then 0 else m0
    let mad := qkxErr n x w sc m La
    if mad < s.mad then ⟨mad, sc, m, La⟩ else s
  else s

/-- `quantize_q4.cpp` L99-171 `make_qkx2_quants` with `use_mad = false`.  Returns scale, `the_min` and the codes. -/
noncomputable def qkx2 (rnd : ℝ → Int) (n nmax : Nat) (x w : Nat → ℝ) (rmin rdelta : ℝ) (nstep : Nat) :
    ℝ × ℝ × (Nat → Nat) :=
  let mn := qkxMin n x
  let mx := qkxMax n x
  if mx = mn then (0, -mn, fun _ => 0)
  else
    let isc0 := nmax / (mx - mn)
    let L0 := qkxCodes rnd nmax x mn isc0
    let s0 : Qkx := ⟨qkxErr n x w (1 / isc0) mn L0, 1 / isc0, mn, L0⟩
    if nstep < 1 then (s0.scale, -s0.min, s0.L)
    else
      let s := (List.range (nstep + 1)).foldl (fun (s : Qkx) (k : Nat) =>
        qkxStep n x w (qkxCodes rnd nmax x mn ((rmin + rdelta * k + nmax) / (mx - mn))) s) s0
      (s.scale, -s.min, s.L)

/-- `quantize_q4.cpp` L212-226: pack eight 6-bit scales and minima into 12 bytes, in the order of the loop. -/
def packScales (ls lm : Nat → Nat) : Nat → Nat :=
  let s1 := (List.range 4).foldl (fun (s : Nat → Nat) j =>
    Function.update (Function.update s j (ls j)) (j + 4) (lm j)) (fun _ => 0)
  (List.range 4).foldl (fun (s : Nat → Nat) j' =>
    let j := j' + 4
    let s := Function.update s (j + 4) ((ls j &&& 0xF) ||| ((lm j &&& 0xF) <<< 4))
    let s := Function.update s (j - 4) ((s (j - 4) ||| ((ls j >>> 4) <<< 6)) % 256)
    Function.update s (j - 0) ((s (j - 0) ||| ((lm j >>> 4) <<< 6)) % 256)) s1

/-- `uint8_t ls = nearest_int(..); ls = MIN(63, ls)`, `quantize_q4.cpp` L213-216. -/
def to6 (n : Int) : Nat := min 63 (n.emod 256).toNat

/-- `quantize_q4.cpp` L193-276: one block (`QK_K == 256`). -/
noncomputable def q4KBlock (P : Plat) (rnd : ℝ → Int) (sq : ℝ → ℝ) (x : Nat → ℝ) : Q4K :=
  let sub := fun (j l : Nat) => x (32 * j + l)
  let av := fun (j : Nat) => sq ((∑ l ∈ Finset.range 32, sub j l * sub j l) / 32)
  let r := fun (j : Nat) => qkx2 rnd 32 15 (sub j) (fun l => av j + |sub j l|) (-1) 0.1 20
  let maxScale := (List.range 8).foldl (fun m j => if (r j).1 > m then (r j).1 else m) 0
  let maxMin := (List.range 8).foldl (fun m j => if (r j).2.1 > m then (r j).2.1 else m) 0
  let invScale := if maxScale > 0 then 63 / maxScale else 0
  let invMin := if maxMin > 0 then 63 / maxMin else 0
  let scales := packScales (fun j => to6 (rnd (invScale * (r j).1))) (fun j => to6 (rnd (invMin * (r j).2.1)))
  let bd := P.store (maxScale / 63)
  let bm := P.store (maxMin / 63)
  let L := fun (t : Nat) =>
    let j := t / 32
    let d := P.load bd * ((getScaleMin j scales).1 : ℝ)
    if d = 0 then (r j).2.2 (t % 32)
    else
      let dm := P.load bm * ((getScaleMin j scales).2 : ℝ)
      clampTo 15 (rnd ((sub j (t % 32) + dm) / d))
  ⟨bd, bm, scales, fun t => (L (64 * (t / 32) + t % 32) ||| (L (64 * (t / 32) + t % 32 + 32) <<< 4)) % 256⟩

/-- `quantize_row_q4_K`, `quantize_q4.cpp` L185-280, 324-328. -/
noncomputable def quantQ4K (P : Plat) (rnd : ℝ → Int) (sq : ℝ → ℝ) (k : Nat) (x : Nat → ℝ) : List Q4K :=
  byPtr 256 (q4KBlock P rnd sq) (k / 256) x

/-- `dequantize_row_q4_K`, `quantize_q4.cpp` L282-306: the floats written at `*y++`, in order. -/
noncomputable def deqQ4K (P : Plat) (k : Nat) (b : Nat → Q4K) : List ℝ :=
  (List.range (k / 256)).flatMap fun i => (List.range 4).flatMap fun jj =>
    let s1 := getScaleMin (2 * jj + 0) (b i).scales
    let s2 := getScaleMin (2 * jj + 1) (b i).scales
    let q := fun (l : Nat) => (b i).qs (32 * jj + l)
    ((List.range 32).map fun l => P.load (b i).d * (s1.1 : ℝ) * ((q l &&& 0xF : Nat) : ℝ) - P.load (b i).dmin * (s1.2 : ℝ)) ++
    ((List.range 32).map fun l => P.load (b i).d * (s2.1 : ℝ) * ((q l >>> 4 : Nat) : ℝ) - P.load (b i).dmin * (s2.2 : ℝ))

/-! ### q6_K -/

/-- `make_qx_quants`, `quantize.hpp` L270-331, with `rmse_type = 1` (weights `x²`, full search).  Returns the scale and
the codes shifted by `nmax`. -/
noncomputable def qx (rnd : ℝ → Int) (n nmax : Nat) (x : Nat → ℝ) : ℝ × (Nat → Int) :=
  let s := maxLoop n x
  if s.1 < 1e-30 then (0, fun _ => 0)
  else
    let cl := fun (isc : ℝ) (i : Nat) => max (-(nmax : Int)) (min ((nmax : Int) - 1) (rnd (isc * x i)))
    let slx := fun (isc : ℝ) => ∑ i ∈ Finset.range n, x i * x i * x i * (cl isc i : ℝ)
    let sl2 := fun (isc : ℝ) => ∑ i ∈ Finset.range n, x i * x i * (cl isc i : ℝ) * (cl isc i : ℝ)
    let isc0 := -(nmax : ℝ) / s.2
    let sc0 := slx isc0 / sl2 isc0
    let r := (List.range 19).foldl (fun (r : ℝ × ℝ × (Nat → Int)) (k : Nat) =>
      let is : Int := (k : Int) - 9
      if is = 0 then r
      else
        let isc := -((nmax : ℝ) + 0.1 * is) / s.2
        if sl2 isc > 0 ∧ slx isc * slx isc > r.2.1 * sl2 isc then
          (slx isc / sl2 isc, slx isc / sl2 isc * slx isc, fun i => cl isc i + nmax)
        else r) (sc0, sc0 * slx isc0, fun i => cl isc0 i + nmax)
    (r.1, r.2.2)

/-- `quantize_q6.cpp` L41-103: one block (`QK_K == 256`). -/
noncomputable def q6KBlock (P : Plat) (rnd : ℝ → Int) (x : Nat → ℝ) : Q6K :=
  let r := fun (ib : Nat) => qx rnd 16 32 (fun j => x (16 * ib + j))
  let m := maxLoop 16 (fun ib => (r ib).1)
  if m.1 = 0 then ⟨fun _ => 0, fun _ => 0, fun _ => 0, P.store 0⟩
  else
    let iscale := -128 / m.2
    let bd := P.store (1 / iscale)
    let sc := fun (ib : Nat) => i8 (min 127 (rnd (iscale * (r ib).1)))
    let L := fun (t : Nat) =>
      let j := t / 16
      let d := P.load bd * (sc j : ℝ)
      if d = 0 then ((r j).2 (t % 16)).toNat
      else (max (-32) (min 31 (rnd (x (16 * j + t % 16) / d))) + 32).toNat
    ⟨fun t =>
        let j := 128 * (t / 64)
        let l := t % 32
        if t % 64 < 32 then (L (j + l) &&& 0xF) ||| ((L (j + l + 64) &&& 0xF) <<< 4)
        else (L (j + l + 32) &&& 0xF) ||| ((L (j + l + 96) &&& 0xF) <<< 4),
     fun t =>
        let j := 128 * (t / 32)
        let l := t % 32
        ((L (j + l) >>> 4) ||| ((L (j + l + 32) >>> 4) <<< 2) ||| ((L (j + l + 64) >>> 4) <<< 4) |||
          ((L (j + l + 96) >>> 4) <<< 6)) % 256,
     sc, bd⟩

/-- `quantize_row_q6_K`, `quantize_q6.cpp` L34-107, 152-156. -/
noncomputable def quantQ6K (P : Plat) (rnd : ℝ → Int) (k : Nat) (x : Nat → ℝ) : List Q6K :=
  byPtr 256 (q6KBlock P rnd) (k / 256) x

/-- The 6-bit code at lane `l` (`l < 32`), quarter `c` of half `n` of a block, `quantize_q6.cpp` L124-127 and
`vec_dot.cpp` L1193-1196. -/
def q6At (ql qh : Nat → Nat) (n l c : Nat) : Int :=
  let a := ql (64 * n + l)
  let b := ql (64 * n + l + 32)
  let h := qh (32 * n + l)
  if c = 0 then (((a &&& 0xF) ||| (((h >>> 0) &&& 3) <<< 4) : Nat) : Int) - 32
  else if c = 1 then (((b &&& 0xF) ||| (((h >>> 2) &&& 3) <<< 4) : Nat) : Int) - 32
  else if c = 2 then (((a >>> 4) ||| (((h >>> 4) &&& 3) <<< 4) : Nat) : Int) - 32
  else (((b >>> 4) ||| (((h >>> 6) &&& 3) <<< 4) : Nat) : Int) - 32

/-- `dequantize_row_q6_K`, `quantize_q6.cpp` L109-150: the stores into `y`. -/
noncomputable def deqQ6K (P : Plat) (k : Nat) (b : Nat → Q6K) (y : Nat → ℝ) : Nat → ℝ :=
  run ((List.range (k / 256)).flatMap fun i => (List.range 2).flatMap fun n => (List.range 32).flatMap fun l =>
    (List.range 4).map fun c =>
      Upd.put (256 * i + 128 * n + (l + 32 * c))
        (P.load (b i).d * ((b i).scales (8 * n + (l / 16 + 2 * c)) : ℝ) * (q6At (b i).ql (b i).qh n l c : ℝ))) y

end Verif.Quant
