import Verif.Kern.ConvSpec
import Verif.Kern.Gemm
import Verif.Kern.Softmax

/-!
Convolutions: `core/aops/Conv{1,2,3}DOp.cpp`, `backends/cpu/ops/Conv{1,2,3}DOp.cpp`,
`backends/cpu/kernels/arm/conv{2,3}d.cpp`, for `float32`.

Arithmetic is exact over any commutative ring; `int` overflow is not modelled.  Sizes and options are natural numbers.
-/

namespace Verif.Kern

open Verif.Tensor (numel)

/-- Calls that stop. `arch`: `MLLM_ERROR_EXIT` because there is no kernel for this build; `divZero`: an integer division by
zero; `negative`: `Tensor::empty` with a negative size, which is not modelled further. -/
inductive CFail where
  | assertion
  | arch
  | divZero
  | negative
deriving DecidableEq, Repr

/-- `((dim + 2 * padding - dilation * (kernel - 1) - 1) / stride) + 1` on `int`, where `/` rounds toward zero:
`Conv1DOp.cpp` L83-86, `Conv2DOp.cpp` (aops) L96-99, `Conv3DOp.cpp` (aops) L78-81. -/
def convLen (dim k stride p dil : Nat) : Int := (((dim : Int) + 2 * p - dil * ((k : Int) - 1) - 1).tdiv stride) + 1

/-- A size passed to `Tensor::empty`. -/
def asSize (stride : Nat) (n : Int) : Except CFail Nat :=
  if stride = 0 then .error .divZero else if n < 0 then .error .negative else .ok n.toNat

variable {α : Type} [CommRing α]

/-- `for (i = 0; i < n; i++) s = f(i, s);` -/
def each (n : Nat) (f : Nat → α → α) (s : α) : α := (List.range n).foldl (fun s i => f i s) s

/-! ### One dimension -/

/-- `Conv1DOpOptions`, `core/aops/Conv1DOp.hpp` L16-25. -/
structure Conv1Opts where
  cin : Nat
  cout : Nat
  k : Nat
  stride : Nat
  padding : Nat
  groups : Nat
  dilation : Nat

/-- The body for one output, `ops/Conv1DOp.cpp` L54-89. -/
def conv1Cell (o : Conv1Opts) (cin cout seq outSeq : Nat) (x w : Nat → α) (bias : Option (Nat → α)) (idx : Nat) : List (Upd α) :=
  let ig := cin / o.groups
  let og := cout / o.groups
  let b := idx / (cout * outSeq)
  let oc := idx % (cout * outSeq) / outSeq
  let os := idx % outSeq
  let group := oc / og
  let sum := each ig (fun c => each o.k fun k s =>
    let q : Int := (os : Int) * o.stride - o.padding + k * o.dilation
    if 0 ≤ q ∧ q < seq then
      s + x (b * (cin * seq) + (group * ig + c) * seq + q.toNat) *
        w (group * (og * ig * o.k) + oc % og * (ig * o.k) + c * o.k + k)
    else s) 0
  let sum := match bias with | some β => sum + β oc | none => sum
  [Upd.put (b * (cout * outSeq) + oc * outSeq + os) sum]

/-- `forward`, `ops/Conv1DOp.cpp` L12-94: zeros, then one body per output. -/
def conv1Forward (o : Conv1Opts) (batch cin cout seq outSeq : Nat) (x w : Nat → α) (bias : Option (Nat → α)) :
    List (List (List (Upd α))) :=
  [[(List.range (batch * cout * outSeq)).map fun i => Upd.put i 0],
   (List.range (batch * cout * outSeq)).map (conv1Cell o cin cout seq outSeq x w bias)]

/-- `nn::Conv1D`: `reshape`, `core/aops/Conv1DOp.cpp` L54-94, then `forward`: output shape and program. -/
def conv1 (o : Conv1Opts) (x w : Ten α) (bias : Option (Nat → α)) : Except CFail (List Nat × List (List (List (Upd α)))) :=
  match x.shape with
  | [batch, cin, seq] =>
    if cin ≠ o.cin then .error .assertion
    else if o.groups = 0 then .error .divZero
    else if cin % o.groups ≠ 0 then .error .assertion
    else if o.cout % o.groups ≠ 0 then .error .assertion
    else do
      let n ← asSize o.stride (convLen seq o.k o.stride o.padding o.dilation)
      pure ([batch, o.cout, n], conv1Forward o batch cin o.cout seq n x.data w.data bias)
  | _ => .error .assertion

/-! ### Two dimensions -/

/-- `Conv2DOpOptions`, `core/aops/Conv2DOp.hpp` L21-30, with `impl_type = kDefault` (vectors of two numbers; others are
refused by `core/aops/Conv2DOp.cpp` L90-93). -/
structure Conv2Opts where
  cin : Nat
  cout : Nat
  kh : Nat
  kw : Nat
  sh : Nat
  sw : Nat
  ph : Nat
  pw : Nat
  dh : Nat
  dw : Nat

/-- A row of zeros in blocks of four, `conv2d.cpp` L31-38. -/
def zeroRow (n : Nat) : List α :=
  (List.range ((n + 3) / 4)).flatMap fun q => if q * 4 + 3 < n then List.replicate 4 0 else List.replicate (n - q * 4) 0

/-- A row in blocks of four, then one by one, `conv2d.cpp` L40-74. -/
def dataRow (n : Nat) (v : Nat → α) : List α :=
  ((List.range (n / 4)).flatMap fun q => [v (q * 4), v (q * 4 + 1), v (q * 4 + 2), v (q * 4 + 3)]) ++
  (List.range (n - n / 4 * 4)).map fun i => v (n / 4 * 4 + i)

/-- `static_cast<unsigned>(q) < static_cast<unsigned>(len)`: for `int` values this says `0 ≤ q < len`. -/
def inside (q : Int) (len : Nat) : Prop := 0 ≤ q ∧ q < len

instance (q : Int) (len : Nat) : Decidable (inside q len) := inferInstanceAs (Decidable (_ ∧ _))

/-- One row of `conv2d_fp32_im2col_input`, `conv2d.cpp` L27-75: `x0` is the start of the channel. -/
def colRow (o : Conv2Opts) (H W outW : Nat) (x : Nat → α) (x0 ky kx oy : Nat) : List α :=
  let y : Int := -(o.ph : Int) + ky * o.dh + oy * o.sh
  if inside y H then
    dataRow outW fun ox =>
      let z : Int := -(o.pw : Int) + kx * o.dw + ox * o.sw
      if inside z W then x (x0 + y.toNat * W + z.toNat) else 0
  else zeroRow outW

/-- `conv2d_fp32_im2col_input`, `conv2d.cpp` L12-80: the values in the order they are written to `col_data`, which is bumped
after every store. -/
def im2col (o : Conv2Opts) (H W outH outW : Nat) (x : Nat → α) : List α :=
  (List.range o.cin).flatMap fun c => (List.range o.kh).flatMap fun ky => (List.range o.kw).flatMap fun kx =>
    (List.range outH).flatMap fun oy => colRow o H W outW x (c * (H * W)) ky kx oy

/-- `conv2d_fp32_im2col_weight`, `conv2d.cpp` L82-98: the stores into the packed weight. -/
def packWeight (o : Conv2Opts) (w : Nat → α) : List (Upd α) :=
  (List.range o.cout).flatMap fun oc => (List.range o.cin).flatMap fun i => (List.range o.kh).flatMap fun h =>
    (List.range o.kw).map fun z =>
      Upd.put (oc * (o.cin * o.kh * o.kw) + i * (o.kh * o.kw) + h * o.kw + z)
        (w (oc * (o.cin * o.kh * o.kw) + i * (o.kh * o.kw) + h * o.kw + z))

/-- The same program on a buffer that starts at `off`. -/
def shiftProg (off : Nat) (ss : List (List (List (Upd α)))) : List (List (List (Upd α))) :=
  ss.map fun js => js.map fun us => us.map fun u => ⟨off + u.addr, u.fn⟩

/-- One image, `ops/Conv2DOp.cpp` L111-164 (`kMllmBlas`): `im2col`, product, bias.  `junk` is what the scratch buffer held
before. -/
def conv2Image (o : Conv2Opts) (H W outH outW : Nat) (x w : Nat → α) (bias : Option (Nat → α)) (threads : Nat) (junk : Nat → α)
    (b : Nat) : List (List (List (Upd α))) :=
  let M := o.cout
  let K := o.cin * o.kh * o.kw
  let N := outH * outW
  let col := im2col o H W outH outW fun i => x (b * (o.cin * H * W) + i)
  shiftProg (b * (M * outH * outW)) (blasMatmul .arm 1 M K N 0 0 0 w (fun i => col.getD i (junk i)) none false false threads) ++
  match bias with
  | none => []
  | some β => [[(List.range M).flatMap fun m => (List.range N).map fun n =>
      ⟨b * (M * outH * outW) + m * N + n, fun s => s + β m⟩]]

/-- `nn::Conv2D`: `load` (`ops/Conv2DOp.cpp` L41-62) stops the program on x86; `reshape`, `core/aops/Conv2DOp.cpp` L66-116;
`forward`, `ops/Conv2DOp.cpp` L74-181.  The build without `MLLM_USE_BLAS`.  `packed` is what the packed weight held before it
was filled, `junk` the scratch buffer before each image. -/
def conv2 (s : Simd) (o : Conv2Opts) (x w : Ten α) (bias : Option (Nat → α)) (threads : Nat) (packed : Nat → α)
    (junk : Nat → Nat → α) : Except CFail (List Nat × List (List (List (Upd α)))) :=
  match s with
  | .x86 _ => .error .arch
  | .arm => match x.shape with
    | [batch, cin, H, W] =>
      if cin ≠ o.cin then .error .assertion
      else do
        let oh ← asSize o.sh (convLen H o.kh o.sh o.ph o.dh)
        let ow ← asSize o.sw (convLen W o.kw o.sw o.pw o.dw)
        pure ([batch, o.cout, oh, ow], (List.range batch).flatMap fun b =>
          conv2Image o H W oh ow x.data (run (packWeight o w.data) packed) bias threads (junk b) b)
    | _ => .error .assertion

/-! ### Three dimensions -/

/-- `Conv3DOpOptions`, `core/aops/Conv3DOp.hpp` L15-22. -/
structure Conv3Opts where
  cin : Nat
  cout : Nat
  kd : Nat
  kh : Nat
  kw : Nat
  sd : Nat
  sh : Nat
  sw : Nat

/-- The four inner loops, `conv3d.cpp` L42-59 (one lane), L67-78, L84-95: `z` is the first input column. -/
def conv3Sum (o : Conv3Opts) (inD inH inW : Nat) (x w : Nat → α) (bias : Option (Nat → α)) (b oc e y z : Nat) : α :=
  let sum := each o.cin (fun c => each o.kd fun h => each o.kh fun i => each o.kw fun j s =>
    s + x (b * (o.cin * (inD * (inH * inW))) + (c * (inD * (inH * inW)) + (e * o.sd + h) * (inH * inW) + (y * o.sh + i) * inW) + z + j) *
      w (oc * (o.cin * (o.kd * (o.kh * o.kw))) + c * (o.kd * (o.kh * o.kw)) + h * (o.kh * o.kw) + i * o.kw + j)) 0
  match bias with | some β => sum + β oc | none => sum

/-- One output row, `conv3d.cpp` L37-97; `c0` is its first cell. With `stride_w = 1` four columns at a time. -/
def conv3Row (o : Conv3Opts) (inD inH inW outW : Nat) (x w : Nat → α) (bias : Option (Nat → α)) (b oc e y c0 : Nat) :
    List (Upd α) :=
  if o.sw = 1 then
    ((List.range (outW / 4)).flatMap fun q => (List.range 4).map fun v =>
      Upd.put (c0 + (q * 4 + v)) (conv3Sum o inD inH inW x w bias b oc e y (q * 4 + v))) ++
    (List.range (outW - outW / 4 * 4)).map fun r =>
      Upd.put (c0 + (outW / 4 * 4 + r)) (conv3Sum o inD inH inW x w bias b oc e y (outW / 4 * 4 + r))
  else
    (List.range outW).map fun z => Upd.put (c0 + z) (conv3Sum o inD inH inW x w bias b oc e y (z * o.sw))

/-- `conv3d_fp32_baseline`, `conv3d.cpp` L12-103. -/
def conv3Forward (o : Conv3Opts) (batch inD inH inW outD outH outW : Nat) (x w : Nat → α) (bias : Option (Nat → α)) :
    List (Upd α) :=
  (List.range batch).flatMap fun b => (List.range o.cout).flatMap fun oc => (List.range outD).flatMap fun e =>
    (List.range outH).flatMap fun y =>
      conv3Row o inD inH inW outW x w bias b oc e y
        (b * (o.cout * (outD * (outH * outW))) + (oc * (outD * (outH * outW)) + e * (outH * outW) + y * outW))

/-- `nn::Conv3D`: `reshape`, `core/aops/Conv3DOp.cpp` L54-91; `forward`, `ops/Conv3DOp.cpp` L13-40, which calls nothing on
x86. -/
def conv3 (s : Simd) (o : Conv3Opts) (x w : Ten α) (bias : Option (Nat → α)) :
    Except CFail (List Nat × List (List (List (Upd α)))) :=
  match x.shape with
  | [batch, cin, D, H, W] =>
    if cin ≠ o.cin then .error .assertion
    else do
      let od ← asSize o.sd (convLen D o.kd o.sd 0 1)
      let oh ← asSize o.sh (convLen H o.kh o.sh 0 1)
      let ow ← asSize o.sw (convLen W o.kw o.sw 0 1)
      pure ([batch, o.cout, od, oh, ow], match s with
        | .arm => [[conv3Forward o batch D H W od oh ow x.data w.data bias]]
        | .x86 _ => [])
  | _ => .error .assertion

/-! ### Average pooling -/

/-- `AvgPool1dOpOptions`, `core/aops/AvgPool1dOp.hpp` L12-18. -/
structure PoolOpts where
  k : Nat
  stride : Nat
  padding : Nat
  ceil : Bool
  countPad : Bool

/-- `core/aops/AvgPool1dOp.cpp` L34-39.  The `ceil` of a `float` quotient is taken exactly (lengths below `2^24`). -/
def poolLen (o : PoolOpts) (len : Nat) : Int :=
  if o.ceil then -(-((len : Int) + 2 * o.padding - o.k)).fdiv o.stride + 1
  else ((len : Int) + 2 * o.padding - o.k).tdiv o.stride + 1

/-- The body for one output, `ops/AvgPool1dOp.cpp` L40-70: no store when nothing was counted. -/
noncomputable def poolCell (o : PoolOpts) (channels len outLen : Nat) (x : Nat → ℝ) (idx : Nat) : List (Upd ℝ) :=
  let b := idx / (channels * outLen)
  let c := idx % (channels * outLen) / outLen
  let t := idx % outLen
  let q (k : Nat) : Int := (t : Int) * o.stride - o.padding + k
  let sum := each o.k (fun k s => if 0 ≤ q k ∧ q k < len then s + x (b * (channels * len) + c * len + (q k).toNat) else s) 0
  let count : Nat := (List.range o.k).foldl (fun n k => if 0 ≤ q k ∧ q k < len then n + 1 else if o.countPad then n + 1 else n) 0
  if 0 < count then [Upd.put (b * (channels * outLen) + c * outLen + t) (sum / count)] else []

/-- `nn::AvgPool1d`: `reshape`, `core/aops/AvgPool1dOp.cpp` L15-46, then `forward`, `ops/AvgPool1dOp.cpp` L12-75. -/
noncomputable def pool (o : PoolOpts) (x : Ten ℝ) : Except CFail (List Nat × List (List (List (Upd ℝ)))) :=
  match x.shape with
  | [batch, ch, len] => do
    let n ← asSize o.stride (poolLen o len)
    pure ([batch, ch, n],
      [[(List.range (batch * ch * n)).map fun i => Upd.put i 0], (List.range (batch * ch * n)).map (poolCell o ch len n x.data)])
  | _ => .error .assertion

end Verif.Kern
