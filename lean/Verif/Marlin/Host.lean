import Verif.Marlin.Stripe

/-!
# The host side of the quantised GEMM

`mllm-kernel/mllm_kernel/cuda/csrc/gemm/marlin/gptq_marlin.cuh`: `marlin_mm`, the choice of a
kernel configuration, and the checks of `gptq_marlin_gemm`; the Python entry points
`pymllm/quantization/methods/awq_marlin.py`, `compressed_tensors.py` and
`mllm-kernel/mllm_kernel/cuda/jit/gptq_marlin.py`.

`-1` is modelled by `none`; integers do not overflow.  The float8 / float4 weight types appear in
the kernel table but the shared-memory figures below are for the integer types.
-/

namespace Verif.Marlin

/-- The weight types the host code knows (`scalar_type.hpp` L222-245). -/
inductive QType | u4 | u8 | u4b8 | u8b128 | fe4m3fn | fe2m1f
deriving DecidableEq, Repr

/-- `ScalarType::size_bits` -/
def QType.bits : QType → Nat
  | .u4 | .u4b8 | .fe2m1f => 4
  | .u8 | .u8b128 | .fe4m3fn => 8

/-- `thread_config_t` (gptq_marlin.cuh L109-113). -/
structure TConf where
  k : Nat
  n : Nat
  threads : Nat
deriving DecidableEq, Repr

/-- `small_batch_thread_configs` / `large_batch_thread_configs` (L115-129), chosen at L452. -/
def threadConfigs (tm : Nat) : List TConf :=
  if tm > 1 then [⟨64, 256, 256⟩, ⟨64, 128, 128⟩, ⟨128, 64, 128⟩]
  else [⟨128, 128, 256⟩, ⟨64, 128, 128⟩, ⟨128, 64, 128⟩]

/-- `group_size`: `-1` (one group), `0` (activation order, K not full), or a size. -/
inductive GSize | one | act | size (g : Nat)
deriving DecidableEq, Repr

/-- Everything about a call that does not change in the loop of `marlin_mm`. -/
structure Call where
  q : QType
  /-- scalar type of the activations is fp16 (otherwise bf16) -/
  half : Bool
  n : Nat
  k : Nat
  gsize : GSize
  hasAct : Bool
  kFull : Bool
  hasZp : Bool
  zpFloat : Bool
  /-- `max_shared_mem` of the device, in bytes -/
  shared : Nat
deriving DecidableEq, Repr

/-- `pipe_stages` (marlin.cuh L16) -/
def pipeStages : Nat := 4

/-- `get_scales_cache_size` (L136-171). -/
def scalesCache (c : Call) (t : TConf) : Nat :=
  let groups := match c.gsize with
    | .one => 1
    | .act => divCeil t.k 32
    | .size g => divCeil t.k g
  if c.hasAct && !c.kFull then (max (groups * pipeStages * 2) 32) * t.n * 2
  else groups * t.n * 2 * pipeStages

/-- `get_kernel_cache_size` (L173-211), in bytes. -/
def kernelCache (c : Call) (t : TConf) (tm : Nat) : Nat :=
  let m := tm * 16
  let a := pipeStages * (m * t.k) * 2
  let b := pipeStages * (t.k * t.n / (32 / c.q.bits)) * 4
  let red := m * (t.n + 8)
  let s := scalesCache c t
  let gi := if c.hasAct && !c.kFull then pipeStages * t.k / 4 else 0
  let zp := if c.hasZp then
      (if c.zpFloat then s else if c.q.bits = 4 then s / 4 else s / 2) else 0
  max b red + a + s + zp + gi

/-- `is_valid_config` (L213-257). -/
def validConfig (c : Call) (t : TConf) (tm : Nat) : Bool :=
  c.k % t.k == 0 && c.n % t.n == 0 && !(t.n < 64) && !(t.k < 64) && !(t.threads < 128) &&
    decide (kernelCache c t tm ≤ c.shared)

/-- `group_blocks` (L475-478, L541-560): `none` for `-1`. -/
def groupBlocks (c : Call) : Option Nat :=
  if c.hasAct && !c.kFull then some 0
  else match c.gsize with
    | .one => none
    | .act => some 0
    | .size g => some (g / 16)

/-- The (n blocks, k blocks, threads) triples instantiated for one row block (`…_GET_IF_M1`) and
for several (`…_GET_IF_M234`), L316-319 and the same in the other families. -/
def shapes1 : List (Nat × Nat × Nat) := [(8, 8, 256), (8, 4, 128), (4, 8, 128)]
def shapes234 : List (Nat × Nat × Nat) := [(16, 4, 256), (8, 4, 128), (4, 8, 128)]

/-- One family of instantiations: `COMMON`, `BIGGROUP`, `FP4`, `FZP`, `ACT` differ in the group
blocks they cover. -/
def family (groups : List (Option Nat)) (tm : Nat) (shape : Nat × Nat × Nat) (m8 : Bool)
    (gb : Option Nat) : Bool :=
  groups.contains gb &&
    ((tm == 1 && shapes1.contains shape) ||
     ((tm == 2 || tm == 3 || tm == 4) && !m8 && shapes234.contains shape))

/-- `get_marlin_kernel(...) != MarlinDefault` (L394-430). -/
def hasKernel (c : Call) (tm : Nat) (t : TConf) (m8 : Bool) : Bool :=
  let shape := (t.n / 16, t.k / 16, t.threads)
  let gb := groupBlocks c
  if c.zpFloat then c.half && c.q == .u4 && family [some 4] tm shape m8 gb
  else match c.q with
    | .u4 => family [none, some 2, some 4, some 8] tm shape m8 gb
    | .u4b8 | .u8b128 => family [none, some 2, some 4, some 8, some 0] tm shape m8 gb
    | .fe4m3fn => family [none, some 8] tm shape m8 gb
    | .fe2m1f => family [some 1] tm shape m8 gb
    | .u8 => false

/-- `determine_exec_config` (L432-505): the first configuration that is valid and has a kernel. -/
def determineExec (c : Call) (tm : Nat) (m8 : Bool) : Option TConf :=
  (threadConfigs tm).find? (fun t => validConfig c t tm && hasKernel c tm t m8)

/-- A kernel launch: rows `[row, row + rows)` of the input and output, with the configuration. -/
structure Launch where
  row : Nat
  rows : Nat
  tm : Nat
  m8 : Bool
  conf : TConf
deriving DecidableEq, Repr

inductive MMFail
  /-- "Invalid thread config" (L634-664) -/
  | noConfig
  /-- `q_type` does not fit `has_zp` (L527-537) -/
  | badType
  /-- "Invalid MNK" -/
  | badShape
  /-- `prob_k % group_blocks` with `group_blocks == 0`: integer division by zero (L546, L557) -/
  | divByZero
  /-- `prob_k % group_blocks != 0` -/
  | badGroup
  /-- the model ran out of fuel (proved impossible) -/
  | hang
deriving DecidableEq, Repr

/-- How many rows the next launch takes (L594-596). -/
def splitRows (c : Call) (maxM rest : Nat) : Nat :=
  let maxPar := if c.n ≤ 4096 then 16 * 8 else 16
  let par := rest / (maxM * 16)
  let par := if par > maxPar then maxPar else par
  if par > 0 then par * (maxM * 16) else rest

/-- The `while (rest_m)` loop of `marlin_mm` (L588-735); `row` is how far `A_ptr` / `C_ptr` have
advanced.  When no configuration fits, `max_thread_m_blocks` goes down and the round is repeated.
(After a successful `determine_exec_config` the later checks of validity and of the kernel repeat
what it checked, so they cannot fail: L634-700.) -/
def mmLoop (c : Call) : Nat → Nat → Nat → Nat → Except MMFail (List Launch)
  | 0, _, _, _ => .error .hang
  | fuel + 1, row, rest, maxM =>
    if rest = 0 then .ok []
    else
      let rows := splitRows c maxM rest
      let tm := min (divCeil rows 16) maxM
      let m8 := decide (rows ≤ 8)
      match determineExec c tm m8 with
      | none => if maxM > 1 then mmLoop c fuel row rest (maxM - 1) else .error .noConfig
      | some t =>
        match mmLoop c fuel (row + rows) (rest - rows) maxM with
        | .error e => .error e
        | .ok l => .ok (⟨row, rows, tm, m8, t⟩ :: l)

/-- `marlin_mm` (L507-738). -/
def marlinMM (c : Call) (m : Nat) : Except MMFail (List Launch) :=
  if c.hasZp ∧ ¬ (c.q = .u4 ∨ c.q = .u8) then .error .badType
  else if ¬ c.hasZp ∧ ¬ (c.q = .u4b8 ∨ c.q = .u8b128 ∨ c.q = .fe4m3fn ∨ c.q = .fe2m1f) then
    .error .badType
  else if m = 0 ∨ c.n = 0 ∨ c.k = 0 then .error .badShape
  else match groupBlocks c with
    | none => mmLoop c (m + 5) 0 m 4
    | some gb =>
      if c.hasAct ∧ ¬ c.kFull then mmLoop c (m + 5) 0 m 4
      else if gb = 0 then .error .divByZero
      else if c.k % gb ≠ 0 then .error .badGroup
      else mmLoop c (m + 5) 0 m 4

/-- `group_size` as `gptq_marlin_gemm` derives it from the number of rows of the scales
(L900-922). -/
def deriveGroup (k numGroups : Nat) (hasAct kFull : Bool) : Except MMFail GSize :=
  if hasAct then
    if kFull then
      if numGroups ≤ 1 then .error .badGroup
      else if k % numGroups ≠ 0 then .error .badGroup else .ok (.size (k / numGroups))
    else .ok .act
  else if numGroups > 1 then
    if k % numGroups ≠ 0 then .error .badGroup else .ok (.size (k / numGroups))
  else .ok .one

/-- What the GEMM sees of the tensors of a quantised layer. -/
structure Weights where
  q : QType
  n : Nat
  k : Nat
  /-- rows of the scales -/
  groups : Nat
  /-- rows of the zero points (0: no zero points) -/
  zeros : Nat
deriving DecidableEq, Repr

/-- `gptq_marlin_gemm` without activation order and with integer zero points (L744-1000; the
checks on devices, strides and dtypes are not modelled). -/
def gemm (w : Weights) (half : Bool) (shared m : Nat) : Except MMFail (List Launch) :=
  if w.k % 16 ≠ 0 ∨ w.n % 64 ≠ 0 then .error .badShape
  else if m = 0 then .ok []
  else if w.zeros > 0 ∧ w.zeros ≠ w.groups then .error .badGroup
  else match deriveGroup w.k w.groups false true with
    | .error e => .error e
    | .ok g => marlinMM ⟨w.q, half, w.n, w.k, g, false, true, decide (w.zeros > 0), false, shared⟩ m

/-! ## The kernel's own use of memory -/

/-- `m_block_size` (marlin_template.h L309). -/
def Launch.blockRows (l : Launch) : Nat := if l.m8 then 8 else 16 * l.tm

/-- `parallel` (marlin_template.h L314-318). -/
def Launch.parallel (l : Launch) : Nat :=
  if l.rows > l.blockRows then l.rows / l.blockRows else 1

/-- The shared memory the kernel lays out (marlin_template.h L418-470, L603-616), in bytes: integer
weight types, no float zero points. -/
def kernelShared (c : Call) (l : Launch) : Nat :=
  let tn := l.conf.n / 16
  let tk := l.conf.k / 16
  let pack := 32 / c.q.bits
  let bStage := (((tn * 16) * 16 / pack) / 4) * tk
  let red := (2 * tn + 1) * 16 * l.tm
  let act := groupBlocks c == some 0
  let sStride := 16 * tn / 8
  let tbGroups := match groupBlocks c with
    | some gb => if gb ≠ 0 ∧ gb < tk then tk / gb else 1
    | none => 1
  let sSize := if act then 32 * sStride else pipeStages * (tbGroups * sStride)
  let gi := if act then 16 * tk * 4 / 16 else 0
  let zp := if c.hasZp then tbGroups * (((16 * tn) / pack) / 4) else 0
  let aStage := (16 * tk / 8) * l.blockRows
  16 * (max red (pipeStages * bStage) + pipeStages * gi + pipeStages * zp + sSize +
    pipeStages * aStage)

/-! ## The Python layers -/

/-- Outcome of `create_weights`. -/
inductive LayerFail | shape | negativeDim
deriving DecidableEq, Repr

/-- `verify_marlin_supports_shape` (awq_marlin.py L125-146, compressed_tensors.py L79-92), Python's
`%` on integers. -/
def shapeOk (out inp inputSize : Nat) (group : Int) : Bool :=
  out % 64 == 0 && inp % 128 == 0 && !(group < inputSize && (inp : Int).fmod group != 0)

/-- The shapes of the tensors both `create_weights` make: `input // group_size` groups (Python's
floor division; `torch.empty` refuses a negative dimension), as many rows of zero points when the
method has them. -/
def createWith (q : QType) (zp : Bool) (g : Int) (out inp inputSize : Nat) :
    Except LayerFail Weights :=
  if shapeOk out inp inputSize g = false then .error .shape
  else if (inp : Int).fdiv g < 0 then .error .negativeDim
  else .ok ⟨q, out, inp, ((inp : Int).fdiv g).toNat, if zp then ((inp : Int).fdiv g).toNat else 0⟩

/-- `_TYPE_MAP` (awq_marlin.py L97-100). -/
def awqType : Bool → QType
  | true => .u8
  | false => .u4

/-- "Normalize group_size" (awq_marlin.py L298-302): `-1` becomes the size of the *whole* input. -/
def awqGroup (group : Int) (inputSize : Nat) : Int := if group ≠ -1 then group else inputSize

/-- `AWQMarlinLinearMethod.create_weights` + `process_weights_after_loading` as far as the shapes
go (awq_marlin.py L284-409): `group` is the configured `group_size`. -/
def awqCreate (bits8 : Bool) (group : Int) (out inp inputSize : Nat) : Except LayerFail Weights :=
  createWith (awqType bits8) true (awqGroup group inputSize) out inp inputSize

/-- `CompressedTensorsWNA16Scheme.create_weights` (compressed_tensors.py L266-314). -/
def ctCreate (group : Int) (out inp inputSize : Nat) : Except LayerFail Weights :=
  createWith .u4b8 false group out inp inputSize

/-- `MARLIN_SUPPORTED_GROUP_SIZES` (awq_marlin.py L33, compressed_tensors.py L15). -/
def supportedGroups : List Int := [-1, 32, 64, 128]

/-- The number of floats of `c_tmp` (gptq_marlin.py L172-179). -/
def cTmpFloats (sms m : Nat) : Nat := sms * min ((m + 15) / 16 * 16) 64 * 256

end Verif.Marlin
