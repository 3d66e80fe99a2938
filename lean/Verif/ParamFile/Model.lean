import Verif.Prelude
/-
Byte-level model of the parameter files (C16, C17, C39).

Sources: mllm/core/ParameterFile.cpp, mllm/core/schema/ModelFileV1.hpp, ModelFileV2.hpp,
mllm/core/TensorStorage.cpp, mllm/core/TensorViewImpl.cpp, mllm/core/DataTypes.cpp,
pymllm/mobile/convertor/model_file_v2.py.

Assumptions: little-endian host with 8-byte `size_t`; `MLLM_RT_ASSERT` compiled in; files are
finite byte strings; I/O calls themselves do not fail.  Reading past the end of a file or buffer,
writing past a heap buffer and negative or overflowing dimensions are the outcome `ub`.
-/
namespace Verif.ParamFile

/-- How a call can fail: a reported, process-ending error, or undefined behaviour. -/
inductive Fail | abort | ub
  deriving DecidableEq, Repr

abbrev Res := Except Fail

/-- `uintN_t` written with `out_file.write(&x, sizeof x)` on a little-endian host. -/
def leBytes : Nat → Nat → List UInt8
  | 0, _ => []
  | k + 1, n => UInt8.ofNat n :: leBytes k (n / 256)

/-- `*reinterpret_cast<uintN_t*>(p)`. -/
def leVal : List UInt8 → Nat
  | [] => 0
  | b :: bs => b.toNat + 256 * leVal bs

/-- Bytes `[off, off+len)` of a file or buffer; `ub` when they are not all inside. -/
def rd (f : List UInt8) (off len : Nat) : Res (List UInt8) :=
  if off + len ≤ f.length then .ok ((f.drop off).take len) else .error .ub

/-- `(lanesOfType, bytesOfType)`, mllm/core/DataTypes.cpp L9-115 with the block structs of
DataTypes.hpp L110-345.  `NYI` (utils/Common.hpp L53) only prints, so unlisted types, among them
`kBFloat16 = 128`, fall through to `return 1`.  -/
def dtInfo : Nat → Nat × Nat
  | 0 => (1, 4)      -- kFloat32
  | 1 => (1, 2)      -- kFloat16
  | 2 => (32, 18)    -- kGGUF_Q4_0
  | 8 => (32, 34)    -- kGGUF_Q8_0
  | 10 => (32, 32)   -- kGGUF_Q8_Pertensor
  | 12 => (256, 144) -- kGGUF_Q4_K
  | 14 => (256, 210) -- kGGUF_Q6_K
  | 15 => (256, 292) -- kGGUF_Q8_K
  | 16 => (1, 1)     -- kInt8
  | 17 => (1, 2)     -- kInt16
  | 18 => (1, 4)     -- kInt32
  | 19 => (128, 72)  -- kGGUF_Q4_0_4_4
  | 20 => (256, 144) -- kGGUF_Q4_0_4_8
  | 22 => (128, 136) -- kGGUF_Q8_0_4_4
  | 23 => (256, 110) -- kGGUF_Q3_K
  | 24 => (256, 84)  -- kGGUF_Q2_K
  | 26 => (256, 66)  -- kGGUF_IQ2_XXS
  | 129 => (1, 1)    -- kUInt8
  | 130 => (1, 2)    -- kUInt16
  | 131 => (1, 4)    -- kUInt32
  | 132 => (1, 8)    -- kInt64
  | 133 => (1, 8)    -- kUInt64
  | 134 => (1, 1)    -- kByte
  | 135 => (32, 17)  -- kMXFP4
  | 140 => (1, 1)    -- kInt8PerTensorSym
  | 142 => (1, 1)    -- kUInt8PerTensorSym
  | 144 => (1, 2)    -- kInt16PerTensorSym
  | 146 => (1, 2)    -- kUInt16PerTensorSym
  | 154 => (1, 2)    -- kUInt16PerTensorAsy
  | 156 => (1, 1)    -- kBool
  | 201 => (1, 8)    -- kComplexFloat32
  | 202 => (1, 16)   -- kComplexFloat64
  | _ => (1, 1)

/-- Number of elements of a shape (TensorStorage.cpp L45-46). -/
def numel (shape : List Nat) : Nat := shape.foldr (· * ·) 1

/-- Strides set by `TensorViewImpl::create(shape, storage)`, TensorViewImpl.cpp L92-98. -/
def rowStrides : List Nat → List Nat
  | [] => []
  | _ :: ds => numel ds :: rowStrides ds

/-- A tensor: a view (shape, strides, storage offset in elements) of a named storage.
TensorViewImpl.hpp L94-99, TensorStorage.hpp. `store` are the bytes of the storage, so
`tensor.bytes() = storage()->size_ = store.length` (TensorViewImpl.cpp L27). -/
structure Tensor where
  sname : List UInt8
  dtype : Nat
  shape : List Nat
  stride : List Nat
  off : Nat
  store : List UInt8
  deriving DecidableEq, Repr

/-- A parameter file: the entries in the iteration order of the `unordered_map`. -/
abbrev Params := List (List UInt8 × Tensor)

/-- `out_file.write(tensor.ptr<uint8_t>(), tensor.bytes())` (ParameterFile.cpp L270, L436):
`ptr` includes the storage offset (TensorViewImpl.hpp L75), `bytes` is the whole storage. -/
def outData (t : Tensor) : Res (List UInt8) :=
  rd t.store (t.off / (dtInfo t.dtype).1 * (dtInfo t.dtype).2) t.store.length

/-- Size of the storage created by `TensorStorage::create(shape, dtype)`, TensorStorage.cpp L37-50.
Dimensions outside `int32_t` or a count outside `size_t` are `ub`. An empty shape makes
`TensorViewImpl::create` write `stride_[-1]` (TensorViewImpl.cpp L93): `ub`. -/
def createSize (shape : List Nat) (dtype : Nat) : Res Nat :=
  if shape = [] ∨ (∃ d ∈ shape, 2 ^ 31 ≤ d) ∨ 2 ^ 64 ≤ numel shape * (dtInfo dtype).2 then .error .ub
  else if numel shape % (dtInfo dtype).1 ≠ 0 then .error .abort
  else .ok (numel shape / (dtInfo dtype).1 * (dtInfo dtype).2)

/-- `ParameterFile::push`, ParameterFile.cpp L28-34. -/
def push (ps : Params) (name : List UInt8) (t : Tensor) : Res Params :=
  if name ∈ ps.map (·.1) then .error .abort else .ok (ps ++ [(name, t)])

/-! ### Version 2 -/

/-- `ModelFileV2ParamsDescriptor`, schema/ModelFileV2.hpp L47-57: 352 packed bytes. -/
structure Desc where
  id : Nat
  ty : Nat
  size : Nat
  off : Nat
  shapeLen : Nat
  shape : List Nat
  name : List UInt8

def encInts : List Nat → List UInt8
  | [] => []
  | d :: ds => leBytes 4 d ++ encInts ds

def decInts : Nat → List UInt8 → List Nat
  | 0, _ => []
  | k + 1, bs => leVal (bs.take 4) :: decInts k (bs.drop 4)

def encDesc (d : Desc) : List UInt8 :=
  leBytes 4 d.id ++ (leBytes 4 d.ty ++ (leBytes 8 d.size ++ (leBytes 8 d.off ++
    (leBytes 8 d.shapeLen ++ (encInts d.shape ++ d.name)))))

def parseDesc (bs : List UInt8) : Desc :=
  let b1 := bs.drop 4
  let b2 := b1.drop 4
  let b3 := b2.drop 8
  let b4 := b3.drop 8
  let b5 := b4.drop 8
  { id := leVal (bs.take 4), ty := leVal (b1.take 4), size := leVal (b2.take 8),
    off := leVal (b3.take 8), shapeLen := leVal (b4.take 8), shape := decInts 16 (b5.take 64),
    name := b5.drop 64 }

/-- `ModelFileV2Descriptor`, schema/ModelFileV2.hpp L38-45: 532 packed bytes
(magic, version, model name, parameter count, descriptor offset). -/
def encHeader (num descOff : Nat) : List UInt8 :=
  leBytes 4 0x519A ++ (leBytes 4 2 ++ (List.replicate 512 0 ++ (leBytes 4 num ++ leBytes 8 descOff)))

structure Header where
  magic : Nat
  version : Nat
  num : Nat
  descOff : Nat

def parseHeader (bs : List UInt8) : Header :=
  let b1 := bs.drop 4
  let b2 := b1.drop 4
  let b3 := b2.drop 512
  { magic := leVal (bs.take 4), version := leVal (b1.take 4), num := leVal (b3.take 4),
    descOff := leVal ((b3.drop 4).take 8) }

/-- `std::string::c_str()` as seen by C functions; also `strnlen` on a field (ModelFileV2.hpp L56). -/
def cstr (s : List UInt8) : List UInt8 := s.takeWhile (· ≠ 0)

/-- `strncpy(dst, s, 255); dst[255] = 0`, ParameterFile.cpp L421-422. -/
def cNameField (s : List UInt8) : List UInt8 :=
  (cstr s).take 255 ++ List.replicate (256 - ((cstr s).take 255).length) 0

/-- First 16 dimensions, zero padded (descriptor zero-initialised), ParameterFile.cpp L400, L417-418. -/
def shapeField (s : List Nat) : List Nat := s.take 16 ++ List.replicate (16 - s.length) 0

/-- Descriptor loop of the V2 writer, ParameterFile.cpp L399-428. `pid i` is whatever the pointer
subtraction of L403 yields for entry `i`; the readers never use it. -/
def descsV2 (pid : Nat → Nat) : Nat → Nat → Params → List UInt8
  | _, _, [] => []
  | i, off, (n, t) :: ps =>
    encDesc ⟨pid i, t.dtype, t.store.length, off, t.shape.length, shapeField t.shape, cNameField n⟩
      ++ descsV2 pid (i + 1) (off + t.store.length) ps

/-- Data loop of both writers, ParameterFile.cpp L266-271, L432-437. -/
def dataOut : Params → Res (List UInt8)
  | [] => .ok []
  | (_, t) :: ps => do
    let d ← outData t
    let r ← dataOut ps
    pure (d ++ r)

/-- `ParameterFileIOImpl<kCPU, kV2>::write`, ParameterFile.cpp L376-440. -/
def writeV2 (pid : Nat → Nat) (ps : Params) : Res (List UInt8) := do
  let d ← dataOut ps
  pure (encHeader ps.length 532 ++ (descsV2 pid 0 (532 + ps.length * 352) ps ++ d))

/-- Loading of one tensor. mmap (ParameterFile.cpp L320-333): the storage points into the mapping.
not mmap (L361-369): a buffer of `sz` bytes is allocated and `parameter_size` bytes are read into
it, before the size check. -/
def loadV2 (mmap : Bool) (f : List UInt8) (d : Desc) (sz : Nat) : Res (List UInt8) :=
  if mmap then
    if d.size < sz then .error .abort else rd f d.off sz
  else
    if sz < d.size then .error .ub
    else do
      let bs ← rd f d.off d.size
      if d.size < sz then .error .abort else pure bs

/-- Body of the reader loops, ParameterFile.cpp L305-334 (mmap) and L352-371. -/
def entryV2 (mmap : Bool) (f : List UInt8) (d : Desc) : Res (List UInt8 × Tensor) :=
  if 16 < d.shapeLen then .error .abort
  else do
    let shape := d.shape.take d.shapeLen
    let sz ← createSize shape d.ty
    let bs ← loadV2 mmap f d sz
    pure (cstr d.name, ⟨cstr d.name, d.ty, shape, rowStrides shape, 0, bs⟩)

/-- Reader loop over descriptors `i, i+1, …, i+k-1`. -/
def loopV2 (mmap : Bool) (f : List UInt8) (base : Nat) : Nat → Nat → Params → Res Params
  | 0, _, acc => .ok acc
  | k + 1, i, acc => do
    let b ← rd f (base + i * 352) 352
    let e ← entryV2 mmap f (parseDesc b)
    let acc ← push acc e.1 e.2
    loopV2 mmap f base k (i + 1) acc

/-- `ParameterFileIOImpl<kCPU, kV2>::read`, ParameterFile.cpp L280-374. -/
def readV2 (mmap : Bool) (f : List UInt8) : Res Params := do
  let hb ← rd f 0 532
  let h := parseHeader hb
  if h.magic ≠ 0x519A then .error .abort
  else if h.version ≠ 2 then .error .abort
  else loopV2 mmap f h.descOff h.num 0 []

/-! ### Version 1 -/

/-- Size of the descriptor section, computed from the *storage* names, ParameterFile.cpp L214-221. -/
def descSizeV1 : Params → Nat
  | [] => 0
  | (_, t) :: ps => 4 + t.sname.length + 8 + 8 + 4 + descSizeV1 ps

/-- Descriptor loop of the V1 writer, which writes the *map keys*, ParameterFile.cpp L231-253. -/
def descsV1 : Nat → Params → List UInt8
  | _, [] => []
  | off, (n, t) :: ps =>
    leBytes 4 n.length ++ (n ++ (leBytes 8 t.store.length ++ (leBytes 8 off ++
      (leBytes 4 t.dtype ++ descsV1 (off + t.store.length) ps))))

/-- `ParameterFileIOImpl<kCPU, kV1>::write`, ParameterFile.cpp L204-274. -/
def writeV1 (ps : Params) : Res (List UInt8) := do
  let d ← dataOut ps
  pure (leBytes 4 20012 ++ (leBytes 8 (descSizeV1 ps) ++ (descsV1 (12 + descSizeV1 ps) ps ++ d)))

/-- One V1 descriptor. -/
structure DescV1 where
  name : List UInt8
  len : Nat
  off : Nat
  dtype : Nat

/-- Descriptor parsing loop, ParameterFile.cpp L92-118 and L156-181: `while (pos < end)`.
`lim` is the extent of the readable memory: the whole mapping in mmap mode, the section buffer
otherwise. `fuel` bounds the loop; each round advances `pos` by at least 24. -/
def parseV1 (f : List UInt8) (lim fin : Nat) : Nat → Nat → Res (List DescV1)
  | 0, _ => .ok []
  | fuel + 1, pos =>
    if fin ≤ pos then .ok []
    else do
      let nl ← rd (f.take lim) pos 4
      let n := leVal nl
      let name ← rd (f.take lim) (pos + 4) n
      let l ← rd (f.take lim) (pos + 4 + n) 8
      let o ← rd (f.take lim) (pos + 12 + n) 8
      let t ← rd (f.take lim) (pos + 20 + n) 4
      let rest ← parseV1 f lim fin fuel (pos + 24 + n)
      pure (⟨name, leVal l, leVal o, leVal t⟩ :: rest)

/-- Body of the V1 tensor loops, ParameterFile.cpp L120-134 (mmap), L186-203: the shape is
one-dimensional. mmap leaves the data in the mapping; otherwise `data_len` bytes are read into a
buffer of the storage size. -/
def entryV1 (mmap : Bool) (f : List UInt8) (d : DescV1) : Res (List UInt8 × Tensor) :=
  if 2 ^ 31 ≤ d.name.length then .error .abort
  else do
    let shape := [d.len / (dtInfo d.dtype).2 * (dtInfo d.dtype).1]
    let sz ← createSize shape d.dtype
    let bs ← (if mmap then rd f d.off sz
      else if sz < d.len then .error .ub
      else rd f d.off d.len)
    pure (d.name, ⟨d.name, d.dtype, shape, rowStrides shape, 0, bs⟩)

def loopV1 (mmap : Bool) (f : List UInt8) : List DescV1 → Params → Res Params
  | [], acc => .ok acc
  | d :: ds, acc => do
    let e ← entryV1 mmap f d
    let acc ← push acc e.1 e.2
    loopV1 mmap f ds acc

/-- `ParameterFileIOImpl<kCPU, kV1>::read`, ParameterFile.cpp L71-202. -/
def readV1 (mmap : Bool) (f : List UInt8) : Res Params := do
  let m ← rd f 0 4
  let s ← rd f 4 8
  if leVal m ≠ 20012 then .error .abort
  else do
    let fin := 12 + leVal s
    let ds ← parseV1 f (if mmap then f.length else fin) fin f.length 12
    loopV1 mmap f ds []

/-! ### The Python V2 writer, pymllm/mobile/convertor/model_file_v2.py -/

/-- An open binary file: content and position. -/
structure PyFile where
  buf : List UInt8
  pos : Nat

/-- `f.write(bs)` at the current position (the position never exceeds the size here). -/
def PyFile.write (p : PyFile) (bs : List UInt8) : PyFile :=
  { buf := p.buf.take p.pos ++ (bs ++ p.buf.drop (p.pos + bs.length)), pos := p.pos + bs.length }

def PyFile.seek (p : PyFile) (i : Nat) : PyFile := { p with pos := i }

/-- What the caller passes: name bytes, dtype id, shape, contiguous bytes. -/
structure PyTensor where
  name : List UInt8
  dtype : Nat
  shape : List Nat
  data : List UInt8

/-- `name_bytes.ljust(256, b"\0")[:256]`, model_file_v2.py L81-84. -/
def pyNameField (s : List UInt8) : List UInt8 := (s ++ List.replicate (256 - s.length) 0).take 256

/-- `ModelFileV2` object state. `descs` counts `len(self.v2_param_descriptor)`; `num` is
`v2_file_header.num_params`; `descOff` its `params_desc_offset`. -/
structure PyWriter where
  file : PyFile
  max : Nat
  descs : Nat
  num : Nat
  descOff : Nat

/-- `struct.pack` refuses values that do not fit their field, model_file_v2.py L85-99. -/
def pyDescOk (t : PyTensor) (off : Nat) (i : Nat) : Prop :=
  t.shape.length ≤ 16 ∧ (∀ d ∈ t.shape, d < 2 ^ 31) ∧ t.dtype < 2 ^ 32 ∧ t.data.length < 2 ^ 64 ∧
    off < 2 ^ 64 ∧ i < 2 ^ 32

instance (t : PyTensor) (off i : Nat) : Decidable (pyDescOk t off i) := by
  unfold pyDescOk; infer_instance

def pyDesc (t : PyTensor) (off i : Nat) : Desc :=
  ⟨i, t.dtype, t.data.length, off, t.shape.length, shapeField t.shape, pyNameField t.name⟩

/-- Constructor with `update_mode="Streaming"`, L103-139. -/
def pyStreamOpen (max : Nat) : PyWriter :=
  { file := ⟨List.replicate (532 + max * 352) 0, 532 + max * 352⟩, max, descs := 0, num := max,
    descOff := 532 }

/-- `streaming_write`, L141-187. `abort` = the Python exception. The assertion is
`len(descs) <= max`. -/
def pyStreamWrite (w : PyWriter) (t : PyTensor) : Res PyWriter :=
  if w.max < w.descs then .error .abort
  else if ¬ pyDescOk t w.file.pos w.descs then .error .abort
  else
    let off := w.file.pos
    let f1 := w.file.write t.data
    let f2 := (f1.seek (w.descOff + w.descs * 352)).write (encDesc (pyDesc t off w.descs))
    let f3 := f2.seek f2.buf.length
    .ok { w with file := f3, descs := w.descs + 1, num := w.descs + 1 }

/-- `finalize`, L263-267: leaves the position just after the header. -/
def pyFinalize (w : PyWriter) : PyWriter :=
  { w with file := (w.file.seek 0).write (encHeader w.num w.descOff) }

def pyStreamAll : PyWriter → List PyTensor → Res PyWriter
  | w, [] => .ok w
  | w, t :: ts => do let w ← pyStreamWrite w t; pyStreamAll w ts

/-- Constructor with `update_mode="Static"`: an empty file. -/
def pyStaticOpen : PyWriter := { file := ⟨[], 0⟩, max := 0, descs := 0, num := 0, descOff := 0 }

/-- Data loop of `static_write`, L207-246: appended data and the descriptors to be written. -/
def pyStaticData : PyFile → Nat → List PyTensor → Res (PyFile × List Desc)
  | p, _, [] => .ok (p, [])
  | p, i, t :: ts =>
    if ¬ pyDescOk t p.pos i then .error .abort
    else do
      let r ← pyStaticData (p.write t.data) (i + 1) ts
      pure (r.1, pyDesc t p.pos i :: r.2)

/-- Descriptor loop of `static_write`, L252-258. -/
def pyStaticDescs : PyFile → List Desc → PyFile
  | p, [] => p
  | p, d :: ds => pyStaticDescs ((p.seek (532 + d.id * 352)).write (encDesc d)) ds

/-- `static_write`, L189-261. (Descriptors are packed after all data is written; the exception for
unpackable values is raised here at the latest, so checking it in the data loop is the same
outcome.) -/
def pyStaticWrite (w : PyWriter) (ts : List PyTensor) : Res PyWriter := do
  let f0 := w.file.write (List.replicate (532 + ts.length * 352) 0)
  let r ← pyStaticData f0 0 ts
  let f2 := pyStaticDescs r.1 r.2
  pure { w with file := f2.seek f2.buf.length, descs := ts.length, num := ts.length, descOff := 532 }

end Verif.ParamFile
