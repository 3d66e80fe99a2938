/-
Model of the KV-cache file system ZenFS and its address arithmetic.
Source: /repo/mllm/engine/prefix_cache/ZenFS.cpp, TLB.cpp, Allocator.cpp.

Simplifications: blob contents are not modelled (only byte ranges); a bitmap of 64-bit words is
the list of its bits, index `64*word + bit` (`true` = free); mmap/file creation always succeeds;
`page_bits + lane_bits ≤ 30` (at 31, `1 << 31` overflows `int`, ZenFS.cpp L327).
-/
namespace Verif.ZenFS

/-- `vp_addr_t` is `uint32_t`, TLB.hpp L22. -/
def addrSpace : Nat := 2 ^ 32

/-- `INVALID_VP_ADDR`, TLB.hpp L18; `(vp_addr_t)-1` in ZenFS.cpp L565/L567/L716. -/
def invalid : Nat := 2 ^ 32 - 1

/-- The options that matter here (`ZenFileSystemOptions`, ZenFS.hpp L119-130). `ele` is
`per_k_token_ele` (= `per_v_token_ele`, checked ZenFS.cpp L319), `bytes`/`lanes` describe the dtype,
`disk` is `mmap_type == kFile`. -/
structure Geo where
  pageBits : Nat
  laneBits : Nat
  ele : Nat
  bytes : Nat
  lanes : Nat
  disk : Bool
deriving Repr, DecidableEq

/-- Number of token slots per blob: `1 << (page_bits + lane_bits)`, ZenFS.cpp L327. -/
def Geo.slots (g : Geo) : Nat := 2 ^ (g.pageBits + g.laneBits)

/-- `per_kv_token_mem_size_`, ZenFS.cpp L297. -/
def Geo.per (g : Geo) : Nat := g.bytes * g.ele / g.lanes

/-- Bytes of one blob: ZenFS.cpp L646-647 and L680-681; for blob 0 the tensor of L331-333. -/
def Geo.blobBytes (g : Geo) : Nat := g.slots * g.ele * g.bytes / g.lanes

/-- `getBlobAddr`, TLB.cpp L7-10. -/
def blobOf (g : Geo) (a : Nat) : Nat := a >>> (g.pageBits + g.laneBits)

/-- `getPageAddr`, TLB.cpp L12-15. -/
def pageOf (g : Geo) (a : Nat) : Nat := (a >>> g.laneBits) &&& (2 ^ g.pageBits - 1)

/-- `getLaneAddr`, TLB.cpp L17-20. -/
def laneOf (g : Geo) (a : Nat) : Nat := a &&& (2 ^ g.laneBits - 1)

/-- Offset computed by `access`, ZenFS.cpp L630. -/
def accessOff (g : Geo) (a : Nat) : Nat := (pageOf g a * 2 ^ g.laneBits + laneOf g a) * g.per

/-- Offset computed by `hintsPrefetch`/`hintsPurge`, ZenFS.cpp L534-536 and L555-557. -/
def hintOff (g : Geo) (a : Nat) : Nat := pageOf g a * g.per + laneOf g a * g.per

/-- Bitmap length of blob 0, of anonymous blobs and of recovered blobs:
64 × `(total_bits + 64 - 1) / 64`, ZenFS.cpp L327-328, L674-675, L494-495. -/
def Geo.bitsAnon (g : Geo) : Nat := 64 * ((g.slots + 64 - 1) / 64)

/-- Bitmap length of disk blobs: `uint64_count = (total_bits + sizeof(uint64_t) - 1) / sizeof(uint64_t)`
words, ZenFS.cpp L640-641 (divides by 8, not by 64). -/
def Geo.bitsDisk (g : Geo) : Nat := 64 * ((g.slots + 8 - 1) / 8)

/-- `blob_`: bitmaps of blobs `0, 1, ...`; ids are consecutive because a new blob gets id
`blob_.size()` (ZenFS.cpp L331, L656, L689) and blobs are never removed. -/
structure FS where
  geo : Geo
  blobs : List (List Bool)
deriving Repr, DecidableEq

/-- `initialize`, ZenFS.cpp L295-338. -/
def initFS (g : Geo) : FS := { geo := g, blobs := [List.replicate g.bitsAnon true] }

/-- The address built in `_findFreeAddrInBlob`, ZenFS.cpp L712 (`uint32_t` shift wraps). -/
def mkAddr (g : Geo) (blob idx : Nat) : Nat :=
  ((blob <<< (g.laneBits + g.pageBits)) % addrSpace) ||| idx

/-- Search of the first set bit of one bitmap (L707-710: first non-zero word, then count trailing
zeros, i.e. the lowest set index). -/
def firstFree (b : List Bool) : Option Nat := b.findIdx? (· = true)

/-- `_findFreeAddrInBlob`, ZenFS.cpp L705-717. -/
def findFreeIn (s : FS) (f : Nat) : Option (FS × Nat) :=
  match s.blobs[f]? with
  | none => none
  | some b =>
    match firstFree b with
    | none => none
    | some i => some ({ s with blobs := s.blobs.set f (b.set i false) }, mkAddr s.geo f i)

/-- One scan over `blob_` in iteration order `ord`, ZenFS.cpp L564-568 / L585-589. An address equal
to `(vp_addr_t)-1` is taken for a failure although its bit has been cleared. -/
def scan (s : FS) : List Nat → FS × Option Nat
  | [] => (s, none)
  | f :: fs =>
    match findFreeIn s f with
    | none => scan s fs
    | some (s', a) => if a ≠ invalid then (s', some a) else scan s' fs

/-- `_createBlobOnDisk` / `_createBlobOnAnonymousFile`, ZenFS.cpp L638-703. -/
def createBlob (s : FS) : FS :=
  { s with blobs := s.blobs ++
      [List.replicate (if s.geo.disk then s.geo.bitsDisk else s.geo.bitsAnon) true] }

/-- `malloc`, ZenFS.cpp L563-593. `ord` is the iteration order of the `unordered_map` in the first
scan and `ord'` in the second one (after the new blob exists); `none` is the `MLLM_ERROR_EXIT`. -/
def malloc (s : FS) (ord ord' : List Nat) : FS × Option Nat :=
  match scan s ord with
  | (s', some a) => (s', some a)
  | (s', none) => scan (createBlob s') ord'

/-- `free`, ZenFS.cpp L595-614. The bitmap index is the *lane* address only. -/
def free (s : FS) (a : Nat) : FS :=
  match s.blobs[blobOf s.geo a]? with
  | none => s
  | some b =>
    if laneOf s.geo a < b.length then
      { s with blobs := s.blobs.set (blobOf s.geo a) (b.set (laneOf s.geo a) true) }
    else s

/-- `access`, ZenFS.cpp L616-636: `some (blob, offset)` for a pointer into that blob, `none` for
`nullptr`. -/
def access (s : FS) (a : Nat) : Option (Nat × Nat) :=
  if blobOf s.geo a < s.blobs.length then some (blobOf s.geo a, accessOff s.geo a) else none

/-- Byte range `(blob, offset, length)` a hint acts on, ZenFS.cpp L521-561 with L130-151. Blob 0 is
`kInMemory`, for which the hints do nothing (L527, L548); so does an out-of-range request. -/
def hint (s : FS) (a : Nat) : Option (Nat × Nat × Nat) :=
  if blobOf s.geo a < s.blobs.length ∧ blobOf s.geo a ≠ 0 ∧
      hintOff s.geo a + s.geo.per ≤ s.geo.blobBytes then
    some (blobOf s.geo a, hintOff s.geo a, s.geo.per)
  else none

/-- `finalize` followed by `recover`, ZenFS.cpp L340-394 and L396-519: geometry and blobs come back
from `index.json`, but every bitmap is re-initialised to "all free" (L493-496). -/
def recover (s : FS) : FS :=
  { s with blobs := s.blobs.map (fun _ => List.replicate s.geo.bitsAnon true) }

/-- Client operations with the hash-map iteration orders chosen by the environment. -/
inductive Op where
  | malloc (ord ord' : List Nat)
  | free (a : Nat)
deriving Repr, DecidableEq

/-- A file system together with the addresses handed out and not yet freed (ghost state). -/
structure St where
  fs : FS
  live : List Nat
deriving Repr, DecidableEq

/-- One operation; the result of `malloc` is returned. -/
def step (s : St) : Op → St × Option Nat
  | .malloc o o' =>
    match malloc s.fs o o' with
    | (fs, some a) => ({ fs := fs, live := a :: s.live }, some a)
    | (fs, none) => ({ s with fs := fs }, none)
  | .free a => ({ fs := free s.fs a, live := s.live.erase a }, none)

/-- `PrefixCacheAllocator` on one device, Allocator.cpp L50-61, with its `TLB` (TLB.cpp L22-33):
`emplace` keeps an existing entry. A pointer is a `(blob, offset)` pair. -/
structure Alloc where
  fs : FS
  tlb : List (Nat × Option (Nat × Nat))

/-- `TLB::lookup`, TLB.cpp L26-33 (a stored null pointer is a null pointer). -/
def Alloc.physicalAddr (s : Alloc) (a : Nat) : Option (Nat × Nat) := (s.tlb.lookup a).join

/-- `PrefixCacheAllocator::alloc`, Allocator.cpp L50-54; `TLB::insert`, TLB.cpp L22. -/
def Alloc.alloc (s : Alloc) (o o' : List Nat) : Alloc × Option Nat :=
  match malloc s.fs o o' with
  | (fs, none) => ({ s with fs := fs }, none)
  | (fs, some a) =>
    ({ fs := fs,
       tlb := if (s.tlb.lookup a).isSome then s.tlb else (a, access fs a) :: s.tlb }, some a)

/-- `PrefixCacheAllocator::free`, Allocator.cpp L58-61; `TLB::remove`, TLB.cpp L24. -/
def Alloc.free (s : Alloc) (a : Nat) : Alloc :=
  { fs := ZenFS.free s.fs a, tlb := s.tlb.filter (fun x => x.1 ≠ a) }

end Verif.ZenFS
