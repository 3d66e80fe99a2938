import Mathlib.Data.Nat.Log
/-
Model of the buddy memory pool.
Source: /repo/mllm/engine/BuddyMemPool.{hpp,cpp}, /repo/mllm/backends/cpu/CPUAllocator.cpp L56-59,
/repo/mllm/engine/MemoryManager.cpp L30-88.

Simplifications:
* A block pointer is its offset from the segment base (`ptr - segment->ptr`); the struct field
  `offset` is never read by the pool's decisions and is left out.
* `_log2_ceil` (floating point `ceil(log2(size))`, L12-15) is the exact ceiling logarithm; they agree
  for sizes below 2^48.
* Sizes are `Nat`; `used -= size` truncates at 0 (the invariant shows it never has to).
* Each operation runs under `mutex_`, so operations are atomic; `expandBuddySegment` runs outside of
  the lock (L179) and the race this allows is not modelled.
-/
namespace Verif.Buddy

/-- `BuddyMemBlock`, BuddyMemPool.hpp L24-31. -/
structure Block where
  off : Nat
  size : Nat
  order : Nat
deriving DecidableEq, Repr

/-- `BuddyMemSegment` (hpp L33-39) with its free lists (`segment_blocks`, hpp L57); `free k` is the
list of order `k` (the code's index `k - min_order`). -/
structure Seg where
  cap : Nat
  used : Nat
  minO : Nat
  maxO : Nat
  free : Nat → List Block

/-- Replace one free list. -/
def setF (f : Nat → List Block) (k : Nat) (l : List Block) : Nat → List Block :=
  fun j => if j = k then l else f j

/-- A fresh segment: one free block of the whole capacity. Constructor L25-51 and L193-218. -/
def newSeg (cap minO maxO : Nat) : Seg :=
  { cap := cap, used := 0, minO := minO, maxO := maxO,
    free := fun k => if k = maxO then [⟨0, cap, maxO⟩] else [] }

/-- The search for a usable order, L137-144: first non-empty list among `n` orders from `k`. -/
def findOrder (f : Nat → List Block) : Nat → Nat → Option Nat
  | 0, _ => none
  | n + 1, k => if f k = [] then findOrder f n (k + 1) else some k

/-- The split loop, L150-166; runs `n = block order - wanted order` times. -/
def split : Nat → (Nat → List Block) → Block → (Nat → List Block) × Block
  | 0, f, b => (f, b)
  | n + 1, f, b =>
    let h := b.size / 2
    let b' : Block := ⟨b.off, h, b.order - 1⟩
    let buddy : Block := ⟨b.off + h, h, b.order - 1⟩
    split n (setF f (b.order - 1) (f (b.order - 1) ++ [buddy])) b'

/-- One iteration of the segment loop of `allocBuddy`, L115-173; `none` = try the next segment. -/
def allocSeg (s : Seg) (req : Nat) : Option (Seg × Block) :=
  let required := max req (2 ^ s.minO)
  if required > s.cap - s.used then none
  else
    let order := max (Nat.clog 2 required) s.minO
    match findOrder s.free (s.maxO + 1 - order) order with
    | none => none
    | some k =>
      match s.free k with
      | [] => none
      | b :: tl =>
        let r := split (b.order - order) (setF s.free k tl) b
        some ({ s with free := r.1, used := s.used + r.2.size }, r.2)

/-- The coalescing loop of `freeBuddy`, L198-228. The first argument bounds the number of merges
(orders left up to `max_order`); it is never exhausted with work left (`coalesce_top`). -/
def coalesce : Nat → (Nat → List Block) → Block → (Nat → List Block)
  | 0, f, b => setF f b.order (f b.order ++ [b])
  | n + 1, f, b =>
    match (f b.order).find? (fun c => c.off == (b.off ^^^ 2 ^ b.order) && c.order == b.order) with
    | none => setF f b.order (f b.order ++ [b])
    | some c =>
      let b' : Block := if b.off < c.off then ⟨b.off, b.size * 2, b.order + 1⟩
        else ⟨c.off, b.size * 2, b.order + 1⟩
      coalesce n (setF f b.order ((f b.order).erase c)) b'

/-- `freeBuddy`, L186-229. -/
def freeSeg (s : Seg) (b : Block) : Seg :=
  { s with used := s.used - b.size, free := coalesce (s.maxO + 1 - b.order) s.free b }

/-- Options of the pool (hpp L41-54). -/
structure Opts where
  firstCap : Nat
  minO : Nat
  maxO : Nat
  cacheOn : Bool
  cacheSet : List Nat

/-- The pool: segments sorted by base address (`std::map`, hpp L56), the uuid table `st_` (uuid ↦
segment base and block), and the object cache (requested key ↦ blocks). -/
structure Pool where
  opts : Opts
  segs : List (Nat × Seg)
  st : List (Nat × Nat × Block)
  cache : List (Nat × Nat × Block)

/-- Constructor, L22-52 (after the assertion of L35); `base` is what the OS returned. -/
def newPool (o : Opts) (base : Nat) : Pool :=
  { opts := o, segs := [(base, newSeg o.firstCap o.minO o.maxO)], st := [], cache := [] }

/-- First segment (in address order) that serves the request, L112-173. -/
def trySegs : List (Nat × Seg) → Nat → Option (List (Nat × Seg) × Nat × Block)
  | [], _ => none
  | (base, s) :: ss, req =>
    match allocSeg s req with
    | some (s', b) => some ((base, s') :: ss, base, b)
    | none => (trySegs ss req).map (fun r => ((base, s) :: r.1, r.2))

/-- Insertion into the `std::map` of segments (an existing key is kept, `insert` semantics). -/
def insertSeg (base : Nat) (s : Seg) : List (Nat × Seg) → List (Nat × Seg)
  | [] => [(base, s)]
  | (b, t) :: ss =>
    if base < b then (base, s) :: (b, t) :: ss
    else if base = b then (b, t) :: ss
    else (b, t) :: insertSeg base s ss

/-- Largest segment (`previous_seg_cap`, L236-237). -/
def prevCap (p : Pool) : Nat := (p.segs.map (fun x => 2 ^ x.2.maxO)).foldl max 0

/-- `expandBuddySegment`, L232-268. `os = none` is an OS failure: `generalAlloc` returns
`ptr != nullptr` for the *address of* the pointer, which is never null (CPUAllocator.cpp L56-59), so
the failure is not noticed and a segment at address 0 is created. -/
def expand (p : Pool) (os : Option Nat) : Pool :=
  let cap := min (prevCap p * 2) (2 ^ 29)
  { p with segs := insertSeg (os.getD 0) (newSeg cap p.opts.minO (Nat.clog 2 cap)) p.segs }

/-- `allocBuddy`, L109-184, with the list of answers the OS gives to successive requests for a new
segment; `none`: still not served after all the answers. -/
def allocBuddy (p : Pool) (req : Nat) : List (Option Nat) → Option (Pool × Nat × Block)
  | [] => (trySegs p.segs req).map (fun r => ({ p with segs := r.1 }, r.2))
  | a :: os =>
    match trySegs p.segs req with
    | some r => some ({ p with segs := r.1 }, r.2)
    | none => allocBuddy (expand p a) req os

/-- `isInObjCache`, L298-301, with the option flag of L57/L74. -/
def cacheable (p : Pool) (req : Nat) : Bool := p.opts.cacheOn && p.opts.cacheSet.contains req

/-- `alloc`, L54-69: object cache (`allocObjCache`, L276-289) first, then the buddy segments;
registers the block under the storage's uuid. `req` is the aligned size (`allocSize`). -/
def alloc (p : Pool) (uuid req : Nat) (os : List (Option Nat)) : Option (Pool × Nat × Block) :=
  if cacheable p req then
    match p.cache.find? (fun x => x.1 == req) with
    | some x => some ({ p with cache := p.cache.erase x, st := (uuid, x.2) :: p.st }, x.2)
    | none =>
      (allocBuddy p req os).map (fun r => ({ r.1 with st := (uuid, r.2) :: r.1.st }, r.2))
  else (allocBuddy p req os).map (fun r => ({ r.1 with st := (uuid, r.2) :: r.1.st }, r.2))

/-- Apply `freeBuddy` to the segment with the given base. -/
def freeIn (base : Nat) (b : Block) : List (Nat × Seg) → List (Nat × Seg)
  | [] => []
  | (a, s) :: ss => if a = base then (a, freeSeg s b) :: ss else (a, s) :: freeIn base b ss

/-- `free`, L71-84: `req` is the same aligned size as at allocation. The object cache is keyed by the
*block* size (`freeObjCache`, L291-296). `none`: unknown uuid (`MLLM_ERROR_EXIT`). -/
def free (p : Pool) (uuid req : Nat) : Option Pool :=
  match p.st.find? (fun x => x.1 == uuid) with
  | none => none
  | some x =>
    if cacheable p req then
      some { p with cache := p.cache ++ [(x.2.2.size, x.2)], st := p.st.erase x }
    else some { p with segs := freeIn x.2.1 x.2.2 p.segs, st := p.st.erase x }

/-- `MemoryManager::alloc`, MemoryManager.cpp L30-58: big storages bypass the pool. `none` =
straight to the OS allocator. -/
def mmRoute (threshold req : Nat) : Option Nat := if req ≥ threshold then none else some req

end Verif.Buddy
