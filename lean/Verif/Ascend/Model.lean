import Verif.Prelude
/-!
The Ascend device-memory pool and the tensor allocator on top of it:
* mllm/backends/ascend/memory/AscendMemoryPool.{hpp,cpp}, MemoryBlock.hpp
* mllm/backends/ascend/memory/AscendMemoryManager.cpp
* mllm/backends/ascend/AscendAllocator.cpp

Simplifications: an address is a natural number (the pool does not wrap around the 64-bit address space);
histogram and waste statistics, logging and the text of `printStats` are left out, the four call counters and
the two byte counters are kept.
-/
namespace Verif.Ascend

/-- MemoryBlock.hpp L11-19. -/
structure Block where
  id : Int
  size : Nat
  req : Nat
  addr : Nat
  seq : Nat
  reuse : Nat
  deriving DecidableEq, Repr

/-- AscendMemoryPool.hpp L33-55.  The two hash maps are lists in their current iteration order. -/
structure Pool where
  base : Nat
  cur : Nat
  remain : Int
  poolSize : Nat
  next : Nat
  used : List Block
  free : List Block
  allocs : Nat
  frees : Nat
  reuses : Nat
  news : Nat
  reqBytes : Nat
  allocBytes : Nat
  deriving DecidableEq, Repr

/-- The constructor (AscendMemoryPool.cpp L16-33); `base = none` when `aclrtMalloc` failed. -/
def Pool.new (base : Option Nat) (size : Nat) : Pool :=
  match base with
  | some b => ⟨b, b, size, size, 0, [], [], 0, 0, 0, 0, 0, 0⟩
  | none => ⟨0, 0, 0, 0, 0, [], [], 0, 0, 0, 0, 0, 0⟩

/-- L54: `size_t align_size = ((size + 31) & ~31) + 32` for a `uint32_t size`: all operations are on 32-bit
unsigned numbers, so they wrap. -/
def alignSize (size : Nat) : Nat := ((size + 31) % 2 ^ 32 / 32 * 32 + 32) % 2 ^ 32

/-- `int block_id = generateBlocksId()` (L47-49, L105): a 64-bit counter stored in a 32-bit `int`. -/
def toInt32 (n : Nat) : Int := ((n : Int) + 2 ^ 31) % 2 ^ 32 - 2 ^ 31

/-- `unordered_map::insert`: nothing happens when the key exists. -/
def ins (l : List Block) (b : Block) : List Block := if l.any (fun x => decide (x.id = b.id)) then l else b :: l

/-- `unordered_map::erase`. -/
def del (l : List Block) (id : Int) : List Block := l.filter (fun x => decide (x.id ≠ id))

/-- `SIZE_MAX`. -/
def sizeMax : Nat := 18446744073709551615

/-- The best-fit loop (L70-80) over the free blocks in iteration order `ord`; the second component is
`best_fit_size`. -/
def bestLoop (align : Nat) : List Block → Option Block × Nat → Option Block × Nat
  | [], acc => acc
  | b :: rest, acc =>
    if align ≤ b.size then
      if b.size < acc.2 then bestLoop align rest (some b, b.size) else bestLoop align rest acc
    else bestLoop align rest acc

/-- `remain_size_ > align_size` (L104): the signed left side is converted to an unsigned 64-bit number. -/
def hasRoom (remain : Int) (align : Nat) : Bool := decide ((align : Int) < remain % 2 ^ 64)

/-- `(x + 63) & ~63` (L106). -/
def up64 (x : Nat) : Nat := (x + 63) / 64 * 64

/-- The counters at the head of `allocateBlock` (L56-58). -/
def Pool.count (p : Pool) (size : Nat) : Pool :=
  { p with allocs := p.allocs + 1, reqBytes := p.reqBytes + size, allocBytes := p.allocBytes + alignSize size }

/-- The reuse branch (L82-102). -/
def Pool.reuse (p : Pool) (size : Nat) (b : Block) : Pool :=
  let b' := { b with req := size, seq := p.allocs, reuse := b.reuse + 1 }
  { p with used := ins p.used b', free := del p.free b.id, reuses := p.reuses + 1 }

/-- The fresh branch (L104-117). -/
def Pool.fresh (p : Pool) (size : Nat) : Pool :=
  let a := alignSize size
  let b : Block := ⟨toInt32 p.next, a, size, up64 p.cur, p.allocs, 0⟩
  { p with
    next := p.next + 1
    used := ins p.used b
    remain := p.remain - ((up64 p.cur : Int) - p.cur) - a
    cur := up64 p.cur + a
    news := p.news + 1 }

/-- `allocateBlock` (L51-149): the pool afterwards and the `block_id` written, `none` when it is left alone.
`ord` is the iteration order of the free map. -/
def Pool.alloc (p : Pool) (ord : List Block) (size : Nat) : Pool × Option Int :=
  let q := p.count size
  match (bestLoop (alignSize size) ord (none, sizeMax)).1 with
  | some b => (q.reuse size b, some b.id)
  | none =>
    if hasRoom q.remain (alignSize size) then (q.fresh size, some (toInt32 q.next))
    else (q, none)

def find (l : List Block) (id : Int) : Option Block := l.find? (fun x => decide (x.id = id))

/-- `freeBlock` (L151-167). -/
def Pool.freeBlock (p : Pool) (id : Int) : Pool :=
  if id < 0 then p
  else match find p.used id with
    | some b => { p with free := ins p.free b, used := del p.used id, frees := p.frees + 1 }
    | none => p

/-- `getBlockPtr` (L169-183): `none` = the caller's pointer is left alone. -/
def Pool.ptr (p : Pool) (id : Int) : Option Nat :=
  if id < 0 then none else (find p.used id).map (·.addr)

/-! ### The allocator, on one device, used by any number of threads -/

/-- Where a storage object is in its life.  `got`, `mapped` and `freeing` are the points between the critical
sections of `AscendAllocator::alloc` (AscendAllocator.cpp L23-47) and `free` (L57-80); `work` is an operator's
workspace block, allocated and freed at the pool directly (e.g. ops/AscendSiLUOp.cpp L89-110). -/
inductive Phase where
  | idle
  | got (id : Int) (size : Nat)
  | mapped (id : Int) (addr size : Nat)
  | live (addr size : Nat)
  | freeing (id : Int)
  | work (id : Int) (addr size : Nat)
  deriving DecidableEq, Repr

structure Sys where
  pool : Pool
  /-- `storage_to_block_id_` -/
  map : Nat → Option Int
  ph : Nat → Phase

def Sys.set (s : Sys) (i : Nat) (x : Phase) : Sys := { s with ph := fun j => if j = i then x else s.ph j }

/-- What a thread does next with storage `i` (any size, a `size_t`); `Step s e s'` is one critical section. -/
inductive Act where
  | alloc (size : Nat)      -- L26: allocateBlock; the argument is a `uint32_t`
  | lookup                  -- L32: getBlockPtr
  | record                  -- L40-41
  | free                    -- L64-69
  | release                 -- L73
  | workAlloc (size : Nat)
  | workFree
  deriving DecidableEq, Repr

inductive Step : Sys → Nat → Act → Sys → Prop
  | alloc {s i size ord p id} : s.ph i = .idle → ord.Perm s.pool.free →
      s.pool.alloc ord (size % 2 ^ 32) = (p, some id) → 0 ≤ id →
      Step s i (.alloc size) ({ s with pool := p }.set i (.got id size))
  | allocFail {s i size ord p r} : s.ph i = .idle → ord.Perm s.pool.free →
      s.pool.alloc ord (size % 2 ^ 32) = (p, r) → (∀ id ∈ r, id < 0) →
      Step s i (.alloc size) { s with pool := p }
  | lookup {s i id size addr} : s.ph i = .got id size → s.pool.ptr id = some addr →
      Step s i .lookup (s.set i (.mapped id addr size))
  | record {s i id size addr} : s.ph i = .mapped id addr size →
      Step s i .record ({ s with map := fun a => if a = addr then some id else s.map a }.set i (.live addr size))
  | free {s i addr size id} : s.ph i = .live addr size → s.map addr = some id →
      Step s i .free ({ s with map := fun a => if a = addr then none else s.map a }.set i (.freeing id))
  | freeUnknown {s i addr size} : s.ph i = .live addr size → s.map addr = none → Step s i .free (s.set i .idle)
  | release {s i id} : s.ph i = .freeing id →
      Step s i .release ({ s with pool := s.pool.freeBlock id }.set i .idle)
  | workAlloc {s i size ord p id addr} : s.ph i = .idle → ord.Perm s.pool.free →
      s.pool.alloc ord (size % 2 ^ 32) = (p, some id) → p.ptr id = some addr →
      Step s i (.workAlloc size) ({ s with pool := p }.set i (.work id addr size))
  | workFree {s i id addr size} : s.ph i = .work id addr size →
      Step s i .workFree ({ s with pool := s.pool.freeBlock id }.set i .idle)

def Sys.init (p : Pool) : Sys := ⟨p, fun _ => none, fun _ => .idle⟩

/-! ### Several devices -/

/-- AscendMemoryManager.hpp L33 and the thread's current device. -/
structure Mgr where
  pools : List Pool
  dev : Nat
  map : Nat → Option Int

/-- `createMemoryPool` (AscendMemoryManager.cpp L20-33): one pool per device; the loop leaves the last device
current.  `bases i` is what `aclrtMalloc` returned on device `i`. -/
def Mgr.create (n size : Nat) (bases : Nat → Option Nat) : Mgr :=
  ⟨(List.range n).map (fun i => Pool.new (bases i) size), n - 1, fun _ => none⟩

/-- `AscendAllocator::alloc` through `getMemoryPool()` (AscendMemoryManager.cpp L43-55); the iteration order is
the list's.  `none` = it returned false or exited. -/
def Mgr.alloc (m : Mgr) (size : Nat) : Option (Mgr × Nat) :=
  match m.pools[m.dev]? with
  | none => none
  | some p =>
    match p.alloc p.free (size % 2 ^ 32) with
    | (_, none) => none
    | (p', some id) =>
      match p'.ptr id with
      | none => none
      | some a => some ({ m with pools := m.pools.set m.dev p', map := fun x => if x = a then some id else m.map x }, a)

/-- `AscendAllocator::free`. -/
def Mgr.free (m : Mgr) (addr : Nat) : Option Mgr :=
  match m.pools[m.dev]?, m.map addr with
  | some p, some id => some { m with pools := m.pools.set m.dev (p.freeBlock id), map := fun x => if x = addr then none else m.map x }
  | some _, none => some m
  | none, _ => none

end Verif.Ascend
