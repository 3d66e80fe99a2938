import Verif.Prelude
import Mathlib.Data.List.Sort

/-!
# GPU tensor transport through the shared workspace (model)

Models `pymllm/orchestrator/cuda_ipc_transport.py`: the workspace allocator `MmItemMemoryPool`
(L176-333), its sync counters (`ShmSyncBuffer` L75-112, `_increment_sync_flag` L119-129), and the
proxy objects that carry one tensor from the sender to the receivers
(`CudaIpcTensorTransportProxy` L341-450, `_wrap_cuda_tensor` L588-616).

Not modelled: CUDA streams (`copy_(..., non_blocking=True)` is taken to have happened when the
statement is over), the float32 representation of the counters (exact below 2^24), POSIX errors
when a shared memory segment is created or opened, logging.
-/

namespace Verif.Ipc

/-- A tensor as its user sees it: dtype with its element size, shape, and the bytes of its elements
in row-major order. -/
structure Tsr where
  dtype : Nat
  esz : Nat
  shape : List Nat
  data : List UInt8
deriving DecidableEq, Repr

/-- `src.numel() * src.element_size()` (cuda_ipc_transport.py L247). -/
def Tsr.nbytes (t : Tsr) : Nat := t.shape.prod * t.esz

/-- A tensor object always has exactly as many bytes as its shape and dtype ask for. -/
def Tsr.WF (t : Tsr) : Prop := t.data.length = t.nbytes

/-- `torch.int8`, element size 1: the dtype of the workspace (cuda_ipc_transport.py L203-206). -/
def int8 : Nat := 0

/-- `MmItemMemoryChunk` (L137-154): `area = (start, stop)` and the sync counter, named by the
shared memory segment that holds it. Two live chunk objects never hold the same segment (proved:
`Inv.flags`), so comparing chunks by value is comparing them by identity. -/
structure Chunk where
  start : Nat
  stop : Nat
  flag : Nat
deriving DecidableEq, Repr

/-- `mem_size` (L144-146). -/
def Chunk.size (c : Chunk) : Nat := c.stop - c.start

/-- The attributes of `MmItemMemoryPool` (L198-212) together with the memory they denote:
`mem` is the workspace, `val` the value of every sync counter, `nseg` the number of shared memory
segments created so far (segment names are unique). `spool` is `_sync_pool` with the end of the
Python list first, so `pop()` takes the head. -/
structure Pool where
  size : Nat
  consumers : Nat
  avail : List Chunk
  occ : List Chunk
  spool : List Nat
  nseg : Nat
  val : Nat → Nat
  mem : Nat → UInt8

/-- `f[k] = v`. -/
def upd (f : Nat → Nat) (k v : Nat) : Nat → Nat := fun i => if i = k then v else f i

/-- The state lines L208-212 of `__init__` describe: one free chunk over the whole workspace, with
one fresh counter, nothing occupied, nothing in the pool of counters. (The order of those lines is
modelled separately, in `Bringup`.) -/
def Pool.init (size consumers : Nat) (mem : Nat → UInt8) : Pool where
  size := size
  consumers := consumers
  avail := [⟨0, size, 0⟩]
  occ := []
  spool := []
  nseg := 1
  val := fun _ => 0
  mem := mem

/-- `_new_sync_buffer` (L232-235) with `ShmSyncBuffer.__init__` (L84-92). -/
def newFlag (p : Pool) : Nat × Pool :=
  match p.spool with
  | f :: rest => (f, { p with spool := rest })
  | [] => (p.nseg, { p with nseg := p.nseg + 1, val := upd p.val p.nseg 0 })

/-- `_return_sync_buffer` (L237-239). -/
def returnFlag (p : Pool) (f : Nat) : Pool :=
  { p with val := upd p.val f 0, spool := f :: p.spool }

/-- The scan of `_get_available_chunk` (L248-252), one chunk. -/
def fitStep (needed : Nat) (best : Option Chunk) (c : Chunk) : Option Chunk :=
  if needed ≤ c.size then
    match best with
    | none => some c
    | some b => if c.size < b.size then some c else some b
  else best

/-- The scan of `_get_available_chunk` (L248-252): the smallest chunk that is large enough, the
first such in the list. -/
def bestFit (needed : Nat) (l : List Chunk) : Option Chunk := l.foldl (fitStep needed) none

/-- The remainder of a split chunk (L262-265). -/
def addRemainder (p : Pool) (lo hi : Nat) : Pool :=
  if lo < hi then
    let (f, p') := newFlag p
    { p' with avail := p'.avail ++ [⟨lo, hi, f⟩] }
  else p

/-- `_get_available_chunk` (L245-267). -/
def getChunk (p : Pool) (needed : Nat) : Option (Chunk × Pool) :=
  match bestFit needed p.avail with
  | none => none
  | some b =>
    let o : Chunk := ⟨b.start, b.start + needed, b.flag⟩
    some (o, addRemainder { p with occ := p.occ ++ [o], avail := p.avail.erase b } o.stop b.stop)

/-- One turn of the loop of `_recycle_chunks` (L307-313) with `try_to_recycle` (L156-168): the
counter has reached the number of consumers, so it is reset, handed back, and the chunk gets a
counter from the pool and becomes available; otherwise it stays occupied. -/
def recycleStep (s : Pool × List Chunk) (c : Chunk) : Pool × List Chunk :=
  if s.1.consumers ≤ s.1.val c.flag then
    let p1 := { s.1 with val := upd s.1.val c.flag 0 }
    let p2 := returnFlag p1 c.flag
    let (f, p3) := newFlag p2
    ({ p3 with avail := p3.avail ++ [⟨c.start, c.stop, f⟩] }, s.2)
  else (s.1, s.2 ++ [c])

/-- `_recycle_chunks` (L305-314). -/
def recycle (p : Pool) : Pool :=
  let r := p.occ.foldl recycleStep (p, [])
  { r.1 with occ := r.2 }

/-- One turn of the loop of `_merge_chunks` (L319-327); `merged` has its last element first. -/
def mergeStep (s : Pool × List Chunk) (c : Chunk) : Pool × List Chunk :=
  match s.2 with
  | prev :: rest =>
    if prev.stop = c.start then (returnFlag s.1 c.flag, ⟨prev.start, c.stop, prev.flag⟩ :: rest)
    else (s.1, c :: prev :: rest)
  | [] => (s.1, [c])

/-- The sort key: chunks by their start. -/
def startsBefore (a b : Chunk) : Prop := a.start ≤ b.start

instance : DecidableRel startsBefore := fun a b => inferInstanceAs (Decidable (a.start ≤ b.start))

/-- `sorted(self.available_chunks, key=lambda c: c.start)` (L319): Python's sort is stable, and so
is insertion sort; a stable sort is determined by its result. -/
def sortChunks (l : List Chunk) : List Chunk := l.insertionSort startsBefore

/-- `_merge_chunks` (L316-328). -/
def merge (p : Pool) : Pool :=
  let r := (sortChunks p.avail).foldl mergeStep (p, [])
  { r.1 with avail := r.2.reverse }

/-- The body of the recycler loop, under the lock (L296-298). The receivers' increments are
interleaved with it in the code: each counter is read once, so an increment falls before or after
the whole pass as it falls before or after that read, and increments of different counters
commute. -/
def tick (p : Pool) : Pool := merge (recycle p)

/-- Store bytes at an offset: `pool_slice.copy_(tensor.view(torch.int8).view(-1))` (L602). -/
def store (mem : Nat → UInt8) (start : Nat) (bs : List UInt8) : Nat → UInt8 :=
  fun a => if start ≤ a then (bs[a - start]?).getD (mem a) else mem a

/-- Read `len` bytes at an offset. -/
def load (mem : Nat → UInt8) (start len : Nat) : List UInt8 :=
  (List.range len).map (fun i => mem (start + i))

/-- How far a tensor has got on the sender's side. -/
inductive Stage
  | reserved   -- `get_slice_with_flag` returned a slice (L599)
  | filled     -- the tensor's bytes are in the slice (L602)
  | shipped    -- the proxy with the IPC handle is in the queue (L603-607, L381-396)
  | plain      -- `_share_cuda_()` failed: the proxy carries the slice itself (L397-403)
deriving DecidableEq, Repr

/-- One `CudaIpcTensorTransportProxy` with the consumers' copies of it. `orig` is the tensor that
was sent (a ghost, except for its shape and dtype, which the proxy stores, L391-392); `flag`,
`start` and `len` locate the slice (`sync_data_meta`, `storage_offset`, `shape`, L373, L385-390);
`got` lists what the consumers that have copied the data obtained, `acked` the consumers that have
also incremented the counter. -/
structure Parcel where
  orig : Tsr
  flag : Nat
  start : Nat
  len : Nat
  stage : Stage
  got : List (Nat × Tsr)
  acked : List Nat

/-- Sender, queue and receivers: the pool, the proxies made so far, and the tensors for which the
pool had no room and which were sent as plain CUDA IPC tensors (L608-613). -/
structure World where
  pool : Pool
  parcels : List Parcel
  overflow : List Tsr

/-- The world before the first tensor. -/
def World.init (size consumers : Nat) (mem : Nat → UInt8) : World :=
  ⟨Pool.init size consumers mem, [], []⟩

/-- What can happen next, in any order. -/
inductive Ev
  /-- the sender asks the pool for a slice (L599), under the pool lock -/
  | reserve (t : Tsr)
  /-- the sender copies the tensor into the slice (L602) -/
  | fill (i : Nat)
  /-- the sender builds the proxy and puts it into the queue; `ok` is the outcome of
  `_share_cuda_()` (L381-403) -/
  | ship (i : Nat) (ok : Bool)
  /-- a consumer maps the slice and copies it into a tensor of its own (L415-437), or, for a proxy
  without an IPC handle, takes the tensor it carries (L441-444) -/
  | copy (i : Nat) (c : Nat)
  /-- the same consumer increments the counter (L440) -/
  | ack (i : Nat) (c : Nat)
  /-- one pass of the recycler thread -/
  | tick
deriving Repr

/-- `get_slice_with_flag` and what `_wrap_cuda_tensor` does with the answer (L269-287, L599-613). -/
def reserve (w : World) (t : Tsr) : World :=
  match getChunk w.pool t.nbytes with
  | none => { w with overflow := w.overflow ++ [t] }
  | some (c, p) =>
    { w with pool := p,
             parcels := w.parcels ++ [⟨t, c.flag, c.start, c.stop - c.start, .reserved, [], []⟩] }

/-- The tensor `reconstruct_on_device` returns for a proxy (L411-450): with an IPC handle a tensor
of the recorded shape and dtype filled from the slice; without one, the `int8` slice the proxy
carries. -/
def rebuilt (mem : Nat → UInt8) (q : Parcel) : Tsr :=
  match q.stage with
  | .plain => ⟨int8, 1, [q.len], load mem q.start q.len⟩
  | _ => ⟨q.orig.dtype, q.orig.esz, q.orig.shape, load mem q.start q.len⟩

/-- One event. An event that is not possible in the state is `none`. -/
def step (w : World) : Ev → Option World
  | .reserve t => some (reserve w t)
  | .fill i =>
    match w.parcels[i]? with
    | none => none
    | some q =>
      if q.stage = .reserved then
        some { w with pool := { w.pool with mem := store w.pool.mem q.start q.orig.data },
                      parcels := w.parcels.set i { q with stage := .filled } }
      else none
  | .ship i ok =>
    match w.parcels[i]? with
    | none => none
    | some q =>
      if q.stage = .filled then
        some { w with parcels := w.parcels.set i { q with stage := if ok then .shipped else .plain } }
      else none
  | .copy i c =>
    match w.parcels[i]? with
    | none => none
    | some q =>
      if (q.stage = .shipped ∨ q.stage = .plain) ∧ c < w.pool.consumers ∧ c ∉ q.got.map Prod.fst then
        some { w with parcels := w.parcels.set i { q with got := q.got ++ [(c, rebuilt w.pool.mem q)] } }
      else none
  | .ack i c =>
    match w.parcels[i]? with
    | none => none
    | some q =>
      if q.stage = .shipped ∧ c ∈ q.got.map Prod.fst ∧ c ∉ q.acked then
        some { w with pool := { w.pool with val := upd w.pool.val q.flag (w.pool.val q.flag + 1) },
                      parcels := w.parcels.set i { q with acked := q.acked ++ [c] } }
      else none
  | .tick => some { w with pool := tick w.pool }

/-- Reachable worlds: any interleaving of the sender, the recycler and the consumers. -/
inductive Reach (size consumers : Nat) (mem : Nat → UInt8) : World → Prop
  | init : Reach size consumers mem (World.init size consumers mem)
  | step {w w'} (e : Ev) : Reach size consumers mem w → (∀ t, e = .reserve t → t.WF) →
      step w e = some w' → Reach size consumers mem w'

end Verif.Ipc
