import Verif.Ipc.World

/-!
# Whole messages: nested multimodal inputs, transport modes, and bringing the pool up (model)

Models `TensorQueue.put` (shared_memory_queue.py, "Q L…"), `wrap_mm_inputs_for_ipc` /
`unwrap_mm_inputs_from_ipc` (cuda_ipc_transport.py, "U L…"), the receiving side in
scheduler_process.py ("S L…"), and `MmItemMemoryPool.__init__` with `TokenizerProcess._ensure_pool`
(tokenizer_process.py, "T L…").
-/

namespace Verif.Ipc

/-- Nested multimodal inputs with leaves of type `α`: dicts (keys in order), lists and tuples, and
anything else (numbers, strings, `None`), which every traversal returns as it is. -/
inductive Tree (α : Type) where
  | leaf (a : α)
  | other (n : Nat)
  | dict (keys : List Nat) (vals : List (Tree α))
  | seq (tuple : Bool) (items : List (Tree α))

/-- A tensor inside the inputs: on the GPU or not, and whether `tensor.view(torch.int8).view(-1)`
is possible (it is for contiguous tensors with at least one dimension; it raises for others). -/
structure Leaf where
  cuda : Bool
  viewable : Bool
  t : Tsr
deriving DecidableEq

/-- The same after wrapping. -/
inductive WLeaf where
  /-- a tensor shared through POSIX shared memory -/
  | cpu (x : Leaf)
  /-- `TransportProxyTensor` (U L457-540): unpickling maps the sender's memory -/
  | simple (x : Leaf)
  /-- `CudaIpcTensorTransportProxy` number `i` -/
  | proxy (x : Leaf) (i : Nat)
deriving DecidableEq

mutual
/-- The recursion that all four traversals share: dict values and sequence items in order, with a
state; `none` is an exception (U L577-585, L636-648, Q L263-275, L281-292). -/
def Tree.trav {σ α β : Type} (f : σ → α → Option (σ × β)) : σ → Tree α → Option (σ × Tree β)
  | s, .leaf a => (f s a).map (fun r => (r.1, .leaf r.2))
  | s, .other n => some (s, .other n)
  | s, .dict ks vs => (Tree.travs f s vs).map (fun r => (r.1, .dict ks r.2))
  | s, .seq t vs => (Tree.travs f s vs).map (fun r => (r.1, .seq t r.2))

def Tree.travs {σ α β : Type} (f : σ → α → Option (σ × β)) :
    σ → List (Tree α) → Option (σ × List (Tree β))
  | s, [] => some (s, [])
  | s, v :: vs =>
    match Tree.trav f s v with
    | none => none
    | some (s', x) => (Tree.travs f s' vs).map (fun r => (r.1, x :: r.2))
end

/-- `_make_tensors_shareable` (Q L257-275), the "default" mode: everything to CPU shared memory. -/
def shareDefault (x : Leaf) : WLeaf := .cpu { x with cuda := false }

/-- The world together with what the environment does: `env k` is what the recycler and the
consumers do at the `k`-th moment at which the sender (or the consumer that is being looked at)
can be interrupted, `share k` the outcome of `_share_cuda_()` at that moment. -/
structure Run where
  w : World
  k : Nat

/-- The events of other threads and processes; those that are not possible are skipped. -/
def runEnv (w : World) (evs : List Ev) : World := evs.foldl (fun w e => (step w e).getD w) w

/-- Let the environment act. -/
def Run.pause (env : Nat → List Ev) (r : Run) : Run := ⟨runEnv r.w (env r.k), r.k + 1⟩

/-- `_wrap_cuda_tensor` in pool mode (U L596-613), followed by `_share_cpu_tensors` for the tensors
it leaves alone (Q L278-292). Between asking for the slice, filling it, and exporting it, the
environment may act. -/
def wrapPool (env : Nat → List Ev) (share : Nat → Bool) (r : Run) (x : Leaf) :
    Option (Run × WLeaf) :=
  if x.cuda = false then some (r, .cpu x)
  else
    let r0 := r.pause env
    let i := r0.w.parcels.length
    match getChunk r0.w.pool x.t.nbytes with
    | none => some (⟨reserve r0.w x.t, r0.k⟩, .simple x)
    | some _ =>
      let r1 := Run.pause env ⟨reserve r0.w x.t, r0.k⟩
      if x.viewable then
        match step r1.w (.fill i) with
        | none => none
        | some w2 =>
          let r2 := Run.pause env ⟨w2, r1.k⟩
          match step r2.w (.ship i (share r2.k)) with
          | none => none
          | some w3 => some (⟨w3, r2.k⟩, .proxy x i)
      else none

/-- `_wrap_cuda_tensor` in the plain CUDA IPC mode (U L593-594), and `_share_cpu_tensors`. -/
def wrapSimple (x : Leaf) : WLeaf := if x.cuda then .simple x else .cpu x

/-- `_unwrap_recursive` on a leaf (U L637-641) in consumer `c`: a proxy is reconstructed, once
(`_reconstructed`, U L411-412), and acknowledged if it has an IPC handle (U L440); the other tensors are
returned as they are. -/
def unwrapLeaf (env : Nat → List Ev) (c : Nat) (r : Run) : WLeaf → Option (Run × Leaf)
  | .cpu x => some (r, x)
  | .simple x => some (r, x)
  | .proxy x i =>
    let r0 := r.pause env
    match r0.w.parcels[i]? with
    | none => none
    | some q =>
      match q.got.find? (fun g => g.1 = c) with
      | some g => some (r0, { x with t := g.2 })
      | none =>
        match step r0.w (.copy i c) with
        | none => none
        | some w1 =>
          let r1 := Run.pause env ⟨w1, r0.k⟩
          some (⟨(step r1.w (.ack i c)).getD r1.w, r1.k⟩, { x with t := rebuilt r0.w.pool.mem q })

/-! ### Bringing the pool up -/

/-- The attributes of a `MmItemMemoryPool` object. -/
inductive Attr
  | numConsumers | recycleInterval | lock | stop | memoryPool | availableChunks | occupiedChunks
  | syncPool | recycler
deriving DecidableEq, Repr

/-- A statement of `__init__`, as far as the attributes of `self` are concerned. -/
inductive Stmt
  | assign (a : Attr)
  | use (a : Attr)
deriving DecidableEq, Repr

/-- `MmItemMemoryPool.__init__` (U L198-219), statement by statement. `_new_sync_buffer()` (U L232-235)
begins by reading `self._sync_pool`. -/
def poolInit : List Stmt :=
  [.assign .numConsumers, .assign .recycleInterval, .assign .lock, .assign .stop,
   .assign .memoryPool,
   .use .syncPool,            -- self._new_sync_buffer(), L208
   .assign .availableChunks, .assign .occupiedChunks,
   .assign .syncPool,         -- L212
   .assign .recycler, .use .recycler]

/-- Running statements on an object whose assigned attributes are `s`: reading an attribute that
has not been assigned is an `AttributeError` (the class defines none of them). -/
def execStmts : List Stmt → List Attr → Option (List Attr)
  | [], s => some s
  | .assign a :: r, s => execStmts r (a :: s)
  | .use a :: r, s => if a ∈ s then execStmts r s else none

/-- Whether the constructor returns an object. -/
def poolInitOk : Bool := (execStmts poolInit []).isSome

inductive Mode
  | default | cudaIpc | cudaIpcPool
deriving DecidableEq, Repr

/-- The sender's state: its transport mode (T L87), which `_ensure_pool` also copies into the queue
(T L229-231, L245-247, L261-263), and whether it has a pool (T L90). -/
structure Sender where
  mode : Mode
  pool : Bool
deriving DecidableEq, Repr

/-- `_ensure_pool` (T L211-263), called for every request in pool mode (T L172-173). -/
def ensurePool (cudaAvailable : Bool) (s : Sender) : Sender :=
  if s.pool then s
  else if !cudaAvailable then { s with mode := .default }
  else if poolInitOk then { s with pool := true }
  else { s with mode := .default }

/-- Before a request is put into the queue (T L172-173). -/
def beforePut (cudaAvailable : Bool) (s : Sender) : Sender :=
  if s.mode = .cudaIpcPool then ensurePool cudaAvailable s else s

/-- `_unwrap_recursive` where there are no pool proxies: tensors are returned as they are (U L639-641). -/
def unproxy : WLeaf → Leaf
  | .cpu x => x
  | .simple x => x
  | .proxy x _ => x

/-- `TensorQueue.put` (Q L189-210) followed by the receiver's unwrapping (S L582-583), which depends on
the receiver's own mode: what the scheduler gets for the inputs `v`. In pool mode the pool is there
(`ensurePool`), or the effective mode is the plain one. -/
def sendDefault (v : Tree Leaf) : Option (Tree Leaf) :=
  (Tree.trav (fun (_ : Unit) x => some ((), shareDefault x)) () v).bind fun r =>
    (Tree.trav (fun (_ : Unit) y => some ((), unproxy y)) () r.2).map (·.2)

def sendSimple (v : Tree Leaf) : Option (Tree Leaf) :=
  (Tree.trav (fun (_ : Unit) x => some ((), wrapSimple x)) () v).bind fun r =>
    (Tree.trav (fun (_ : Unit) y => some ((), unproxy y)) () r.2).map (·.2)

/-- Pool mode: the sender wraps, the environment acts, consumer `c` unwraps. -/
def sendPool (env : Nat → List Ev) (share : Nat → Bool) (c : Nat) (w : World) (v : Tree Leaf) :
    Option (World × Tree Leaf) :=
  (Tree.trav (wrapPool env share) ⟨w, 0⟩ v).bind fun r =>
    (Tree.trav (unwrapLeaf env c) (r.1.pause env) r.2).map (fun x => (x.1.w, x.2))

/-- What the scheduler receives for a request, through the whole path with the sender in state `s`. -/
def send (cudaAvailable : Bool) (env : Nat → List Ev) (share : Nat → Bool) (c : Nat) (w : World)
    (s : Sender) (v : Tree Leaf) : Option (Sender × World × Tree Leaf) :=
  let s' := beforePut cudaAvailable s
  match s'.mode with
  | .default => (sendDefault v).map (fun x => (s', w, x))
  | .cudaIpc => (sendSimple v).map (fun x => (s', w, x))
  | .cudaIpcPool =>
    if s'.pool then (sendPool env share c w v).map (fun x => (s', x.1, x.2))
    else (sendSimple v).map (fun x => (s', w, x))

/-- Requests one after the other. -/
def sendAll (cudaAvailable : Bool) (env : Nat → List Ev) (share : Nat → Bool) (c : Nat) :
    World → Sender → List (Tree Leaf) → Option (List (Tree Leaf))
  | _, _, [] => some []
  | w, s, v :: vs =>
    match send cudaAvailable env share c w s v with
    | none => none
    | some (s', w', x) => (sendAll cudaAvailable env share c w' s' vs).map (x :: ·)

end Verif.Ipc
