import Verif.Runner.Props
/-
Model of the recurrent states of hybrid models in the model runner (C103, C104): restoring them on a prefix hit, the
snapshots taken after prefill, and the track slots that hold them.
Source: pymllm/orchestrator/model_runner_process.py (below "L…"), pymllm/mem_cache/memory_pool.py (`GDNPool`).
Everything else of the runner is `Verif.Runner`, with `Mode.hybrid` and the code's `fix = false`.

Simplifications (all definitions below):
* What a slot of the `GDNPool` holds is described by the tokens that the recurrent layers have read since the slot was
  zero: by C98 and C100 the state after a forward pass is a function of the state before and of the tokens read.
* As in `Verif.Runner`, a batch is run request by request, page size 1, no sliding window. The decode pass is the eager
  one (for CUDA graphs see `Verif.Graph`).
* The two dicts are association lists.
-/
namespace Verif.Hybrid
open Verif.PyRadix hiding St Step Reach
open Verif.PyPool hiding St Step Reach init
open Verif.Runner

/-- `dict.get`. -/
def get (d : List (Nat × Nat)) (k : Nat) : Option Nat := (d.find? fun p => p.1 == k).map (·.2)

/-- `dict.pop(k, None)`. -/
def pop (d : List (Nat × Nat)) (k : Nat) : List (Nat × Nat) := d.filter fun p => p.1 != k

/-- The runner with the pool of recurrent states: the slots, `_free_track_slots` (memory_pool.py L561),
`_rid_to_gdn_track_slot` and `_node_id_to_gdn_track_slot`. Working slots are the rows of the request table
(memory_pool.py L482), track slots come after them (L539). -/
structure HSt where
  base : St
  gdn : Nat → List Int
  free : List Nat
  rts : List (Nat × Nat)
  snap : List (Nat × Nat)

/-- memory_pool.py L541-563. -/
def HSt.init (size maxReqs tracks : Nat) (needSort : Bool) : HSt :=
  ⟨.init size maxReqs needSort, fun _ => [], List.range' (maxReqs + 1) tracks, [], []⟩

/-- `copy_states(src, dst)`, memory_pool.py L617-623. -/
def copyStates (g : Nat → List Int) (src dst : Nat) : Nat → List Int := Function.update g dst (g src)

/-- `reset_states([i])`, memory_pool.py L594-603. -/
def resetStates (g : Nat → List Int) (i : Nat) : Nat → List Int := Function.update g i []

/-- The hit is discarded, L698-715: the matched node has no snapshot. -/
def HSt.discards (s : HSt) (now : Nat) (inp : Key) : Bool :=
  match matchPrefix 1 now s.base.cache none inp with
  | ((sl, some y), _) => decide (0 < sl.length) && (get s.snap y).isNone
  | ((_, none), _) => false

/-- L675-767. -/
def HSt.start (s : HSt) (now rid : Nat) (inp : Key) : HSt :=
  { s with base := s.base.start .hybrid now rid inp (s.discards now inp) }

/-- L836-868: the recurrent state with which the prefill starts. -/
def restore (g : Nat → List Int) (snap : List (Nat × Nat)) (r : Req) (row : Nat) : Nat → List Int :=
  match r.lock with
  | some y =>
    if 0 < r.prot then
      match get snap y with
      | some ts => copyStates g ts row
      | none => resetStates g row
    else resetStates g row
  | none => resetStates g row

/-- The forward pass over the tokens `toks` of the request in row `row`. -/
def forward (g : Nat → List Int) (row : Nat) (toks : List Int) : Nat → List Int := Function.update g row (g row ++ toks)

/-- `alloc_track_slot`, memory_pool.py L609-613: the last free slot. -/
def allocTrack (free : List Nat) : Option Nat × List Nat := (free.getLast?, free.dropLast)

/-- L788-876, the forward pass over the trimmed prompt (L494-498) and the snapshot after it (L1131-1150). -/
def HSt.extend (s : HSt) (r : Req) (rest : List Req) (row : Nat) (rows : Rows) (xs : Slots) (pool : Pool) : HSt :=
  let g := forward (restore s.gdn s.snap r row) row (r.inp.drop r.idx.length)
  let a := allocTrack s.free
  { base := s.base.extend r rest row rows xs pool
    gdn := match a.1 with
      | some ts => copyStates g row ts
      | none => g
    free := a.2
    rts := match a.1 with
      | some ts => (r.rid, ts) :: pop s.rts r.rid
      | none => s.rts
    snap := s.snap }

/-- The node at the end of the prompt, from `insert` (L548-550). -/
def HSt.node (s : HSt) (now : Nat) (r : Req) (row : Nat) : Option Nat :=
  (PyRadix.insert 1 now s.base.cache none r.inp (read s.base.table row r.inp.length)).1.2

/-- L511-645 with the association of the snapshot, L634-645. -/
def HSt.commit (s : HSt) (now : Nat) (r : Req) (rest : List Req) (row : Nat) (tok : Int) : HSt :=
  let b := s.base.commit .hybrid now r rest row tok
  match s.node now r row, get s.rts r.rid with
  | some y, some ts =>
    match get s.snap y with
    | none => { s with base := b, snap := (y, ts) :: s.snap }
    | some _ => { s with base := b, free := s.free ++ [ts], rts := pop s.rts r.rid }
  | _, _ => { s with base := b }

/-- The next token: the recurrent layers read the last sampled one. -/
def HSt.decode (s : HSt) (r : Req) (rest : List Req) (row x : Nat) (pool : Pool) (tok : Int) : HSt :=
  { s with
    base := s.base.decode r rest row x pool tok
    gdn := forward s.gdn row [(r.inp ++ r.out).getLastD 0] }

/-- L994-1125; only the mapping of the request is removed, L1029-1032. -/
def HSt.finish (s : HSt) (now : Nat) (r : Req) (rest : List Req) (row : Nat) : HSt :=
  { s with base := s.base.finish false .hybrid now r rest row, rts := pop s.rts r.rid }

/-- The snapshots of the nodes that are in one tree and not in another. -/
def gone (snap : List (Nat × Nat)) (f : Forest) : List (Nat × Nat) := snap.filter fun p => decide (p.1 ∉ ids f)
def kept (snap : List (Nat × Nat)) (f : Forest) : List (Nat × Nat) := snap.filter fun p => decide (p.1 ∈ ids f)

/-- The label of a step: a step of the runner; whether it is a prefix hit that was cut back (L717-730); whether it is the
start of a request with an empty prompt. -/
structure HLab where
  lab : Lab
  cut : Bool := false
  empty : Bool := false
  deriving DecidableEq, Repr

/-- The match of a prompt is used and cut back, L727. -/
def HSt.cuts (s : HSt) (now : Nat) (inp : Key) : Bool :=
  let n := (matchPrefix 1 now s.base.cache none inp).1.1.length
  !s.discards now inp && decide (0 < capped inp.length n) && decide (capped inp.length n < n)

inductive HStep : HSt → HLab → HSt → Prop where
  | start {s} (now rid inp) : (∀ q ∈ s.base.reqs, q.rid ≠ rid) → 
      HStep s ⟨.start, s.cuts now inp, decide (inp = [])⟩ (s.start now rid inp)
  | rollback {s} (r rest) : s.base.reqs.Perm (r :: rest) → r.row = none →
      HStep s { lab := .rollback } { s with base := s.base.rollback r rest }
  | extend {s} (r rest row rows xs pool) : s.base.reqs.Perm (r :: rest) → r.row = none → rowsAlloc s.base.rows 1 = (some [row], rows) →
      s.base.pool.alloc (r.inp.length - r.idx.length) = (some xs, pool) → HStep s { lab := .extend } (s.extend r rest row rows xs pool)
  | noSlots {s} (n pool) : s.base.pool.alloc n = (none, pool) → HStep s { lab := .noSlots } { s with base := { s.base with pool := pool } }
  | commit {s} (now r rest row tok) : s.base.reqs.Perm (r :: rest) → r.row = some row → r.done = false →
      HStep s { lab := .commit } (s.commit now r rest row tok)
  | decode {s} (r rest row x pool tok) : s.base.reqs.Perm (r :: rest) → r.row = some row → r.done = true →
      s.base.pool.alloc 1 = (some [x], pool) → HStep s { lab := .decode } (s.decode r rest row x pool tok)
  | finish {s} (now r rest row) : s.base.reqs.Perm (r :: rest) → r.row = some row → r.done = true →
      HStep s { lab := .finish } (s.finish now r rest row)
  /-- `_on_radix_node_evict`, L1152-1166, for every removed node, in some order. -/
  | evict {s} (target freed c') (l : List (Nat × Nat)) : Evict target s.base.cache freed c' → l.Perm (gone s.snap c'.tree) →
      HStep s { lab := .evict }
        { s with
          base := { s.base with pool := s.base.pool.release1 freed, cache := c' }
          free := s.free ++ l.map (·.2)
          snap := kept s.snap c'.tree }

/-- All histories; labels most recent first. -/
inductive HReach (size maxReqs tracks : Nat) (needSort : Bool) : List HLab → HSt → Prop where
  | init : HReach size maxReqs tracks needSort [] (.init size maxReqs tracks needSort)
  | step {labs s lab s'} : HReach size maxReqs tracks needSort labs s → HStep s lab s' →
      HReach size maxReqs tracks needSort (lab :: labs) s'

/-- The histories are histories of the runner. -/
theorem HStep.run {s s' : HSt} {lab : HLab} (h : HStep s lab s') : Step .hybrid false s.base lab.lab s'.base := by
  cases h with
  | start now rid inp hr => exact .start now rid inp _ hr (fun _ => rfl)
  | rollback r rest hp hr => exact .rollback r rest hp hr
  | extend r rest row rows xs pool hp hr h1 h2 => exact .extend r rest row rows xs pool hp hr h1 h2
  | noSlots n pool hx => exact .noSlots n pool hx
  | commit now r rest row tok hp hr hd =>
    have : (s.commit now r rest row tok).base = s.base.commit .hybrid now r rest row tok := by
      unfold HSt.commit
      simp only []
      split
      · split <;> rfl
      · rfl
    rw [this]
    exact .commit now r rest row tok hp hr hd
  | decode r rest row x pool tok hp hr hd hx => exact .decode r rest row x pool tok hp hr hd hx
  | finish now r rest row hp hr hd => exact .finish now r rest row hp hr hd
  | evict target freed c' l he _ => exact .evict target freed c' he

theorem HReach.run {size maxReqs tracks : Nat} {b : Bool} {labs : List HLab} {s : HSt} (h : HReach size maxReqs tracks b labs s) :
    Reach .hybrid false size maxReqs b (labs.map (·.lab)) s.base := by
  induction h with
  | init => exact .init
  | step _ hs ih => exact .step ih hs.run

end Verif.Hybrid
