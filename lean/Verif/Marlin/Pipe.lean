import Verif.Marlin.Repack

/-!
# Pipelines of asynchronous copies

The repacking kernels and the GEMM bring tiles into shared memory with `cp.async`, several tiles
ahead, in a ring of stages.  Both have this shape, for one run over `n` tiles:

* phase 0 (`start_pipes`): the copies of tiles `0 … S - 2` are issued;
* phase `p + 1`: the copies of tile `p + S - 1` are issued, tile `p` is read;
* every phase ends with `cp_async_wait<S - 2>` and `__syncthreads`.

awq_marlin_repack.cuh L36-43, L160-186; gptq_marlin_repack.cuh L64-71, L241-272;
marlin_template.h L737-745 (`wait_for_stage`), L1334-1376 (`start_pipes` and the main loop, where the
phase begins right after `wait_for_stage` of the tile before: `b_sh_wr_iters` is 2 for every
instantiated kernel, so after the wait a thread reads the first half and the scales of the tile, then
the second half, and then issues the next copies).

Threads run in any order inside a phase; a copy lands at any time after it was issued; the wait only
guarantees that all groups but the last `S - 2` have landed.
-/

namespace Verif.Marlin

/-- A pipeline. -/
structure PipeCfg where
  /-- number of stages -/
  S : Nat
  /-- number of tiles of this run -/
  n : Nat
  /-- words per tile -/
  words : Nat
  /-- the slot the copies of a tile go to, if it has any -/
  wr : Nat → Option Nat
  /-- the slot a tile is read from -/
  rd : Nat → Nat
  /-- which thread issues the copy of a word -/
  owner : Nat → Nat
  /-- which words a thread reads -/
  needs : Nat → Nat → Bool
  /-- a thread issues its copies only after its own reads of the phase (the GEMM) -/
  readFirst : Bool
  /-- the source of word `x` of tile `j` -/
  val : Nat → Nat → Nat

structure Pipe where
  phase : Nat
  /-- copies of this phase that have been issued: (tile, word) -/
  issued : Nat → Nat → Bool
  /-- copies under way: (tile, word) -/
  pend : Nat → Nat → Bool
  /-- shared memory: (slot, word) -/
  mem : Nat → Nat → Nat
  /-- what each thread has read in this phase: (thread, word) -/
  read : Nat → Nat → Option Nat
  /-- what each thread read for each finished tile -/
  got : Nat → Nat → Nat → Option Nat

/-- The tiles whose copies a phase issues. -/
def PipeCfg.duty (c : PipeCfg) (p j : Nat) : Bool :=
  if p = 0 then decide (j + 1 < c.S) else j + 2 == p + c.S

def upd2 {β : Type} (f : Nat → Nat → β) (i j : Nat) (v : β) : Nat → Nat → β :=
  fun a b => if a = i ∧ b = j then v else f a b

inductive Pipe.Step (c : PipeCfg) : Pipe → Pipe → Prop
  /-- `fetch_to_shared` issues one copy (only for tiles that exist: `pred`, `n_tile_id < n_tiles`) -/
  | issue (σ : Pipe) (j x s : Nat) (hd : c.duty σ.phase j = true) (hx : x < c.words)
      (hj : j < c.n) (hw : c.wr j = some s) (hn : σ.issued j x = false)
      (hrf : c.readFirst = true → 0 < σ.phase → ∀ y, y < c.words → c.needs (c.owner x) y = true →
        σ.read (c.owner x) y ≠ none) :
      Step c σ { σ with issued := upd2 σ.issued j x true, pend := upd2 σ.pend j x true }
  /-- a copy lands -/
  | land (σ : Pipe) (j x s : Nat) (hp : σ.pend j x = true) (hw : c.wr j = some s) :
      Step c σ { σ with pend := upd2 σ.pend j x false, mem := upd2 σ.mem s x (c.val j x) }
  /-- thread `t` reads a word of the tile of this phase -/
  | load (σ : Pipe) (t x : Nat) (h0 : 0 < σ.phase) (ht : σ.phase - 1 < c.n) (hx : x < c.words)
      (hne : c.needs t x = true) :
      Step c σ { σ with read := upd2 σ.read t x (some (σ.mem (c.rd (σ.phase - 1)) x)) }
  /-- `wait_for_stage`: everything of the phase is done, and all but the last `S - 2` groups have
  landed: after phase `p` the groups of tiles `0 … p + S - 2` have been committed -/
  | sync (σ : Pipe)
      (hi : ∀ j x, c.duty σ.phase j = true → x < c.words → j < c.n → c.wr j ≠ none →
        σ.issued j x = true)
      (hr : 0 < σ.phase → σ.phase - 1 < c.n → ∀ t x, x < c.words → c.needs t x = true →
        σ.read t x ≠ none)
      (hw : ∀ j x, j + (c.S - 2) < σ.phase + (c.S - 1) → σ.pend j x = false) :
      Step c σ { σ with
        phase := σ.phase + 1, issued := fun _ _ => false, read := fun _ _ => none,
        got := fun i t x => if 0 < σ.phase ∧ i = σ.phase - 1 then σ.read t x else σ.got i t x }

/-- Before `start_pipes`: no copies under way, shared memory holds anything. -/
def Pipe.start (mem : Nat → Nat → Nat) : Pipe :=
  ⟨0, fun _ _ => false, fun _ _ => false, mem, fun _ _ => none, fun _ _ _ => none⟩

inductive Pipe.Reach (c : PipeCfg) (σ₀ : Pipe) : Pipe → Prop
  | init : Reach c σ₀ σ₀
  | step {σ τ} : Reach c σ₀ σ → Step c σ τ → Reach c σ₀ τ

/-- The pipeline of the repacking kernels: eight stages, tile `j` in stage `j % 8`. -/
def repackPipe (n words : Nat) (needs : Nat → Nat → Bool) (val : Nat → Nat → Nat) : PipeCfg :=
  ⟨repackStages, n, words, fun j => some (j % repackStages), fun j => j % repackStages, fun x => x / 4,
   needs, false, val⟩

/-- The pipeline of the activations and the weights in the GEMM: `stages = 4`, tile `j` in stage
`j % 4` (marlin_template.h L661-681, L747-761). -/
def weightPipe (n words : Nat) (owner : Nat → Nat) (needs : Nat → Nat → Bool)
    (val : Nat → Nat → Nat) : PipeCfg :=
  ⟨4, n, words, fun j => some (j % 4), fun j => j % 4, owner, needs, true, val⟩

/-- The pipeline of the scales and zero points in the GEMM, with scale groups that span `g` tiles
(`group_blocks / thread_k_blocks`, or 1 when a tile has one or several groups of its own):
`if (pipe % g == 0)` fetch into stage `pipe`; read from stage `g * (pipe / g)`, `pipe = tile % 4`
(marlin_template.h L697-731, L785-815, L886-931).  `s_sh_wr = threadIdx.x`. -/
def scalePipe (g n words : Nat) (needs : Nat → Nat → Bool) (val : Nat → Nat → Nat) : PipeCfg :=
  ⟨4, n, words, fun j => if j % 4 % g = 0 then some (j % 4) else none,
   fun j => g * (j % 4 / g), id, needs, true, val⟩

end Verif.Marlin
