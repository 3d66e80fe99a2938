import Verif.PyRadix.Props
import Verif.PyPool.Props
/-
Model of the life of a request in the model runner: prefix matching, KV allocation, prefill, decode, release (C51).
Source: pymllm/orchestrator/model_runner_process.py (below "L…"), with the cache of `Verif.PyRadix` (page size 1, no
sliding window) and the allocator and the row pool of `Verif.PyPool` (page size 1).

Simplifications (all definitions below):
* A batch is run request by request, in the phases of the code: match and lock (Step 1, 1.5), row, slots and forward
  (Step 2-4, Phase 4), insertion and sampling (Phase 5, 6). Phases of different requests may interleave in any way; a
  batch is one such interleaving (matching does not look at lock counts, `alloc(a + b)` is `alloc(a)` and then `alloc(b)`
  up to the order in which free slots are taken).
* Evictions (L896-940) may happen at any time and with any target.
* Sampled tokens are arbitrary. Request ids are numbers, used once at a time.
* The table `req_to_token` has unboundedly long rows. It starts with zeros (memory_pool.py L372) and is never cleared.
* The recurrent states of hybrid models are not modelled here, except that a match may be discarded (L698-715).
-/
namespace Verif.Runner
open Verif.PyRadix Verif.PyPool

/-- Which cache is configured, L117-169: `RadixCache`, the same for a hybrid model, or `ChunkCache`. -/
inductive Mode where
  | radix
  | hybrid
  | off
  deriving DecidableEq, Repr

/-- What the runner keeps for a request: `_rid_to_input_ids`, `_rid_to_output_ids`, `_rid_to_req_pool_idx` (`none`: matched,
but not allocated yet), the matched slots, `_rid_to_cache_protected_len`, `_rid_to_radix_lock`, and whether the prefill is over. -/
structure Req where
  rid : Nat
  inp : Key
  out : List Int
  row : Option Nat
  idx : Slots
  prot : Nat
  lock : Option Nat
  done : Bool
  deriving DecidableEq, Repr

/-- The runner. `kv` says what the forward passes have left in a slot of the KV pool: the tokens, up to and including
its own, for which the key and value in the slot were computed (`[]`: nothing was computed). -/
structure St where
  pool : Pool
  rows : Rows
  table : Nat → Nat → Nat
  cache : Cache
  reqs : List Req
  kv : Nat → List Int

def St.init (size maxReqs : Nat) (needSort : Bool) : St :=
  ⟨PyPool.init size 1 needSort, rowsInit maxReqs, fun _ _ => 0, .empty, [], fun _ => []⟩

/-- `req_to_token[row, :n]`. -/
def read (t : Nat → Nat → Nat) (row n : Nat) : Slots := (List.range n).map (t row)

/-- `req_to_token_pool.write((row, slice(pos, pos + len)), xs)`. -/
def fill (t : Nat → Nat → Nat) (row pos : Nat) (xs : Slots) : Nat → Nat → Nat :=
  fun r p => if r = row ∧ pos ≤ p ∧ p < pos + xs.length then xs.getD (p - pos) 0 else t r p

/-- The forward pass writes key and value of position `pos + i` of the sequence `toks` to the slot `xs[i]`. -/
def compute (kv : Nat → List Int) (toks : List Int) (pos : Nat) (xs : Slots) : Nat → List Int :=
  fun x => match xs.idxOf? x with
    | some i => toks.take (pos + i + 1)
    | none => kv x

/-- L717-730: at least two tokens are computed, if there are two. -/
def capped (len n : Nat) : Nat := if len - 1 ≤ n ∧ 2 ≤ len then len - 2 else n

/-- `inc_lock_ref`, if there is a node. -/
def lockOpt (c : Cache) : Option Nat → Cache
  | some y => incLock c y
  | none => c

def unlockOpt (c : Cache) : Option Nat → Cache
  | some y => decLock c y
  | none => c

/-- `_allocate_extend`, L675-767: match the prompt, cap the match, lock it. `discard` (hybrid models): the matched node has
no snapshot of the recurrent state. -/
def St.start (s : St) (m : Mode) (now rid : Nat) (inp : Key) (discard : Bool) : St :=
  if m = .off ∨ inp = [] then { s with reqs := ⟨rid, inp, [], none, [], 0, none, false⟩ :: s.reqs }
  else
    let r := matchPrefix 1 now s.cache none inp
    let n := capped inp.length (if discard then 0 else r.1.1.length)
    let lock := if 0 < n then r.1.2 else none
    { s with cache := lockOpt r.2 lock, reqs := ⟨rid, inp, [], none, r.1.1.take n, n, lock, false⟩ :: s.reqs }

/-- `_unlock_matched_nodes`, L880-894, after a failed allocation. -/
def St.rollback (s : St) (r : Req) (rest : List Req) : St := { s with cache := unlockOpt s.cache r.lock, reqs := rest }

/-- L788-829 and the forward pass (L381), with the row and the slots from the pools. -/
def St.extend (s : St) (r : Req) (rest : List Req) (row : Nat) (rows : Rows) (xs : Slots) (pool : Pool) : St :=
  { s with
    pool := pool
    rows := rows
    table := fill (fill s.table row 0 r.idx) row r.idx.length xs
    kv := compute s.kv r.inp r.idx.length xs
    reqs := { r with row := some row } :: rest }

/-- `_insert_into_radix_cache`, L511-645, and the bookkeeping of the first token, L428-437. -/
def St.commit (s : St) (m : Mode) (now : Nat) (r : Req) (rest : List Req) (row : Nat) (tok : Int) : St :=
  if m = .off then { s with reqs := { r with out := [tok], prot := 0, done := true } :: rest }
  else
    let val := read s.table row r.inp.length
    let i := PyRadix.insert 1 now s.cache none r.inp val
    let w := matchPrefix 1 now i.2 none r.inp
    let new := w.1.1
    let lock := if 0 < new.length then w.1.2 else none
    { s with
      pool := if r.prot < i.1.1 then s.pool.release1 ((val.take i.1.1).drop r.prot) else s.pool
      table := if r.prot < new.length then fill s.table row r.prot (new.drop r.prot) else s.table
      cache := lockOpt (unlockOpt w.2 r.lock) lock
      reqs := { r with out := [tok], prot := new.length, lock := lock, done := true } :: rest }

/-- `_allocate_decode`, L942-988, the forward pass and the bookkeeping of the next token: `seq_len` is the number of tokens of
prompt and output (scheduler_process.py L884-886), the slot `x` of its last token is written at `seq_len - 1`. -/
def St.decode (s : St) (r : Req) (rest : List Req) (row x : Nat) (pool : Pool) (tok : Int) : St :=
  { s with
    pool := pool
    table := fill s.table row (r.inp.length + r.out.length - 1) [x]
    kv := compute s.kv (r.inp ++ r.out) (r.inp.length + r.out.length - 1) [x]
    reqs := { r with out := r.out ++ [tok] } :: rest }

/-- `total_len`, L1039-1041. With `fix`, the last sampled token, for which nothing was computed, is left out. -/
def total (fix : Bool) (r : Req) : Nat := r.inp.length + r.out.length - (if fix then 1 else 0)

/-- `_free_rid_resources`, L990-1125. `fix = false` is the code. -/
def St.finish (s : St) (fix : Bool) (m : Mode) (now : Nat) (r : Req) (rest : List Req) (row : Nat) : St :=
  let all := read s.table row (total fix r)
  match m with
  | .off => { s with pool := s.pool.release1 all, rows := rowsFree s.rows row, reqs := rest }
  | .radix =>
    let i := PyRadix.insert 1 now s.cache none ((r.inp ++ r.out).take (total fix r)) all
    { s with
      pool := if r.prot < i.1.1 then s.pool.release1 ((all.take i.1.1).drop r.prot) else s.pool
      cache := unlockOpt i.2 r.lock
      rows := rowsFree s.rows row
      reqs := rest }
  | .hybrid =>
    let i := PyRadix.insert 1 now s.cache none r.inp (all.take r.inp.length)
    let pool := if r.prot < i.1.1 then s.pool.release1 (((all.take r.inp.length).take i.1.1).drop r.prot) else s.pool
    { s with
      pool := pool.release1 (all.drop r.inp.length)
      cache := unlockOpt i.2 r.lock
      rows := rowsFree s.rows row
      reqs := rest }

inductive Lab where
  | start | rollback | extend | noSlots | commit | decode | finish | evict
  deriving DecidableEq, Repr

inductive Step (m : Mode) (fix : Bool) : St → Lab → St → Prop where
  | start {s} (now rid inp discard) : (∀ q ∈ s.reqs, q.rid ≠ rid) → (discard = true → m = .hybrid) →
      Step m fix s .start (s.start m now rid inp discard)
  | rollback {s} (r rest) : s.reqs.Perm (r :: rest) → r.row = none → Step m fix s .rollback (s.rollback r rest)
  | extend {s} (r rest row rows xs pool) : s.reqs.Perm (r :: rest) → r.row = none → rowsAlloc s.rows 1 = (some [row], rows) →
      s.pool.alloc (r.inp.length - r.idx.length) = (some xs, pool) → Step m fix s .extend (s.extend r rest row rows xs pool)
  | noSlots {s} (n pool) : s.pool.alloc n = (none, pool) → Step m fix s .noSlots { s with pool := pool }
  | commit {s} (now r rest row tok) : s.reqs.Perm (r :: rest) → r.row = some row → r.done = false →
      Step m fix s .commit (s.commit m now r rest row tok)
  | decode {s} (r rest row x pool tok) : s.reqs.Perm (r :: rest) → r.row = some row → r.done = true →
      s.pool.alloc 1 = (some [x], pool) → Step m fix s .decode (s.decode r rest row x pool tok)
  | finish {s} (now r rest row) : s.reqs.Perm (r :: rest) → r.row = some row → r.done = true →
      Step m fix s .finish (s.finish fix m now r rest row)
  | evict {s} (target freed c') : Evict target s.cache freed c' →
      Step m fix s .evict { s with pool := s.pool.release1 freed, cache := c' }

/-- All histories of a runner with a KV pool of `size` slots; the labels of the steps, most recent first. -/
inductive Reach (m : Mode) (fix : Bool) (size maxReqs : Nat) (needSort : Bool) : List Lab → St → Prop where
  | init : Reach m fix size maxReqs needSort [] (.init size maxReqs needSort)
  | step {labs s lab s'} : Reach m fix size maxReqs needSort labs s → Step m fix s lab s' → Reach m fix size maxReqs needSort (lab :: labs) s'

/-! ### What the forward passes read -/

/-- The tokens of a request whose key and value have been computed or taken from the cache. -/
def Req.filled (r : Req) : List Int := if r.done then (r.inp ++ r.out).take (r.inp.length + r.out.length - 1) else r.inp

end Verif.Runner
