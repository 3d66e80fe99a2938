import Verif.Prelude
import Mathlib.Data.List.Sort
/-
Model of the KV slot allocator and the request table (C50).
Source: pymllm/mem_cache/memory_pool.py (below "L…").

Simplifications: an index tensor is the list of its entries (no `int32` overflow); the device is not modelled.
-/
namespace Verif.PyPool

/-- `TokenToKVPoolAllocator`, L243-253. `group`: `none` outside `free_group_begin`/`free_group_end`, otherwise what has been
freed since, oldest first (`_is_not_in_free_group`, `_free_group`, L267-268). -/
structure Pool where
  size : Nat
  page : Nat
  needSort : Bool
  free : List Nat
  release : List Nat
  group : Option (List (List Nat))
  deriving DecidableEq, Repr

/-- `torch.sort`, `torch.unique` sort ascending. -/
def sort (l : List Nat) : List Nat := l.insertionSort (· ≤ ·)

/-- `clear`, L254-268. -/
def init (size page : Nat) (needSort : Bool) : Pool :=
  { size, page, needSort, free := List.range' 1 (if page = 1 then size else size / page), release := [], group := none }

/-- `available_size`, L269-271. -/
def Pool.available (p : Pool) : Nat := (p.free.length + p.release.length) * p.page

/-- `merge_and_sort_free`, L273-280. -/
def Pool.merge (p : Pool) : Pool :=
  if p.release.length = 0 then p
  else { p with free := if p.needSort then sort (p.free ++ p.release) else p.free ++ p.release, release := [] }

/-- The slots of a list of pages, L316-317. -/
def expand (page : Nat) (pages : List Nat) : List Nat := pages.flatMap fun q => (List.range page).map fun o => q * page + o

/-- Taking `k` entries of the free list, merging first if there are too few (L301-307, L310-315). -/
def Pool.take (p : Pool) (k : Nat) : Option (List Nat) × Pool :=
  let p1 := if k > p.free.length then p.merge else p
  if k > p1.free.length then (none, p1)
  else (some (p1.free.take k), { p1 with free := p1.free.drop k })

/-- `alloc`, L294-318. -/
def Pool.alloc (p : Pool) (n : Nat) : Option (List Nat) × Pool :=
  if p.page = 1 then p.take n
  else
    match p.take ((n + p.page - 1) / p.page) with
    | (none, p1) => (none, p1)
    | (some pages, p1) => (some ((expand p.page pages).take n), p1)

/-- The release of L329-335. -/
def Pool.put (p : Pool) (idx : List Nat) : Pool :=
  let idx := if p.page = 1 then idx else sort ((idx.map (· / p.page)).dedup)
  if p.needSort then { p with release := p.release ++ idx } else { p with free := p.free ++ idx }

/-- `free`, L320-335. -/
def Pool.release1 (p : Pool) (idx : List Nat) : Pool :=
  if idx = [] then p
  else
    match p.group with
    | some g => { p with group := some (g ++ [idx]) }
    | none => p.put idx

/-- `free_group_begin`, L282-285: what an open group has collected is dropped. -/
def Pool.groupBegin (p : Pool) : Pool := { p with group := some [] }

/-- `free_group_end`, L287-292. -/
def Pool.groupEnd (p : Pool) : Pool :=
  match p.group with
  | none => p
  | some g => if g = [] then { p with group := none } else { p with group := none }.release1 g.flatten

/-- Rows of the buffers of a `KVPool`, L92-98. -/
def rows (size : Nat) : Nat := if (size + 1) % 8 ≠ 0 then (size + 1 + 7) / 8 * 8 else size + 1

/-! ### Histories -/

/-- The allocator and the slots that have been handed out and not given back. -/
structure St where
  pool : Pool
  held : List Nat

inductive Op where
  | alloc (n : Nat) (r : Option (List Nat))
  | free (idx : List Nat)
  | groupBegin
  | groupEnd

/-- One call. Callers give back slots that they hold; a free group is not opened inside another. -/
inductive Step : St → Op → St → Prop where
  | allocOk {s} (n out p') : s.pool.alloc n = (some out, p') → Step s (.alloc n (some out)) ⟨p', out ++ s.held⟩
  | allocNo {s} (n p') : s.pool.alloc n = (none, p') → Step s (.alloc n none) ⟨p', s.held⟩
  | free {s} (idx rest) : s.held.Perm (idx ++ rest) → Step s (.free idx) ⟨s.pool.release1 idx, rest⟩
  | groupBegin {s} : s.pool.group = none → Step s .groupBegin ⟨s.pool.groupBegin, s.held⟩
  | groupEnd {s} : Step s .groupEnd ⟨s.pool.groupEnd, s.held⟩

inductive Reach (size page : Nat) (needSort : Bool) : St → Prop where
  | init : Reach size page needSort ⟨init size page needSort, []⟩
  | step {s op s'} : Reach size page needSort s → Step s op s' → Reach size page needSort s'

/-- Histories for pages: callers give back a whole allocation in one call, outside free groups. -/
structure PSt where
  pool : Pool
  held : List (List Nat)

inductive PStep : PSt → PSt → Prop where
  | allocOk {s} (n out p') : s.pool.alloc n = (some out, p') → PStep s ⟨p', out :: s.held⟩
  | allocNo {s} (n p') : s.pool.alloc n = (none, p') → PStep s ⟨p', s.held⟩
  | free {s} (out) : out ∈ s.held → PStep s ⟨s.pool.release1 out, s.held.erase out⟩

inductive PReach (size page : Nat) (needSort : Bool) : PSt → Prop where
  | init : PReach size page needSort ⟨init size page needSort, []⟩
  | step {s s'} : PReach size page needSort s → PStep s s' → PReach size page needSort s'

/-! ### `ReqToTokenPool` -/

/-- L368-380: the free rows. -/
abbrev Rows := List Nat

def rowsInit (maxReqs : Nat) : Rows := List.range maxReqs

/-- `alloc`, L388-394. -/
def rowsAlloc (r : Rows) (n : Nat) : Option (List Nat) × Rows := if n > r.length then (none, r) else (some (r.take n), r.drop n)

/-- `free`, L396-398. -/
def rowsFree (r : Rows) (x : Nat) : Rows := r ++ [x]

inductive RReach (maxReqs : Nat) : Rows → List Nat → Prop where
  | init : RReach maxReqs (rowsInit maxReqs) []
  | alloc {r held n out r'} : RReach maxReqs r held → rowsAlloc r n = (some out, r') → RReach maxReqs r' (out ++ held)
  | free {r held x} : RReach maxReqs r held → x ∈ held → RReach maxReqs (rowsFree r x) (held.erase x)

end Verif.PyPool
