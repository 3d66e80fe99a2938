import Verif.Prelude
/-
Model of the Python prefix cache without sliding window (C36, C37).
Source: pymllm/mem_cache/radix_cache.py (below "L…"), base_prefix_cache.py.

Simplifications (all definitions below):
* `node.children`, a dict in insertion order, is a list of siblings. Its keys are always `_child_key` of the child's
  key (L655, L677, L698), so the lookup is by first page and namespace. `extra_key` is an optional string.
* A tensor of KV-pool indices is the list of the indices.
* Parent pointers are the tree structure; node objects are told apart by `id` (L83).
* `time.monotonic()` is read once per operation (`now`).
* `hit_count`, `hash_values`, logging and the sliding-window fields are not modelled here.
-/
namespace Verif.PyRadix

abbrev Ext := Option String
abbrev Key := List Int
abbrev Slots := List Nat

/-- A list of siblings with their subtrees: `node id key extra val lock time kids rest` is a `TreeNode` (L47-90) with
`key = (key, extra)`, `value = val`, `lock_ref = lock`, `last_access_time = time`, children `kids`, followed by its
further siblings. The root (L205-208) is not a node of it: the children of the root are the forest. -/
inductive Forest where
  | nil
  | node (id : Nat) (key : Key) (extra : Ext) (val : Slots) (lock : Int) (time : Nat) (kids rest : Forest)
  deriving DecidableEq, Repr

/-- `_key_match`, L98-115, for equal namespaces: whole pages are compared (L112), a page may be cut short by the end.
For `page_size == 1` this is the token loop of L102-108. -/
def keyMatch (P : Nat) : Nat → Key → Key → Nat
  | 0, _, _ => 0
  | fuel + 1, a, b =>
    if a = [] ∨ b = [] then 0
    else if a.take P ≠ b.take P then 0
    else P + keyMatch P fuel (a.drop P) (b.drop P)

/-- `_key_match` with enough iterations. -/
def kmatch (P : Nat) (a b : Key) : Nat := keyMatch P a.length a b

/-- `_page_align_key`, L747-751. -/
def align (P : Nat) (key : Key) : Key := key.take (key.length / P * P)

/-- Result of a walk: the values collected, the last node (`none`: the root), the tree, the next unused id. -/
structure Walk where
  vals : List Slots
  last : Option Nat
  tree : Forest
  fresh : Nat

/-- `_match_normal`, L462-485, on the children of a node, including `_split_node` (L661-699): the new upper node takes
the first part of key and value and the lock count, the old node keeps its identity and the rest. -/
def matchWalk (P : Nat) (e : Ext) (now fresh : Nat) : Forest → Key → Walk
  | .nil, _ => ⟨[], none, .nil, fresh⟩
  | .node i k x v l t kids rest, key =>
    if key = [] then ⟨[], none, .node i k x v l t kids rest, fresh⟩
    else if x = e ∧ k.take P = key.take P then
      if kmatch P k key < k.length then
        ⟨[v.take (kmatch P k key)], some fresh,
         .node fresh (k.take (kmatch P k key)) x (v.take (kmatch P k key)) l now
           (.node i (k.drop (kmatch P k key)) x (v.drop (kmatch P k key)) l now kids .nil) rest,
         fresh + 1⟩
      else
        let w := matchWalk P e now fresh kids (key.drop (kmatch P k key))
        ⟨v :: w.vals, some (w.last.getD i), .node i k x v l now w.tree rest, w.fresh⟩
    else
      let w := matchWalk P e now fresh rest key
      ⟨w.vals, w.last, .node i k x v l t kids w.tree, w.fresh⟩

/-- The state of a `RadixCache` (L148-166, L203-213). -/
structure Cache where
  tree : Forest
  fresh : Nat
  evictable : Int
  prot : Int
  deriving DecidableEq, Repr

def Cache.empty : Cache := ⟨.nil, 1, 0, 0⟩

/-- `match_prefix`, L215-247, returning `(indices, last_node)`; `none` is the root. -/
def matchPrefix (P : Nat) (now : Nat) (c : Cache) (e : Ext) (key : Key) : (Slots × Option Nat) × Cache :=
  let w := matchWalk P e now c.fresh c.tree (align P key)
  ((w.vals.flatten, w.last), { c with tree := w.tree, fresh := w.fresh })

/-- `_add_leaf` after the last child (L650-655). -/
def addLeaf (i : Nat) (k : Key) (e : Ext) (v : Slots) (now : Nat) : Forest → Forest
  | .nil => .node i k e v 0 now .nil .nil
  | .node j k' x v' l t kids rest => .node j k' x v' l t kids (addLeaf i k e v now rest)

/-- Result of an insertion: tokens already present, last node, tree, next unused id, change of the evictable size, and
how much of it is the subtraction of L648. -/
structure Ins where
  plen : Nat
  last : Nat
  tree : Forest
  fresh : Nat
  dEvict : Int
  lost : Int
  deriving DecidableEq, Repr

/-- The subtraction of L642-648: the parent of a new leaf is an unlocked leaf (the root is handled by `insert`). -/
def leafLoss (kids : Forest) (lock : Int) (k : Key) : Int := if kids = .nil ∧ lock = 0 then (k.length : Int) else 0

/-- The loop of `_insert_normal`, L545-564, on the children of a node. `none`: no child has the first page of the key,
the caller adds the leaf to its node. After a split the loop ends at the upper node, whose only child differs from the
key in its first page (`_key_match` stopped there). -/
def insWalk (P : Nat) (e : Ext) (now fresh : Nat) : Forest → Key → Slots → Option Ins
  | .nil, _, _ => none
  | .node i k x v l t kids rest, key, val =>
    if x = e ∧ k.take P = key.take P then
      let n := kmatch P k key
      if n < k.length then
        let lower : Forest := .node i (k.drop n) x (v.drop n) l now kids .nil
        if key.drop n = [] then
          some ⟨n, fresh, .node fresh (k.take n) x (v.take n) l now lower rest, fresh + 1, 0, 0⟩
        else
          some ⟨n, fresh + 1,
            .node fresh (k.take n) x (v.take n) l now (addLeaf (fresh + 1) (key.drop n) e (val.drop n) now lower) rest,
            fresh + 2, ((key.drop n).length : Int), 0⟩
      else if key.drop n = [] then some ⟨n, i, .node i k x v l now kids rest, fresh, 0, 0⟩
      else
        match insWalk P e now fresh kids (key.drop n) (val.drop n) with
        | some r => some ⟨n + r.plen, r.last, .node i k x v l now r.tree rest, r.fresh, r.dEvict, r.lost⟩
        | none =>
          some ⟨n, fresh, .node i k x v l now (addLeaf fresh (key.drop n) e (val.drop n) now kids) rest, fresh + 1,
            ((key.drop n).length : Int) - leafLoss kids l k, leafLoss kids l k⟩
    else
      match insWalk P e now fresh rest key val with
      | some r => some { r with tree := .node i k x v l t kids r.tree }
      | none => none

/-- `_insert_normal` at the root. -/
def insRoot (P : Nat) (e : Ext) (now fresh : Nat) (f : Forest) (key : Key) (val : Slots) : Ins :=
  match insWalk P e now fresh f key val with
  | some r => r
  | none => ⟨0, fresh, addLeaf fresh key e val now f, fresh + 1, (key.length : Int), 0⟩

/-- `insert`, L249-283, returning `(prefix_len, last_node)`. -/
def insert (P : Nat) (now : Nat) (c : Cache) (e : Ext) (key : Key) (val : Slots) : (Nat × Option Nat) × Cache :=
  if key = [] then ((0, none), c)
  else
    let r := insRoot P e now c.fresh c.tree key val
    ((r.plen, some r.last), { c with tree := r.tree, fresh := r.fresh, evictable := c.evictable + r.dEvict })

/-! ### Locks -/

def ids : Forest → List Nat
  | .nil => []
  | .node i _ _ _ _ _ kids rest => i :: (ids kids ++ ids rest)

/-- The loops of `inc_lock_ref` and `dec_lock_ref` (L363-385, L397-411) from node `x` up: `d` is added to the lock count of
every node whose subtree contains `x`. -/
def addLock (x : Nat) (d : Int) : Forest → Forest
  | .nil => .nil
  | .node i k e v l t kids rest =>
    if x = i ∨ x ∈ ids kids then .node i k e v (l + d) t (addLock x d kids) rest
    else .node i k e v l t kids (addLock x d rest)

/-- Tokens on that path in nodes with lock count `l0` (L364-366, L398-400). -/
def pathLen (x : Nat) (l0 : Int) : Forest → Int
  | .nil => 0
  | .node i k _ _ l _ kids rest =>
    if x = i ∨ x ∈ ids kids then (if l = l0 then (k.length : Int) else 0) + pathLen x l0 kids else pathLen x l0 rest

/-- `inc_lock_ref`, L351-386, for a node of the tree. -/
def incLock (c : Cache) (x : Nat) : Cache :=
  { c with tree := addLock x 1 c.tree, evictable := c.evictable - pathLen x 0 c.tree, prot := c.prot + pathLen x 0 c.tree }

/-- `dec_lock_ref`, L388-411. -/
def decLock (c : Cache) (x : Nat) : Cache :=
  { c with tree := addLock x (-1) c.tree, evictable := c.evictable + pathLen x 1 c.tree, prot := c.prot - pathLen x 1 c.tree }

/-! ### Eviction -/

/-- A node without its position. -/
structure Info where
  id : Nat
  key : Key
  val : Slots
  lock : Int
  time : Nat
  leaf : Bool
  deriving DecidableEq, Repr

def infos : Forest → List Info
  | .nil => []
  | .node i k _ v l t kids rest => ⟨i, k, v, l, t, decide (kids = .nil)⟩ :: (infos kids ++ infos rest)

def info (f : Forest) (x : Nat) : Option Info := (infos f).find? fun n => n.id == x

/-- Parent of a node (`none`: the root), L312. `p` is the parent of the siblings of the list. -/
def parent (x : Nat) : Option Nat → Forest → Option Nat
  | _, .nil => none
  | p, .node i _ _ _ _ _ kids rest =>
    if x = i then p else if x ∈ ids kids then parent x (some i) kids else parent x p rest

/-- `_delete_leaf`, L703: the node leaves the children of its parent. -/
def remove (x : Nat) : Forest → Forest
  | .nil => .nil
  | .node i k e v l t kids rest =>
    if x = i then rest
    else if x ∈ ids kids then .node i k e v l t (remove x kids) rest
    else .node i k e v l t kids (remove x rest)

/-- `_collect_evictable_leaves`, L719-733. -/
def evictableLeaves (f : Forest) : List Info := (infos f).filter fun n => n.leaf && n.lock == 0

/-- State of the loop of `evict`, L302-324: the cache, the heap of `(last_access_time, node)`, the indices returned to
the pool (L307), the count. -/
structure EvSt where
  cache : Cache
  heap : List (Nat × Nat)
  freed : Slots
  count : Nat
  deriving DecidableEq, Repr

/-- What follows `heappop` for node `x`, L304-324. -/
def evictPop (s : EvSt) (x : Nat) (heap : List (Nat × Nat)) : EvSt :=
  match info s.cache.tree x with
  | none => { s with heap := heap }
  | some n =>
    if n.lock > 0 then { s with heap := heap }
    else
      let tree := remove x s.cache.tree
      let heap' :=
        match parent x none s.cache.tree with
        | none => heap
        | some p =>
          match info tree p with
          | none => heap
          | some q => if q.leaf && q.lock == 0 then heap ++ [(q.time, p)] else heap
      { cache := { s.cache with tree := tree, evictable := s.cache.evictable - (n.key.length : Int) }
        heap := heap', freed := s.freed ++ n.val, count := s.count + n.val.length }

/-- The loop L302: some node of the heap with the smallest time is popped (the order among equal times is left open). -/
inductive EvictRun (target : Nat) : EvSt → EvSt → Prop where
  | enough (s) : target ≤ s.count → EvictRun target s s
  | empty (s) : s.heap = [] → EvictRun target s s
  | pop {s s'} (t x : Nat) : s.count < target → (t, x) ∈ s.heap → (∀ y ∈ s.heap, t ≤ y.1) →
      EvictRun target (evictPop s x (s.heap.erase (t, x))) s' → EvictRun target s s'

/-- `evict(num_tokens)`, L285-349 without sliding window: `freed` are the indices returned to the pool, `full_evicted` is
their number. -/
def Evict (target : Nat) (c : Cache) (freed : Slots) (c' : Cache) : Prop :=
  if target = 0 then freed = [] ∧ c' = c
  else ∃ s, EvictRun target ⟨c, (evictableLeaves c.tree).map fun n => (n.time, n.id), [], 0⟩ s ∧ freed = s.freed ∧ c' = s.cache

/-- `total_size`, L188-197. -/
def totalSize : Forest → Nat
  | .nil => 0
  | .node _ _ _ v _ _ kids rest => v.length + totalSize kids + totalSize rest

/-! ### Insertion with sliding window -/

/-- The loop of `_insert_swa`, L587-612, on the children of a node, for calls with `swa_evicted_seqlen = 0` on a tree
without tombstones (no sliding-window eviction so far), `node.value` and `swa_*` counters left out: unlike
`_insert_normal`, the node returned by `_split_node` is dropped (L595), so after a split the loop goes on at the lower
half. `none`: no child has the first page of the key. Then `_add_leaf` (L626). -/
def insSwa (P : Nat) (e : Ext) (now fresh : Nat) : Forest → Key → Slots → Option (Nat × Forest × Nat)
  | .nil, _, _ => none
  | .node i k x v l t kids rest, key, val =>
    if x = e ∧ k.take P = key.take P then
      let n := kmatch P k key
      let sub : Nat × Forest × Nat :=
        if key.drop n = [] then (0, kids, fresh)
        else
          match insSwa P e now fresh kids (key.drop n) (val.drop n) with
          | some r => r
          | none => (0, addLeaf fresh (key.drop n) e (val.drop n) now kids, fresh + 1)
      if n < k.length then
        some (n + sub.1, .node sub.2.2 (k.take n) x (v.take n) l now (.node i (k.drop n) x (v.drop n) l now sub.2.1 .nil) rest,
          sub.2.2 + 1)
      else some (n + sub.1, .node i k x v l now sub.2.1 rest, sub.2.2)
    else
      match insSwa P e now fresh rest key val with
      | some r => some (r.1, .node i k x v l t kids r.2.1, r.2.2)
      | none => none

/-- `insert` with sliding window, L272-276: the number of tokens already present, and the cache. -/
def insertSwa (P : Nat) (now : Nat) (c : Cache) (e : Ext) (key : Key) (val : Slots) : Nat × Cache :=
  if key = [] then (0, c)
  else
    match insSwa P e now c.fresh c.tree key val with
    | some r => (r.1, { c with tree := r.2.1, fresh := r.2.2 })
    | none => (0, { c with tree := addLeaf c.fresh key e val now c.tree, fresh := c.fresh + 1 })

/-! ### Histories -/

/-- A call of the API, with what the caller passes. -/
inductive Op where
  | matchPrefix (now : Nat) (e : Ext) (key : Key)
  | insert (now : Nat) (e : Ext) (key : Key) (val : Slots)
  | lock (x : Nat)
  | unlock (x : Nat)
  | evict (target : Nat)

/-- The cache together with the locks that are held (one entry per `inc_lock_ref` without its `dec_lock_ref`). -/
structure St where
  cache : Cache
  held : List Nat

/-- One call. Callers lock nodes of the tree (the result of a match or insert that has not been evicted since) and unlock
what they have locked; keys and values have the same length; keys are whole pages (see `C36_unaligned_violated`). -/
inductive Step (P : Nat) : St → Op → St → Prop where
  | matchPrefix {s} (now e key) : Step P s (.matchPrefix now e key) { s with cache := (matchPrefix P now s.cache e key).2 }
  | insert {s} (now e key val) : val.length = key.length → P ∣ key.length →
      Step P s (.insert now e key val) { s with cache := (insert P now s.cache e key val).2 }
  | lock {s} (x) : x ∈ ids s.cache.tree → Step P s (.lock x) { cache := incLock s.cache x, held := x :: s.held }
  | unlock {s} (x) : x ∈ s.held → Step P s (.unlock x) { cache := decLock s.cache x, held := s.held.erase x }
  | evict {s} (target freed c') : Evict target s.cache freed c' → Step P s (.evict target) { s with cache := c' }

/-- The states after a history of calls, most recent first. -/
inductive Reach (P : Nat) : List Op → St → Prop where
  | init : Reach P [] ⟨.empty, []⟩
  | step {ops s op s'} : Reach P ops s → Step P s op s' → Reach P (op :: ops) s'

end Verif.PyRadix
