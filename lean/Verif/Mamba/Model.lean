import Verif.Mamba.Lru
import Verif.PyRadix.Model

/-!
`MambaRadixCache` (`pymllm/mem_cache/mamba_radix_cache.py`, below "L…").

The tree is the one of `Verif.PyRadix` (`MambaTreeNode.key`, `value`, `full_lock_ref`, `children`); the time stamps of its nodes
are not used by this cache (`last_access_time` is set once, L85) and stay 0.  `mamba_value` and `mamba_lock_ref` are functions of
the node id.  Not modelled: `hit_count`, logging, `pretty_print`, the callback `on_node_evict`, the empty tensors' device.
-/
namespace Verif.Mamba
open Verif.PyRadix hiding St Step Reach Op

/-- What a walk down the tree reports: the nodes it passed with their values, from the root down, and the split it did
(old node, new upper node, split length). -/
structure MWalk where
  hits : List (Nat × Slots)
  split : Option (Nat × Nat × Nat)
  tree : Forest
  fresh : Nat

/-- The loop of `match_prefix`, L334-357, with the change of the tree by `_split_node` (L568-584). -/
def mwalk (P : Nat) (e : Ext) (fresh : Nat) : Forest → Key → MWalk
  | .nil, _ => ⟨[], none, .nil, fresh⟩
  | .node i k x v l t kids rest, key =>
    if key = [] then ⟨[], none, .node i k x v l t kids rest, fresh⟩
    else if x = e ∧ k.take P = key.take P then
      if kmatch P k key < k.length then
        ⟨[(fresh, v.take (kmatch P k key))], some (i, fresh, kmatch P k key),
         .node fresh (k.take (kmatch P k key)) x (v.take (kmatch P k key)) l 0
           (.node i (k.drop (kmatch P k key)) x (v.drop (kmatch P k key)) l 0 kids .nil) rest,
         fresh + 1⟩
      else
        let w := mwalk P e fresh kids (key.drop (kmatch P k key))
        ⟨(i, v) :: w.hits, w.split, .node i k x v l 0 w.tree rest, w.fresh⟩
    else
      let w := mwalk P e fresh rest key
      ⟨w.hits, w.split, .node i k x v l t kids w.tree, w.fresh⟩

/-- What the loop of `insert` reports: `path` are the nodes whose state is looked at (L406), `leaf` the new leaf and the length of
its key, `vlen` the length of the value of the node the loop ends at. -/
structure MIns where
  plen : Nat
  last : Nat
  path : List Nat
  split : Option (Nat × Nat × Nat)
  leaf : Option (Nat × Nat)
  vlen : Nat
  tree : Forest
  fresh : Nat
  dEvict : Int

/-- The loop of `insert`, L394-410, and `_add_leaf` (L412-414, L537-562), on the children of a node; `none`: no child has the
first page of the key. -/
def minsWalk (P : Nat) (e : Ext) (fresh : Nat) : Forest → Key → Slots → Option MIns
  | .nil, _, _ => none
  | .node i k x v l t kids rest, key, val =>
    if x = e ∧ k.take P = key.take P then
      let n := kmatch P k key
      if n < k.length then
        let lower : Forest := .node i (k.drop n) x (v.drop n) l 0 kids .nil
        if key.drop n = [] then
          some { plen := n, last := fresh, path := [fresh], split := some (i, fresh, n), leaf := none, vlen := (v.take n).length
                 tree := .node fresh (k.take n) x (v.take n) l 0 lower rest, fresh := fresh + 1, dEvict := 0 }
        else
          some { plen := n, last := fresh + 1, path := [fresh], split := some (i, fresh, n)
                 leaf := some (fresh + 1, (key.drop n).length), vlen := (v.take n).length
                 tree := .node fresh (k.take n) x (v.take n) l 0 (addLeaf (fresh + 1) (key.drop n) e (val.drop n) 0 lower) rest
                 fresh := fresh + 2, dEvict := ((key.drop n).length : Int) }
      else if key.drop n = [] then
        some { plen := n, last := i, path := [i], split := none, leaf := none, vlen := v.length
               tree := .node i k x v l 0 kids rest, fresh := fresh, dEvict := 0 }
      else
        match minsWalk P e fresh kids (key.drop n) (val.drop n) with
        | some r => some { r with plen := n + r.plen, path := i :: r.path, tree := .node i k x v l 0 r.tree rest }
        | none =>
          some { plen := n, last := fresh, path := [i], split := none, leaf := some (fresh, (key.drop n).length), vlen := v.length
                 tree := .node i k x v l 0 (addLeaf fresh (key.drop n) e (val.drop n) 0 kids) rest
                 fresh := fresh + 1, dEvict := ((key.drop n).length : Int) - leafLoss kids l k }
    else
      match minsWalk P e fresh rest key val with
      | some r => some { r with tree := .node i k x v l t kids r.tree }
      | none => none

/-- The same at the root, whose children are the forest. -/
def minsRoot (P : Nat) (e : Ext) (fresh : Nat) (f : Forest) (key : Key) (val : Slots) : MIns :=
  match minsWalk P e fresh f key val with
  | some r => r
  | none =>
    { plen := 0, last := fresh, path := [], split := none, leaf := some (fresh, key.length), vlen := 0
      tree := addLeaf fresh key e val 0 f, fresh := fresh + 1, dEvict := (key.length : Int) }

/-- The state of a `MambaRadixCache`, L243-314. `cache` holds the tree, `_full_evictable` and `_full_protected`. -/
structure MC where
  cache : Cache
  mv : Nat → Option Slots
  ml : Nat → Int
  flru : LRU
  mlru : LRU
  mEv : Int
  mPr : Int

def MC.empty : MC := ⟨.empty, fun _ => none, fun _ => 0, .empty, .empty, 0, 0⟩

/-- The rest of `_split_node`: locks L572, states L577-579, lists L587-589. -/
def MC.split (s : MC) : Option (Nat × Nat × Nat) → MC
  | none => s
  | some (c, new, n) =>
    { s with
      ml := Function.update s.ml new (s.ml c)
      mv := match s.mv c with
        | none => s.mv
        | some m => Function.update (Function.update s.mv new (some (m.take n))) c (some (m.drop n))
      flru := s.flru.insertMru new
      mlru := match s.mv c with
        | none => s.mlru
        | some _ => s.mlru.insertMru new }

/-- `mamba_branching_seqlen`, L346-348, L353-355: the tokens before the first matched node without state. -/
def branching (mv : Nat → Option Slots) : Nat → List (Nat × Slots) → Option Nat
  | _, [] => none
  | m, (i, v) :: hits => if mv i = none then some m else branching mv (m + v.length) hits

/-- `match_prefix`, L316-373: `(indices, last_node, mamba_branching_seqlen)` and the new state; `none` as a node is the root. -/
def MC.matchPrefix (P : Nat) (s : MC) (e : Ext) (key : Key) : (Slots × Option Nat × Option Nat) × MC :=
  let w := mwalk P e s.cache.fresh s.cache.tree (align P key)
  let s1 := { s with cache := { s.cache with tree := w.tree, fresh := w.fresh } }.split w.split
  let up := w.hits.reverse.map (·.1)
  (((w.hits.map (·.2)).flatten, (w.hits.map (·.1)).getLast?, branching s1.mv 0 w.hits),
    { s1 with
      flru := s1.flru.touch (fun _ => false) up .head
      mlru := s1.mlru.touch (fun i => s1.mv i == none) up .head })

/-- What `insert` does with the new leaf (L553-560) or at the existing node (L415-419). -/
def MC.store (s : MC) (r : MIns) (mval : Option Slots) : MC :=
  match r.leaf with
  | some (i, n) =>
    match mval with
    | none => { s with flru := s.flru.insertMru i }
    | some m =>
      { s with flru := s.flru.insertMru i, mv := Function.update s.mv i (some m), mlru := s.mlru.insertMru i, mEv := s.mEv + n }
  | none =>
    match mval, s.mv r.last with
    | some m, none =>
      { s with mv := Function.update s.mv r.last (some m), mlru := s.mlru.insertMru r.last, mEv := s.mEv + r.vlen }
    | _, _ => s

/-- `insert`, L375-423: `(prefix_len, last_node, mamba_exist)` and the new state. -/
def MC.insert (P : Nat) (s : MC) (e : Ext) (key : Key) (val : Slots) (mval : Option Slots) : (Nat × Option Nat × Bool) × MC :=
  if key = [] then ((0, none, false), s)
  else
    let r := minsRoot P e s.cache.fresh s.cache.tree key val
    let s1 := { s with cache := { s.cache with tree := r.tree, fresh := r.fresh, evictable := s.cache.evictable + r.dEvict } }.split r.split
    ((r.plen, some r.last, r.path.any fun i => s1.mv i != none), s1.store r mval)

/-! ### Locks -/

/-- The part of `inc_lock_ref` about the state, L489-493. -/
def MC.lockState (s : MC) (x : Nat) : MC :=
  match s.mv x with
  | none => s
  | some m =>
    if s.ml x = 0 ∧ s.mlru.cache x then
      { s with ml := Function.update s.ml x (s.ml x + 1), mEv := s.mEv - m.length, mPr := s.mPr + m.length }
    else { s with ml := Function.update s.ml x (s.ml x + 1) }

/-- `inc_lock_ref`, L479-503, for a node of the tree. -/
def MC.lock (s : MC) (x : Nat) : MC := { s.lockState x with cache := incLock s.cache x }

/-- The part of `dec_lock_ref` about the state, L511-515. -/
def MC.unlockState (s : MC) (x : Nat) : MC :=
  if 0 < s.ml x then
    if s.ml x - 1 = 0 ∧ s.mv x ≠ none then
      { s with ml := Function.update s.ml x (s.ml x - 1), mEv := s.mEv + ((s.mv x).getD []).length
               mPr := s.mPr - ((s.mv x).getD []).length }
    else { s with ml := Function.update s.ml x (s.ml x - 1) }
  else s

/-- `dec_lock_ref`, L505-524. -/
def MC.unlock (s : MC) (x : Nat) : MC := { s.unlockState x with cache := decLock s.cache x }

/-! ### Eviction -/

/-- The loops of `evict`: the cache, the indices returned to the KV pool and to the state pool, the two counts. -/
structure EvM where
  c : MC
  freed : Slots
  mfreed : Slots
  full : Nat
  mamba : Nat

/-- The test of `get_lru_leaf_unlocked`, L188 (the lists hold nodes of the tree only, `C134_lists`). -/
def leafFree (f : Forest) (x : Nat) : Bool :=
  match info f x with
  | none => false
  | some n => n.lock == 0 && n.leaf

/-- One round of the first loop, L440-446, with `_delete_leaf` (L593-607). -/
def evictLeaf (s : EvM) (x : Nat) : EvM :=
  match info s.c.cache.tree x with
  | none => s
  | some n =>
    { c :=
        { s.c with
          cache := { s.c.cache with tree := remove x s.c.cache.tree, evictable := s.c.cache.evictable - (n.key.length : Int) }
          mv := Function.update s.c.mv x none
          flru := if s.c.flru.cache x then s.c.flru.remove x else s.c.flru
          mlru := if s.c.mv x ≠ none ∧ s.c.mlru.cache x then s.c.mlru.remove x else s.c.mlru
          mEv := if s.c.mv x ≠ none ∧ s.c.mlru.cache x then s.c.mEv - n.key.length else s.c.mEv }
      freed := s.freed ++ n.val
      mfreed := s.mfreed ++ (s.c.mv x).getD []
      full := s.full + n.val.length
      mamba := if s.c.mv x ≠ none then s.mamba + n.val.length else s.mamba }

/-- The first loop of `evict`, L435-457. -/
inductive Phase1 (target : Nat) : EvM → EvM → Prop where
  | enough (s) : target ≤ s.full → Phase1 target s s
  | none (s) : s.full < target → s.c.flru.Lru (leafFree s.c.cache.tree) none → Phase1 target s s
  | pop {s s'} (x) : s.full < target → s.c.flru.Lru (leafFree s.c.cache.tree) (some x) → Phase1 target (evictLeaf s x) s' → Phase1 target s s'

/-- One round of the second loop, L468-473, for a state `m`. -/
def evictState (s : EvM) (x : Nat) (m : Slots) : EvM :=
  { s with
    c := { s.c with mv := Function.update s.c.mv x none, mlru := s.c.mlru.remove x, mEv := s.c.mEv - m.length }
    mfreed := s.mfreed ++ m
    mamba := s.mamba + m.length }

/-- The second loop of `evict`, L460-473. The `continue` of L466-467 changes nothing: a node without state found there makes the loop
run for ever, and there is no result. -/
inductive Phase2 (target : Nat) : EvM → EvM → Prop where
  | enough (s) : target ≤ s.mamba → Phase2 target s s
  | none (s) : s.mamba < target → s.c.mlru.Lru (fun i => s.c.ml i == 0) none → Phase2 target s s
  | skip {s s'} (x) : s.mamba < target → s.c.mlru.Lru (fun i => s.c.ml i == 0) (some x) → s.c.mv x = .none → Phase2 target s s' →
      Phase2 target s s'
  | pop {s s'} (x m) : s.mamba < target → s.c.mlru.Lru (fun i => s.c.ml i == 0) (some x) → s.c.mv x = some m →
      Phase2 target (evictState s x m) s' → Phase2 target s s'

/-- `evict(num_tokens, swa_num_tokens)`, L425-477, ending in the state `s'` with what it has freed and counted. -/
def MC.Evict (target mtarget : Nat) (s : MC) (r : EvM) : Prop :=
  ∃ m, Phase1 target ⟨s, [], [], 0, 0⟩ m ∧ Phase2 mtarget m r

/-! ### Histories -/

/-- A call of the API. -/
inductive Op where
  | matchPrefix (e : Ext) (key : Key)
  | insert (e : Ext) (key : Key) (val : Slots) (mval : Option Slots)
  | lock (x : Nat)
  | unlock (x : Nat)
  | evict (target mtarget : Nat)

/-- The cache together with the locks that are held. -/
structure St where
  c : MC
  held : List Nat

/-- One call; callers as in `Verif.PyRadix.Step`. -/
inductive Step (P : Nat) : St → Op → St → Prop where
  | matchPrefix {s} (e key) : Step P s (.matchPrefix e key) { s with c := (s.c.matchPrefix P e key).2 }
  | insert {s} (e key val mval) : val.length = key.length → P ∣ key.length →
      Step P s (.insert e key val mval) { s with c := (s.c.insert P e key val mval).2 }
  | lock {s} (x) : x ∈ ids s.c.cache.tree → Step P s (.lock x) { c := s.c.lock x, held := x :: s.held }
  | unlock {s} (x) : x ∈ s.held → Step P s (.unlock x) { c := s.c.unlock x, held := s.held.erase x }
  | evict {s} (target mtarget r) : s.c.Evict target mtarget r → Step P s (.evict target mtarget) { s with c := r.c }

/-- The states after a history of calls, most recent first. -/
inductive Reach (P : Nat) : List Op → St → Prop where
  | init : Reach P [] ⟨.empty, []⟩
  | step {ops s op s'} : Reach P ops s → Step P s op s' → Reach P (op :: ops) s'

end Verif.Mamba
