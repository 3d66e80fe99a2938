import Verif.Tensor.Props

/-
KV caches (C21, C22, C42). Sources: mllm/nn/lmcache/StaticCache.{hpp,cpp}, DynamicCache.cpp.

Modelled: CPU branch of `StaticCache::updateKVCache`, `getKVCache`, `clearCache`, `setCurrentSeqCnt`,
`SubStaticCache` (constructor, `updateKVCache`, `clearCache`), `DynamicCache::updateKVCache`.
Not modelled: the non-CPU `copy2` branch, `preGetKVWriteLocation`, block-quantised cache types
(more than one lane per block). Arithmetic stays inside `int32_t`. Layer indices are in range.
-/
namespace Verif.KVCache
open Verif.Tensor

variable {α : Type}

/-- How a run can fail: a thrown exception or failed assertion (`abort`), or undefined behaviour
(`ub`: a `memcpy` outside the buffer). -/
inductive Fail where
  | abort
  | ub
  deriving DecidableEq

/-- Constructor arguments, StaticCache.cpp L13-23. -/
structure Cfg where
  maxLen : Nat
  qHeads : Nat
  kvHeads : Nat
  dim : Nat
  fa2 : Bool := false

/-- `repeat_times = q_heads_ / kv_heads_`, StaticCache.cpp L93. -/
def Cfg.rep (c : Cfg) : Nat := c.qHeads / c.kvHeads

/-- Shape of one layer's buffer, StaticCache.cpp L27-64. -/
def Cfg.shape (c : Cfg) : List Nat :=
  if c.fa2 then [1, c.maxLen, c.kvHeads, c.dim] else [1, c.qHeads, c.maxLen, c.dim]

abbrev Mem (α : Type) := Int → Option α

/-- State: contents of the key and value buffers and the token count, per layer. -/
structure State (α : Type) where
  k : Nat → Mem α
  v : Nat → Mem α
  cnt : Nat → Nat

/-- A fresh cache: `Tensor::zeros`, count 0. -/
def init (zero : α) : State α := ⟨fun _ _ => some zero, fun _ _ => some zero, fun _ => 0⟩

/-- A layer's buffer as a tensor. -/
def bufT (c : Cfg) (m : Mem α) : Tens α := ⟨0, c.shape, rowStrides c.shape, m⟩

/-- `std::memcpy(buf + base, src, n)` in elements. Writing past the end of the buffer (`cap`
elements) is undefined behaviour. -/
def copyTo (cap : Nat) (m : Mem α) (base n : Nat) (src : Nat → Option α) : Except Fail (Mem α) :=
  if n = 0 then .ok m
  else if cap < base + n then .error .ub
  else .ok fun a => if (base : Int) ≤ a ∧ a < base + n then src (a - base).toNat else m a

/-- What `k.offsettedPtr({0, h, 0, 0})` points to, read consecutively. -/
def headRaw (t : Tens α) (h i : Nat) : Option α := t.mem (t.addr [0, h, 0, 0] + i)

/-- The double loop over heads, StaticCache.cpp L97-110 (and L190-206 for the sub-cache), for one of the
two buffers; the loop writes both, in separate allocations. `pos` is the token position written,
`len` the number of tokens (always taken from `k`). -/
def copyHeads (c : Cfg) (m : Mem α) (pos len : Nat) (t : Tens α) : Except Fail (Mem α) :=
  ((List.range c.kvHeads).flatMap fun h => (List.range c.rep).map fun r => (h, r)).foldlM
    (fun m hr => copyTo (c.qHeads * c.maxLen * c.dim) m
      (((hr.1 * c.rep + hr.2) * c.maxLen + pos) * c.dim) (len * c.dim) (headRaw t hr.1)) m

/-- The returned views `cache[{kAll, kAll, {kAll, cnt}, kAll}]` (eager) or
`cache[{kAll, {kAll, cnt}, kAll, kAll}]` (fa2): StaticCache.cpp L81-84, L131-134, L141-155. -/
def prefixView (c : Cfg) (m : Mem α) (cnt : Nat) : Option (Tens α) :=
  slice (bufT c m) (if c.fa2 then [{}, ⟨kAll, cnt, 1⟩, {}, {}] else [{}, {}, ⟨kAll, cnt, 1⟩, {}])

/-- `StaticCache::getKVCache(layer)`. -/
def getKV (c : Cfg) (s : State α) (l : Nat) : Option (Tens α × Tens α) := do
  let k ← prefixView c (s.k l) (s.cnt l)
  let v ← prefixView c (s.v l) (s.cnt l)
  pure (k, v)

def upd {β} (f : Nat → β) (l : Nat) (x : β) : Nat → β := fun i => if i = l then x else f i

/-- `StaticCache::updateKVCache(layer, k, v)`, StaticCache.cpp L70-139. In fa2 mode the operation only
prints a message (L77). -/
def update (c : Cfg) (s : State α) (l : Nat) (k v : Tens α) :
    Except Fail (State α × Option (Tens α × Tens α)) :=
  if c.fa2 then
    if k.shape.getD 2 0 ≠ c.kvHeads ∨ v.shape.getD 2 0 ≠ c.kvHeads then .error .abort
    else .ok (s, getKV c s l)
  else if k.shape.getD 1 0 ≠ c.kvHeads ∨ v.shape.getD 1 0 ≠ c.kvHeads then .error .abort
  else do
    let len := k.shape.getD 2 0
    let mk ← copyHeads c (s.k l) (s.cnt l) len k
    let mv ← copyHeads c (s.v l) (s.cnt l) len v
    let s' : State α := ⟨upd s.k l mk, upd s.v l mv, upd s.cnt l (s.cnt l + len)⟩
    .ok (s', getKV c s' l)

/-- `clearCache`, StaticCache.hpp L47-49. -/
def clear (s : State α) : State α := { s with cnt := fun _ => 0 }

/-- `setCurrentSeqCnt(seq)`, StaticCache.hpp L43-45. -/
def setCnt (s : State α) (n : Nat) : State α := { s with cnt := fun _ => n }

/-! ### SubStaticCache: a window of the same buffers starting at token `start` -/

structure Sub where
  start : Nat
  len : Nat
  cnt : Nat → Nat

/-- Constructor, StaticCache.hpp L85-101. -/
def mkSub (c : Cfg) (start len : Nat) : Except Fail Sub :=
  if c.fa2 then .error .abort else .ok ⟨start, len, fun _ => len⟩

/-- `SubStaticCache::updateKVCache`, StaticCache.cpp L175-232. `sub_k_cache_` is the parent buffer from
token `start` on. -/
def subUpdate (c : Cfg) (s : State α) (b : Sub) (l : Nat) (k v : Tens α) :
    Except Fail (State α × Sub × Option (Tens α × Tens α)) :=
  let len := k.shape.getD 2 0
  if c.maxLen < b.start + (b.cnt l + len) then .error .abort
  else if k.shape.getD 1 0 ≠ c.kvHeads ∨ v.shape.getD 1 0 ≠ c.kvHeads then .error .abort
  else do
    let mk ← copyHeads c (s.k l) (b.start + b.cnt l) len k
    let mv ← copyHeads c (s.v l) (b.start + b.cnt l) len v
    let s' : State α := ⟨upd s.k l mk, upd s.v l mv, s.cnt⟩
    let b' : Sub := { b with cnt := upd b.cnt l (b.cnt l + len) }
    let win (m : Mem α) : Option (Tens α) := do
      let w ← slice (bufT c m) [{}, {}, ⟨b.start, kAll, 1⟩, {}]
      slice w [{}, {}, ⟨kAll, b'.cnt l, 1⟩, {}]
    .ok (s', b', do
      let wk ← win (s'.k l)
      let wv ← win (s'.v l)
      pure (wk, wv))

/-! ### DynamicCache -/

structure DCfg where
  qHeads : Nat
  kvHeads : Nat
  fa2 : Bool

/-- Per layer: the concatenated key and value tensors; `none` = `Tensor::nil()`. -/
abbrev DState (α : Type) := Nat → Option (Tens α × Tens α)

/-- `DynamicCache::updateKVCache`, DynamicCache.cpp L17-37. (The two caches of a layer are always
both nil or both set.) -/
def dynUpdate (c : DCfg) (s : DState α) (l : Nat) (k v : Tens α) :
    Except Fail (DState α × (Tens α × Tens α)) :=
  if k.shape.getD 1 0 ≠ c.kvHeads ∨ v.shape.getD 1 0 ≠ c.kvHeads then .error .abort
  else
    match (if c.fa2 then some k else repeatOp k (c.qHeads / c.kvHeads) 1),
        (if c.fa2 then some v else repeatOp v (c.qHeads / c.kvHeads) 1) with
    | some k', some v' =>
      match s l with
      | none => .ok (upd s l (some (k', v')), (k', v'))
      | some (ck, cv) =>
        match concat [ck, k'] 2, concat [cv, v'] 2 with
        | some nk, some nv => .ok (upd s l (some (nk, nv)), (nk, nv))
        | _, _ => .error .abort
    | _, _ => .error .abort

end Verif.KVCache
