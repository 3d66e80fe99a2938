import Verif.Radix.Model
/-
Model of the sliding-window eviction of the CPU prefix cache.
Source: /repo/mllm/nn/lmcache/PrefixCache.cpp L86-137 (on the radix tree of Verif.Radix.Model).

Simplifications: a column `c` is one (layer, k-or-v) pair, `slide c` says whether its layer is a
sliding-window layer; the layer loop (L97) treats columns independently, so the model handles all the
columns in one pass over the path and reports the freed addresses per column. `sliding_window_size`
is a natural number. `inv` is `INVALID_VP_ADDR`.
-/
namespace Verif.Evict
open Verif.Radix

/-- The options read by the eviction (PrefixCache.hpp L42-44). -/
structure Opts (C : Type) where
  hybrid : Bool
  window : Nat
  slide : C → Bool

/-- Number of entries freed in one path node, PrefixCache.cpp L110-113: `cnt` is `length_cnt` (tokens
of the path after this node), `ml` the matched length of the node. -/
def toEvict (w cnt ml : Nat) : Nat := if cnt + ml > w then min ml (cnt + ml - w) else 0

/-- The reverse loop over `result.path`, PrefixCache.cpp L105-123, performed on the tree: the path of
`find` (`Radix.path`, extra key 0) is followed downwards, nodes are processed on the way back.
Returns the tree, `length_cnt`, and the addresses passed to the allocator's `free`
(`freeKey`/`freeValue` skip `INVALID_VP_ADDR`, L129-137). -/
def evictWalk {C A : Type} [DecidableEq A] (inv : A) (w : Nat) (slide : C → Bool) :
    Forest C A → List Int → Forest C A × Nat × (C → List A)
  | .nil, _ => (.nil, 0, fun _ => [])
  | .cons toks ex val ref kids rest, key =>
    if key = [] then (.cons toks ex val ref kids rest, 0, fun _ => [])
    else
      let ml := matchedLength key 0 toks ex
      if ml = 0 then
        let r := evictWalk inv w slide rest key
        (.cons toks ex val ref kids r.1, r.2.1, r.2.2)
      else
        let r := evictWalk inv w slide kids (key.drop ml)
        let k := toEvict w r.2.1 ml
        (.cons toks ex
            (fun c => if slide c then List.replicate k inv ++ (val c).drop k else val c) ref r.1 rest,
          r.2.1 + ml,
          fun c => r.2.2 c ++ (if slide c then ((val c).take k).filter (· ≠ inv) else []))

/-- `CpuPrefixCache::evictSlidingWindowLayerOn`, PrefixCache.cpp L86-127. -/
def evict {C A : Type} [DecidableEq A] (inv : A) (o : Opts C) (t : Forest C A) (key : List Int) :
    Forest C A × (C → List A) :=
  if o.hybrid = false then (t, fun _ => [])
  else if key.length ≤ o.window then (t, fun _ => [])
  else
    let res := cacheFind t key
    if res.success ∧ res.matched > o.window then
      let r := evictWalk inv o.window o.slide t key
      (r.1, r.2.2)
    else (t, fun _ => [])

/-- Operations on a prefix cache: `promote` (with the flag of `Radix.insertRaw`) and eviction. -/
inductive Act (C A : Type) where
  | promote (ok : Bool) (r : Ins C A)
  | evict (key : List Int)

/-- The tree after a history of operations, oldest first. -/
def run {C A : Type} [DecidableEq A] (inv : A) (o : Opts C) (h : List (Act C A)) : Forest C A :=
  h.foldl (fun t a => match a with
    | .promote ok r => insertRaw ok t r
    | .evict key => (evict inv o t key).1) .nil

/-- All the addresses stored in the tree for one column. -/
def stored {C A : Type} (c : C) : Forest C A → List A
  | .nil => []
  | .cons _ _ val _ kids rest => val c ++ stored c kids ++ stored c rest

end Verif.Evict
