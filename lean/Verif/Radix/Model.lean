/-
Model of the C++ prefix-cache radix tree.
Source: /repo/mllm/engine/prefix_cache/RadixTree.{hpp,cpp}, Cache.cpp.

Simplifications (all definitions below):
* `std::unordered_map` children are a list; the iteration order of the map is the list order.
  `Props.lean` proves that at most one child of a node can match a given key, so the order (and the
  hash function) is immaterial, and that `emplace` never meets an equal key.
* `VectorView<T>` is the list of elements it shows (RadixTree.hpp L25-130).
* A column index `C` stands for one (layer, k-or-v) pair: `k_cache_addresses[b]` is `val (b, k)`.
* Sizes are `Nat` (C++: `size_t`/`int32_t`, no overflow below 2^31 tokens).
-/
namespace Verif.Radix

/-- A node list (`RadixTreeNode::children`, RadixTree.hpp L177-193) in first-child/next-sibling form:
`cons toks extra val ref kids rest` is a node with edge key `(toks, extra)`, value `val`, reference
count `ref`, children `kids`, followed by its remaining siblings `rest`.
`parent` pointers, `hit_count`, `last_accessed` are not modelled (never read by insert/search). -/
inductive Forest (C A : Type) where
  | nil : Forest C A
  | cons (toks : List Int) (extra : Int) (val : C → List A) (ref : Nat)
      (kids rest : Forest C A) : Forest C A

/-- Arguments of `RadixTree::insert` (RadixTree.hpp L230; `Cache::promote`, Cache.cpp L14-22). -/
structure Ins (C A : Type) where
  extra : Int
  key : List Int
  val : C → List A

/-- Loop of `RadixTree::_matchedLength`, RadixTree.cpp L243-247. -/
def commonLen : List Int → List Int → Nat
  | a :: as, b :: bs => if a = b then commonLen as bs + 1 else 0
  | _, _ => 0

/-- `RadixTree::_matchedLength`, RadixTree.cpp L241-248. -/
def matchedLength (cur : List Int) (curExtra : Int) (pend : List Int) (pendExtra : Int) : Nat :=
  if curExtra ≠ pendExtra then 0 else commonLen cur pend

/-- The search loop of `RadixTree::search`, RadixTree.cpp L119-138: the list of
`(node value, matched_len)` pushed on `path` (the root entry `(root, 0)`, L116, contributes nothing).
Note that the loop descends into the children of a node after *any* non-zero match, even if the
edge was matched only partially (L127-133); the model keeps this. -/
def path {C A : Type} : Forest C A → Int → List Int → List ((C → List A) × Nat)
  | .nil, _, _ => []
  | .cons toks ex val _ kids rest, e, key =>
    if key = [] then []
    else
      let ml := matchedLength key e toks ex
      if ml = 0 then path rest e key
      else (val, ml) :: path kids e (key.drop ml)

/-- Reading elements `0..len-1` of a column with `VectorView::operator[]` (unchecked,
RadixTree.hpp L75, used at RadixTree.cpp L150-153): `none` is an out-of-range access (UB). -/
def readCol {A : Type} (xs : List A) (len : Nat) : Option (List A) :=
  if len ≤ xs.length then some (xs.take len) else none

/-- Column assembly, RadixTree.cpp L148-155. -/
def flatten {C A : Type} (c : C) : List ((C → List A) × Nat) → Option (List A)
  | [] => some []
  | (v, n) :: ps => do
    let xs ← readCol (v c) n
    let ys ← flatten c ps
    pure (xs ++ ys)

/-- `RadixSearchResult`, RadixTree.hpp L213-219 (`path` omitted). -/
structure Result (C A : Type) where
  success : Bool
  matched : Nat
  cols : C → Option (List A)

/-- `RadixTree::search`, RadixTree.cpp L105-165. `cols c = none` means undefined behaviour. -/
def search {C A : Type} (t : Forest C A) (e : Int) (key : List Int) : Result C A :=
  let p := path t e key
  let n := (p.map (·.2)).sum
  if n ≠ 0 then { success := true, matched := n, cols := fun c => flatten c p }
  else { success := false, matched := 0, cols := fun _ => some [] }

/-- `children.emplace(leaf_key, leaf)`, RadixTree.cpp L90-100: the new leaf carries the not yet
matched suffix of the key and of every column (`subview(matched, size - matched)`). The leaf is
put last. If `ok` is false the `subview` of a too short column throws `out_of_range` (L96-97,
RadixTree.hpp L108) before anything is linked. -/
def addLeaf {C A : Type} (ok : Bool) (e : Int) (suffix : List Int) (v : C → List A) :
    Forest C A → Forest C A
  | .nil => if ok then .cons suffix e v 0 .nil .nil else .nil
  | .cons toks ex val ref kids rest => .cons toks ex val ref kids (addLeaf ok e suffix v rest)

/-- `subview(off, len)` of a column with `len` = rest of the key (RadixTree.hpp L107-110). -/
def sub {A : Type} (off len : Nat) (xs : List A) : List A := (xs.drop off).take len

/-- One level of the insertion walk and of the update it leads to, RadixTree.cpp L57-101.
`m` is `matched` so far, `full` the columns of the inserted value.
`none` means that no child of this level matches (L71 `break`), so that the caller's node is
`deepest`. `_split` (L178-231) is the `ml < toks.length` branch: the node keeps `toks.take ml`,
and a new lower node takes the rest and all the children. -/
def insWalk {C A : Type} (ok : Bool) (e : Int) (full : C → List A) :
    Forest C A → Nat → List Int → Option (Forest C A)
  | .nil, _, _ => none
  | .cons toks ex val ref kids rest, m, key =>
    let ml := matchedLength key e toks ex
    if ml = 0 then
      (insWalk ok e full rest m key).map (fun rest' => .cons toks ex val ref kids rest')
    else
      let key' := key.drop ml
      if key' = [] then
        -- L75-78
        some (.cons toks ex val (ref + 1) kids rest)
      else
        match insWalk ok e full kids (m + ml) key' with
        | some kids' => some (.cons toks ex val ref kids' rest)
        | none =>
          let leafVal : C → List A := fun c => sub (m + ml) key'.length (full c)
          if ml < toks.length then
            -- L81-85, _split; then L87-101 on the upper node. `lower->ref_count` starts at 0.
            some (.cons (toks.take ml) ex (fun c => (val c).take ml) ref
              (addLeaf ok e key' leafVal
                (.cons (toks.drop ml) ex (fun c => (val c).drop ml) 0 kids .nil)) rest)
          else
            some (.cons toks ex val ref (addLeaf ok e key' leafVal kids) rest)

/-- `RadixTree::insert`, RadixTree.cpp L44-103, at the root (`root_` itself has no edge to match).
`ok` says whether every column has at least `key.size()` addresses. -/
def insertRaw {C A : Type} (ok : Bool) (t : Forest C A) (r : Ins C A) : Forest C A :=
  if r.key = [] then t
  else match insWalk ok r.extra r.val t 0 r.key with
    | some t' => t'
    | none => addLeaf ok r.extra r.key (fun c => sub 0 r.key.length (r.val c)) t

/-- `insert` for a well-formed value (one address per token in every column). -/
def insert {C A : Type} (t : Forest C A) (r : Ins C A) : Forest C A := insertRaw true t r

/-- The tree after a history of inserts (oldest first) on an empty tree (RadixTree.cpp L29-33). -/
def build {C A : Type} (h : List (Ins C A)) : Forest C A := h.foldl insert .nil

/-- The tree after a history in which inserts with a too short column threw `out_of_range`
(flag `false`; the split of RadixTree.cpp L81-85 has then already been done). -/
def buildThrow {C A : Type} (h : List (Bool × Ins C A)) : Forest C A :=
  h.foldl (fun t x => insertRaw x.1 t x.2) .nil

/-- `Cache::find` / `CpuPrefixCache::find` (Cache.cpp L24-26, nn/lmcache/PrefixCache.cpp L53):
the search key is built with the default `extra_key = 0`. -/
def cacheFind {C A : Type} (t : Forest C A) (key : List Int) : Result C A := search t 0 key

end Verif.Radix
