import Verif.Prelude
import Mathlib.Data.Rat.Floor
import Mathlib.Algebra.Order.Floor.Ring

/-!
# Lazy pruning of visual tokens

Models of algorithms/lazy_vlm: models/qwen2_5vl/modeling_qwen2_5vl_fast.hpp (`LF`), models/qwen2_5vl/lazy_vlm_cfg_fast.hpp
(`LC`) and HKVCacheFast.cpp (`HK`).  Of a hidden state or a key-value pair only the token it belongs to is tracked: `none`
is memory nothing was written to.  Batch size one.  The attention networks enter through the choices of the top-k
operator only, which are arbitrary.
-/

namespace Verif.Lazy

/-- The caches (HK L13-L47, L85-L92) of all layers. -/
structure St where
  /-- The token whose key and value a slot of a layer's cache holds. -/
  slot : Nat → Nat → Option Nat
  /-- The token whose state a row of a layer's hidden state cache holds; the model has a row for every position. -/
  hid : Nat → Nat → Option Nat
  /-- `kv_not_filled_pos_`. -/
  missing : Nat → List Nat
  /-- `current_seq_cnt_`, the same for all layers. -/
  len : Nat

/-- The fixed parameters of a request: layers, the layers that prune with their rates, the positions of the image. -/
structure Cfg where
  layers : Nat
  prune : Nat → Option ℚ
  first : Nat
  last : Nat

/-- Before the first call (LF L1262-L1273). -/
def fresh (c : Cfg) : St := ⟨fun _ _ => none, fun _ _ => none, fun _ => List.range' c.first (c.last - c.first), 0⟩

/-- Stores of rows at positions (HK L66-L79, L99-L110). -/
def store (f : Nat → Option Nat) (ps : List Nat) (rows : List (Option Nat)) : Nat → Option Nat :=
  (ps.zip rows).foldl (fun f a => Function.update f a.1 a.2) f

/-- `mappingThis2NextPos` (LF L27-L35): the indices of the elements that occur in the other list. -/
def mapping (this next : List Nat) : List Nat := (List.range this.length).filter fun i => decide (this.getD i 0 ∈ next)

/-- The number of visual tokens to keep (LC L100-L103). -/
def keepCount (n : Nat) (rate : ℚ) : Nat := min ⌈(n : ℚ) * (1 - rate)⌉₊ n

/-- `select_high_score_visual_token_prefill` and `_decode` (LC L90-L134, L136-L167) for the indices `pick` that top-k
returns; `none` is a failed assertion, or a list top-k cannot return. -/
def select (c : Cfg) (cur : List Nat) (rate : ℚ) (pick : List Nat) : Option (List Nat) := do
  let vs ← cur.findIdx? fun p : Nat => decide ((p : Int) = (c.first : Int) - 1)
  let ve ← cur.findIdx? fun p => decide (p = c.last)
  let n := ve - vs - 1
  if pick.Nodup ∧ (∀ i ∈ pick, i < n) ∧ pick.length = keepCount n rate then
    some ((cur.take (vs + 1) ++ pick.map (fun i => cur.getD (vs + 1 + i) 0) ++ cur.drop ve).mergeSort (fun a b => decide (a ≤ b)))
  else none

/-- The state of a pass between two layers: the caches, the positions chosen, those computed late, the rows of the
hidden states, and what the attentions have read so far: layer, position, content. -/
structure Pass where
  st : St
  cur : List Nat
  need : List Nat
  rows : List (Option Nat)
  log : List (Nat × Nat × Option Nat)

/-- `visitHiddenStateCache` (HK L117-L120). -/
def visit (missing cur : List Nat) : List Nat := missing.filter fun p => decide (p ∉ cur)

/-- A layer of the first call (LF L716-L762, L843-L881, L1016-L1051). -/
def prefillLayer (c : Cfg) (pick : List Nat) (l : Nat) (s : Pass) : Option Pass :=
  if s.cur.length ≠ s.rows.length then none
  else
    let slots := store (s.st.slot l) s.cur s.rows
    let st := { s.st with
      slot := Function.update s.st.slot l slots
      missing := Function.update s.st.missing l (visit (s.st.missing l) s.cur) }
    let log := s.log ++ s.cur.map fun p => (l, p, slots p)
    match c.prune l with
    | none => some ⟨st, s.cur, [], s.rows, log⟩
    | some rate => do
      let next ← select c s.cur rate pick
      let idx := mapping s.cur next
      if idx.length ≠ next.length then none
      else
        let st := { st with hid := Function.update st.hid l (store (st.hid l) s.cur s.rows) }
        some ⟨st, next, [], idx.map fun i => s.rows.getD i none, log⟩

/-- A layer of a later call (LF L764-L809, L883-L928, L1099-L1187). -/
def decodeLayer (c : Cfg) (pick : List Nat) (l : Nat) (s : Pass) : Option Pass :=
  let ins := s.need ++ [s.cur.getLastD 0]
  if ins.length ≠ s.rows.length then none
  else
    let slots := store (s.st.slot l) ins s.rows
    let st := { s.st with
      slot := Function.update s.st.slot l slots
      missing := Function.update s.st.missing l (visit (s.st.missing l) s.cur) }
    let log := s.log ++ s.cur.map fun p => (l, p, slots p)
    match c.prune l with
    | none => some ⟨st, s.cur, s.need, s.rows, log⟩
    | some rate => do
      let st := { st with hid := Function.update st.hid l (store (st.hid l) s.need s.rows.dropLast) }
      let next ← select c s.cur rate pick
      let need := (mapping next (st.missing (l + 1))).mergeSort (fun a b => decide (a ≤ b))
      some ⟨st, next, need, need.map (st.hid l) ++ [s.rows.getLastD none], log⟩

/-- The state before layer `l` (LF L1016, L1099). -/
def before (layer : Nat → Pass → Option Pass) (s : Pass) : Nat → Option Pass
  | 0 => some s
  | l + 1 => (before layer s l).bind (layer l)

/-- The first call (LF L972-L1067) with `S` tokens: the caches and the reads of the attentions. -/
def prefill (c : Cfg) (pick : Nat → List Nat) (S : Nat) : Option (St × List (Nat × Nat × Option Nat)) := do
  let s : Pass := ⟨fresh c, List.range S, [], (List.range S).map some, []⟩
  let r ← before (fun l => prefillLayer c (pick l) l) s c.layers
  pure ({ r.st with len := S }, r.log)

/-- The state a later call starts its layers with (LF L1081-L1096): the new token has the position `len`. -/
def start (st : St) : Pass := ⟨st, List.range (1 + st.len), [], [some st.len], []⟩

/-- A later call (LF L1070-L1200) with one token. -/
def decode (c : Cfg) (pick : Nat → List Nat) (st : St) : Option (St × List (Nat × Nat × Option Nat)) := do
  let r ← before (fun l => decodeLayer c (pick l) l) (start st) c.layers
  pure ({ r.st with len := st.len + 1 }, r.log)

/-- The number of rows of the hidden state cache (LF L1263): the visual tokens. -/
def hidRows (c : Cfg) : Nat := c.last - c.first

/-- The rows the first call writes at a pruning layer (LF L867, HK L104-L108). -/
def hidWrites (c : Cfg) (s : Pass) (l : Nat) : List Nat := if (c.prune l).isSome then s.cur else []

end Verif.Lazy
