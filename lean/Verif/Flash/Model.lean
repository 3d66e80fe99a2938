import Verif.Graph.Model
import Mathlib.Analysis.SpecialFunctions.Exp
import Mathlib.Analysis.SpecialFunctions.Log.Basic
/-
Model of the FlashInfer attention backend of pymllm (C108-C111).
Source: pymllm/layers/attention/flashinfer_backend.py (below "L…"), mllm-kernel/mllm_kernel/cuda/csrc/create_kv_indices.cuh
("K…"), pymllm/executor/model_runner.py.

Simplifications (all definitions below):
* Exact arithmetic over the reals. The kernels of the FlashInfer library are described by their contract: a paged or ragged
  wrapper gives softmax attention over the entries of its index range together with the logarithm of the sum of the
  exponentials (nothing, i.e. minus infinity, for an empty range), and `merge_state` the weighted mean.
* `E` is what a slot of the pool holds for one key/value head; a query is given by the score it has with each entry
  (scaling and soft cap included), and values by one component. Heads and components do not interact.
* Page size 1, as everywhere in the backend (`kv_last_page_len` is all ones).
-/
namespace Verif.Flash
open Verif.Graph (Scatter)

/-! ### Index buffers -/

/-- `indptr[1 : bs+1] = cumsum(lens)`, L686, L757, L928, L951. -/
def setIndptr (buf : Nat → Nat) (lens : List Nat) : Nat → Nat :=
  fun i => if 1 ≤ i ∧ i ≤ lens.length then (lens.take i).sum else buf i

/-- The buffer after batches with these lengths, the last one first; created with zeros (L266-L288). -/
def indptrAfter : List (List Nat) → Nat → Nat
  | [] => fun _ => 0
  | l :: ls => setIndptr (indptrAfter ls) l

/-- What one request asks `create_kv_indices` to copy. -/
structure Seg where
  row : Nat
  start : Nat
  len : Nat
  deriving DecidableEq, Repr

/-- The stores of all threads of `create_kv_indices_kernel`, K141-K172. -/
def kvWrites (stride : Nat) (table : Nat → Nat → Nat) (indptr : Nat → Nat) (segs : List Seg) : List (Nat × Nat) :=
  (List.range segs.length).flatMap fun i =>
    match segs[i]? with
    | none => []
    | some s => (List.range s.len).filterMap fun t =>
      if s.start + t < stride then some (indptr i + t, table s.row (s.start + t)) else none

/-- `create_kv_indices`: the stores happen in any order. -/
def CreateKv (stride : Nat) (table : Nat → Nat → Nat) (indptr : Nat → Nat) (segs : List Seg) (kv kv' : Nat → Nat) : Prop :=
  Scatter kv (kvWrites stride table indptr segs) kv'

/-- The indices that the library reads for request `i`. -/
def segment (indptr kv : Nat → Nat) (i : Nat) : List Nat :=
  (List.range (indptr (i + 1) - indptr i)).map fun t => kv (indptr i + t)

/-! ### The library -/

variable {E : Type}

/-- Softmax attention over a list of entries. -/
noncomputable def softAttn (sc val : E → ℝ) (l : List E) : ℝ :=
  (l.map fun e => Real.exp (sc e) * val e).sum / (l.map fun e => Real.exp (sc e)).sum

/-- `forward_return_lse`: output, logarithm of the sum of exponentials. -/
noncomputable def kernel (sc val : E → ℝ) (l : List E) : ℝ × Option ℝ :=
  (softAttn sc val l, if l.isEmpty then none else some (Real.log (l.map fun e => Real.exp (sc e)).sum))

/-- `merge_state`. -/
noncomputable def mergeState (a b : ℝ × Option ℝ) : ℝ × Option ℝ :=
  match a.2, b.2 with
  | some s1, some s2 =>
    let m := max s1 s2
    let w1 := Real.exp (s1 - m)
    let w2 := Real.exp (s2 - m)
    ((a.1 * w1 + b.1 * w2) / (w1 + w2), some (m + Real.log (w1 + w2)))
  | _, none => a
  | none, _ => b

/-! ### Prefill -/

/-- A request in a prefill batch: its row, the number of cached positions, and its new entries. -/
structure Req (E : Type) where
  row : Nat
  pre : Nat
  new : List E

/-- `sliding_window_size` of the backend (L228-L240): `none` is one wrapper, `some w` two. -/
abbrev Win := Option Nat

/-- `_get_wrapper_idx`, L628-L636, for a layer with the given window (`none` for -1): does the layer use the wrapper with the
window? -/
def usesWindow (win : Win) (layer : Option Nat) : Bool := win.isSome && layer.isSome

/-- L838-L847, L872-L891: what the paged wrapper of the layer covers. `use_ragged` is always true (L363). -/
def prefillSeg (win : Win) (layer : Option Nat) (r : Req E) : Seg :=
  match win with
  | some w =>
    if usesWindow win layer then
      let len := min (r.pre + r.new.length) (w + r.new.length)
      ⟨r.row, r.pre + r.new.length - len, len⟩
    else ⟨r.row, 0, r.pre⟩
  | none => ⟨r.row, 0, r.pre⟩

/-- `extend_no_prefix`, L353-L355. -/
def noPrefix (reqs : List (Req E)) : Bool := !(reqs.any fun r => r.pre ≠ 0)

/-- `set_kv_buffer`: entry `g` of the flat list goes to slot `locs g`. -/
def SetKv (pool : Nat → E) (locs : List Nat) (new : List E) (pool' : Nat → E) : Prop := Scatter pool (locs.zip new) pool'

/-- `forward_extend`, L384-L477, for the `j`-th new token of request `i`: the output at `qo_indptr[i] + j`. `new` is the flat
list of new entries, `pool` the pool after `set_kv_buffer`. `none`: reads beyond the end of `k`. -/
noncomputable def extendOut (reqs : List (Req E)) (qo indptr kv : Nat → Nat) (pool : Nat → E) (sc val : E → ℝ) (i j : Nat) : Option ℝ :=
  let flat := reqs.flatMap (·.new)
  -- the ragged wrapper, causal, over `k[qo_indptr[i] : qo_indptr[i+1]]`
  match (List.range (min (j + 1) (qo (i + 1) - qo i))).mapM fun t => flat[qo i + t]? with
  | none => none
  | some own =>
    if noPrefix reqs then some (kernel sc val own).1
    else
      -- the paged wrapper, not causal
      some (mergeState (kernel sc val own) (kernel sc val ((segment indptr kv i).map pool))).1

/-- A whole prefill: `init_forward_metadata` (L336-L382) and the attention of a layer. The index buffers are in any state that
earlier batches left; `kv_indices` is fresh memory. -/
def Extend (stride : Nat) (table : Nat → Nat → Nat) (win : Win) (layer : Option Nat) (qoHist kvHist : List (List Nat)) (reqs : List (Req E))
    (locs : List Nat) (pool : Nat → E) (sc : Nat → Nat → E → ℝ) (val : E → ℝ) (out : Nat → Nat → Option ℝ) : Prop :=
  ∃ kv0 kv pool',
    let segs := reqs.map (prefillSeg win layer)
    let indptr := indptrAfter ((segs.map (·.len)) :: kvHist)
    let qo := indptrAfter ((reqs.map (·.new.length)) :: qoHist)
    CreateKv stride table indptr segs kv0 kv ∧ SetKv pool locs (reqs.flatMap (·.new)) pool' ∧
      ∀ i j, out i j = extendOut reqs qo indptr kv pool' (sc i j) val i j

/-! ### Decode -/

/-- L680-L724, L726-L786: what the decode wrapper of the layer covers for a request with `len` positions. -/
def decodeSeg (win : Win) (layer : Option Nat) (row len : Nat) : Seg :=
  match win with
  | some w => if usesWindow win layer then ⟨row, len - min len (w + 1), min len (w + 1)⟩ else ⟨row, 0, len⟩
  | none => ⟨row, 0, len⟩

/-- A decode pass of a layer: requests are (row, length, new entry). -/
def Decode (stride : Nat) (table : Nat → Nat → Nat) (win : Win) (layer : Option Nat) (kvHist : List (List Nat)) (reqs : List (Nat × Nat × E))
    (locs : List Nat) (pool : Nat → E) (sc : Nat → E → ℝ) (val : E → ℝ) (out : Nat → ℝ) : Prop :=
  ∃ kv0 kv pool',
    let segs := reqs.map fun r => decodeSeg win layer r.1 r.2.1
    let indptr := indptrAfter ((segs.map (·.len)) :: kvHist)
    CreateKv stride table indptr segs kv0 kv ∧ SetKv pool locs (reqs.map (·.2.2)) pool' ∧
      ∀ i, out i = (kernel (sc i) val ((segment indptr kv i).map pool')).1

/-- model_runner.py L1038-L1048: the backend is built without a window, whatever the model says. -/
def runnerWindow (_model : Option Nat) : Win := none

end Verif.Flash
