import Verif.Prelude
import Verif.Tensor.Index
import Mathlib.Algebra.BigOperators.Intervals
import Mathlib.Algebra.BigOperators.Ring.Finset
/-!
Tensor-parallel layers of pymllm and their process groups.

Modelled code
* pymllm/orchestrator/parallel_state.py
* pymllm/orchestrator/group_coordinator.py
* pymllm/layers/linear.py (ColumnParallelLinear, RowParallelLinear, Linear)
* pymllm/layers/quantize_base.py L236-282 (UnquantizedLinearMethod)
* pymllm/layers/embedding.py
* pymllm/layers/mlp.py

Simplifications: tensors are values (shape and entries) with entries in a commutative ring, so
rounding is not modelled; an exception is `none`; the collectives of torch.distributed are
modelled by what they return on every rank of the group.
-/
namespace Verif.Shard
open Verif.Tensor

/-- A tensor: its shape and its entries by multi-index (entries outside the shape are meaningless). -/
structure Tn (α : Type) where
  shape : List Nat
  get : List Nat → α

/-- Two tensors agree: same shape, same entries. -/
def Tn.Same {α : Type} (a b : Tn α) : Prop :=
  a.shape = b.shape ∧ ∀ ix, InB a.shape ix → a.get ix = b.get ix

/-- `torch.narrow(dim, start, length)`: `start` may be negative (counted from the end); out of range
raises.  Used at linear.py L137-141, L246-250, L458 and embedding.py L97-106. -/
def Tn.narrow {α : Type} (t : Tn α) (d : Nat) (start : Int) (n : Nat) : Option (Tn α) :=
  if d < t.shape.length then
    let size := t.shape.getD d 0
    let s : Int := if start < 0 then start + size else start
    if start < -(size : Int) ∨ (size : Int) < s + n then none
    else some ⟨t.shape.set d n, fun ix => t.get (ix.set d (ix.getD d 0 + s.toNat))⟩
  else none

/-! ### parallel_state.py -/

/-- The module globals of parallel_state.py L18-27 on one process, the `*_GROUP`s by their rank lists
(`GroupCoordinator.ranks`, group_coordinator.py L26). -/
structure PState where
  tpRank : Nat := 0
  tpSize : Nat := 1
  tpGroup : Option (List Nat) := none
  dpRank : Nat := 0
  dpSize : Nat := 1
  dpGroup : Option (List Nat) := none
  ppRank : Nat := 0
  ppSize : Nat := 1
  ppGroup : Option (List Nat) := none
  deriving DecidableEq

/-- Python `range(start, stop, step)` with `0 < step`. -/
def pyRange (start stop step : Nat) : List Nat :=
  List.range' start ((stop - start + step - 1) / step) step

/-- parallel_state.py L70-75: the ranks of the `i`-th tensor-parallel group. -/
def tpRanks (tp i : Nat) : List Nat := pyRange (i * tp) ((i + 1) * tp) 1

/-- parallel_state.py L88: the ranks of the `i`-th data-parallel group. -/
def dpRanks (world num i : Nat) : List Nat := pyRange i world num

/-- parallel_state.py L101-102: the ranks of the `i`-th pipeline group. -/
def ppRanks (pp i : Nat) : List Nat := pyRange (i * pp) (i * pp + pp) 1

/-- parallel_state.py L69-83, L87-96, L100-110: the loop that stops at the first group holding this
rank. -/
def findGroup (num : Nat) (ranks : Nat → List Nat) (r : Nat) : Option (List Nat) :=
  ((List.range num).find? (fun i => decide (r ∈ ranks i))).map ranks

/-- One process calls `initialize_model_parallel` (parallel_state.py L30-110).  `dist` is
`(world_size, rank)` when torch.distributed is initialised.  Returns the new globals and the
`ranks` arguments of the `dist.new_group` calls this process makes, in order
(group_coordinator.py L34-35: every group built here has more than one rank); `none` = the assertion
at L50-56 fails. -/
def initPar (dist : Option (Nat × Nat)) (tp dp pp : Nat) (s : PState) :
    Option (PState × List (List Nat)) :=
  let s := { s with tpSize := tp, dpSize := dp, ppSize := pp }
  match dist with
  | none => some (s, [])
  | some (world, r) =>
    if tp * dp * pp ≠ world then none else
    let g1 := if 1 < tp then findGroup (world / tp) (tpRanks tp) r else none
    let g2 := if 1 < dp then findGroup (world / dp) (dpRanks world (world / dp)) r else none
    let g3 := if 1 < pp then findGroup (world / pp) (ppRanks pp) r else none
    let s := match g1 with
      | some g => { s with tpGroup := some g, tpRank := g.idxOf r }
      | none => s
    let s := match g2 with
      | some g => { s with dpGroup := some g, dpRank := g.idxOf r }
      | none => s
    let s := match g3 with
      | some g => { s with ppGroup := some g, ppRank := g.idxOf r }
      | none => s
    some (s, g1.toList ++ g2.toList ++ g3.toList)

/-! ### Collectives.  `f r` is what rank `r` contributes. -/

variable {α : Type}

/-- `dist.all_reduce` (sum) over the listed ranks: fails unless all shapes agree. -/
def sumOver [AddCommMonoid α] (g : List Nat) (f : Nat → Option (Tn α)) : Option (Tn α) := do
  let ts ← g.mapM f
  match ts with
  | [] => none
  | t :: rest =>
    if ∀ u ∈ rest, u.shape = t.shape then
      some ⟨t.shape, fun ix => ((t :: rest).map (fun u => u.get ix)).sum⟩
    else none

/-- `tensor_model_parallel_all_reduce` (parallel_state.py L165-169, group_coordinator.py L39-43)
on rank `r`. -/
def allReduce [AddCommMonoid α] (p : Nat → PState) (f : Nat → Option (Tn α)) (r : Nat) :
    Option (Tn α) :=
  match (p r).tpGroup with
  | none => f r
  | some g => sumOver g f

/-- `torch.cat(tensor_list, dim=-1)` of matrices with the same row count: position `j` of the last
dimension falls into the piece whose span holds it. -/
def catGet [Inhabited α] : List (Tn α) → Nat → Nat → α
  | [], _, _ => default
  | t :: ts, i, j => if j < t.shape.getD 1 0 then t.get [i, j] else catGet ts i (j - t.shape.getD 1 0)

/-- `torch.cat(…, dim=-1)` on matrices; fails unless all are matrices with the same rows. -/
def catLast [Inhabited α] (ts : List (Tn α)) : Option (Tn α) :=
  match ts with
  | [] => none
  | t :: rest =>
    if ∀ u ∈ t :: rest, u.shape = [t.shape.getD 0 0, u.shape.getD 1 0] then
      some ⟨[t.shape.getD 0 0, ((t :: rest).map (fun u => u.shape.getD 1 0)).sum],
        fun ix => catGet (t :: rest) (ix.getD 0 0) (ix.getD 1 0)⟩
    else none

/-- `tensor_model_parallel_all_gather(output, dim=-1)` (parallel_state.py L172-179,
group_coordinator.py L45-63, the `dim != 0` branch: receive buffers are `empty_like(tensor)`, so all
ranks must contribute the same shape). -/
def allGather [Inhabited α] (p : Nat → PState) (f : Nat → Option (Tn α)) (r : Nat) :
    Option (Tn α) :=
  match (p r).tpGroup with
  | none => f r
  | some g => do
    let ts ← g.mapM f
    let own ← f r
    if ∀ u ∈ ts, u.shape = own.shape then catLast ts else none

/-! ### Linear layers -/

/-- `F.linear(x, weight, bias)` (quantize_base.py L275-282) for `x` of shape `[rows, in]` (leading
dimensions flattened). -/
def flinear [CommRing α] (x w : Tn α) (b : Option (Tn α)) : Option (Tn α) :=
  match x.shape, w.shape with
  | [n, k], [o, k'] =>
    if k = k' ∧ (∀ v ∈ b, v.shape = [o]) then
      some ⟨[n, o], fun ix =>
        (∑ i ∈ Finset.range k, x.get [ix.getD 0 0, i] * w.get [ix.getD 1 0, i])
          + (match b with | none => 0 | some v => v.get [ix.getD 1 0])⟩
    else none
  | _, _ => none

/-- A tensor-parallel linear layer on one rank: `ColumnParallelLinear` (linear.py L43-156) or
`RowParallelLinear` (linear.py L159-268) with the default quantisation method. -/
structure Lin (α : Type) where
  tpRank : Nat
  tpSize : Nat
  /-- `out_features_per_partition` / `in_features_per_partition` -/
  per : Nat
  weight : Tn α
  bias : Option (Tn α)

/-- `ColumnParallelLinear.__init__` (linear.py L64-119).  `junk` is the content of `torch.empty`.
`none` = the ValueError at L81-85. -/
def Col.new (p : PState) (inF outF : Nat) (hasBias : Bool) (junk : List Nat → α) :
    Option (Lin α) :=
  if outF % p.tpSize ≠ 0 then none else
  let per := outF / p.tpSize
  some ⟨p.tpRank, p.tpSize, per, ⟨[per, inF], junk⟩,
    if hasBias then some ⟨[per], junk⟩ else none⟩

/-- The sharded loaders (linear.py L121-146 and L230-255): with no shard dimension on the parameter
or one rank the shapes must be equal; otherwise this rank's slice is copied.  `none` = an assertion
or `narrow` raises. -/
def shardLoad (l : Lin α) (param : Tn α) (dim : Option Nat) (loaded : Tn α) : Option (Tn α) :=
  match dim with
  | none => if param.shape = loaded.shape then some ⟨param.shape, loaded.get⟩ else none
  | some d =>
    if l.tpSize = 1 then
      if param.shape = loaded.shape then some ⟨param.shape, loaded.get⟩ else none
    else do
      let s ← loaded.narrow d ((l.tpRank * l.per : Nat) : Int) l.per
      if param.shape = s.shape then some ⟨param.shape, s.get⟩ else none

/-- The biases are loaded with `dim`; a layer built without bias has no parameter to load. -/
def loadBias (l : Lin α) (dim : Option Nat) (b : Option (Tn α)) : Option (Option (Tn α)) :=
  match l.bias, b with
  | some p, some v => (shardLoad l p dim v).map some
  | x, _ => some x

/-- Loading a whole checkpoint entry into a `ColumnParallelLinear`: weight has `output_dim` 0
(quantize_base.py L264), bias has `output_dim` 0 (linear.py L112). -/
def Col.load (l : Lin α) (w : Tn α) (b : Option (Tn α)) : Option (Lin α) := do
  let w' ← shardLoad l l.weight (some 0) w
  let b' ← loadBias l (some 0) b
  some { l with weight := w', bias := b' }

/-- `ColumnParallelLinear.forward` (linear.py L148-156) on rank `r` of a world where rank `s` holds
layer `l s` and gets `x s`. -/
def Col.forward [CommRing α] [Inhabited α] (p : Nat → PState) (gather : Bool)
    (l : Nat → Lin α) (x : Nat → Tn α) (r : Nat) : Option (Tn α) :=
  if gather ∧ 1 < (l r).tpSize then
    allGather p (fun s => flinear (x s) (l s).weight (l s).bias) r
  else flinear (x r) (l r).weight (l r).bias

/-- `RowParallelLinear.__init__` (linear.py L183-228). -/
def Row.new (p : PState) (inF outF : Nat) (hasBias : Bool) (junk : List Nat → α) :
    Option (Lin α) :=
  if inF % p.tpSize ≠ 0 then none else
  let per := inF / p.tpSize
  some ⟨p.tpRank, p.tpSize, per, ⟨[outF, per], junk⟩,
    if hasBias then some ⟨[outF], junk⟩ else none⟩

/-- Loading a `RowParallelLinear`: weight has `input_dim` 1 (quantize_base.py L264), the bias has no
`input_dim` (linear.py L225). -/
def Row.load (l : Lin α) (w : Tn α) (b : Option (Tn α)) : Option (Lin α) := do
  let w' ← shardLoad l l.weight (some 1) w
  let b' ← loadBias l none b
  some { l with weight := w', bias := b' }

/-- `output + self.bias` (linear.py L265-266). -/
def addBias [Add α] (y : Tn α) (b : Option (Tn α)) : Option (Tn α) :=
  match b with
  | none => some y
  | some v =>
    match y.shape, v.shape with
    | [n, o], [o'] =>
      if o = o' then some ⟨[n, o], fun ix => y.get ix + v.get [ix.getD 1 0]⟩ else none
    | _, _ => none

/-- `RowParallelLinear.forward` before the bias (linear.py L260-263); `x s` is what rank `s` feeds in
(`none` if it raised before). -/
def Row.product [CommRing α] (p : Nat → PState) (reduce : Bool)
    (l : Nat → Lin α) (x : Nat → Option (Tn α)) (r : Nat) : Option (Tn α) :=
  if reduce = true ∧ 1 < (l r).tpSize then
    allReduce p (fun s => (x s).bind (fun t => flinear t (l s).weight none)) r
  else (x r).bind (fun t => flinear t (l r).weight none)

/-- `RowParallelLinear.forward` (linear.py L257-268). -/
def Row.forward [CommRing α] (p : Nat → PState) (reduce : Bool)
    (l : Nat → Lin α) (x : Nat → Option (Tn α)) (r : Nat) : Option (Tn α) :=
  (Row.product p reduce l x r).bind (fun y => addBias y (l r).bias)

/-! ### VocabParallelEmbedding -/

/-- `VocabParallelEmbedding` on one rank (embedding.py L15-71). -/
structure Emb (α : Type) where
  tpRank : Nat
  tpSize : Nat
  num : Nat
  per : Nat
  weight : Tn α

/-- embedding.py L27-71. -/
def Emb.new (p : PState) (num dim : Nat) (junk : List Nat → α) : Option (Emb α) :=
  if num % p.tpSize ≠ 0 then none else
  some ⟨p.tpRank, p.tpSize, num, num / p.tpSize, ⟨[num / p.tpSize, dim], junk⟩⟩

/-- `weight_loader` (embedding.py L73-112), `output_dim` is 0 (L67): Python slicing
`loaded[start:end, :]` clamps, but the vocabulary size has been checked. -/
def Emb.load (e : Emb α) (w : Tn α) : Option (Emb α) :=
  if e.tpSize = 1 then
    if e.weight.shape = w.shape then some { e with weight := ⟨e.weight.shape, w.get⟩ } else none
  else
    if w.shape.getD 0 0 ≠ e.num then none else do
    let s ← w.narrow 0 ((e.tpRank * e.per : Nat) : Int) e.per
    if e.weight.shape = s.shape then some { e with weight := ⟨e.weight.shape, s.get⟩ } else none

/-- `F.embedding(ids, weight)`: an id outside the table raises.  `padding_idx` only matters to
gradients. -/
def fembedding (ids : List Int) (w : Tn α) : Option (Tn α) :=
  match w.shape with
  | [v, d] =>
    if ∀ t ∈ ids, 0 ≤ t ∧ t < (v : Int) then
      some ⟨[ids.length, d], fun ix => w.get [(ids.getD (ix.getD 0 0) 0).toNat, ix.getD 1 0]⟩
    else none
  | _ => none

/-- The ids this rank looks up (embedding.py L124-133) -/
def Emb.masked (e : Emb α) (t : Int) : Int :=
  if ((e.tpRank * e.per : Nat) : Int) ≤ t ∧ t < ((e.tpRank * e.per + e.per : Nat) : Int)
  then t - ((e.tpRank * e.per : Nat) : Int) else 0

/-- and the mask (embedding.py L126). -/
def Emb.mine (e : Emb α) (t : Int) : Bool :=
  decide (((e.tpRank * e.per : Nat) : Int) ≤ t ∧ t < ((e.tpRank * e.per + e.per : Nat) : Int))

/-- What this rank contributes (embedding.py L123-154). -/
def Emb.local [Zero α] (e : Emb α) (ids : List Int) : Option (Tn α) :=
  if 1 < e.tpSize then do
    let t ← fembedding (ids.map e.masked) e.weight
    some ⟨t.shape, fun ix => if e.mine (ids.getD (ix.getD 0 0) 0) then t.get ix else 0⟩
  else fembedding ids e.weight

/-- `forward` (embedding.py L114-160) on rank `r`; the ids may have any shape, here flattened. -/
def Emb.forward [AddCommMonoid α] (p : Nat → PState) (e : Nat → Emb α) (ids : Nat → List Int)
    (r : Nat) : Option (Tn α) :=
  if 1 < (e r).tpSize then allReduce p (fun s => (e s).local (ids s)) r
  else (e r).local (ids r)

/-! ### MLP -/

/-- flashinfer `silu_and_mul` / `gelu_and_mul` / `gelu_tanh_and_mul` (mlp.py L20-24): the first half
goes through the activation and multiplies the second half; `act` is the activation function. -/
def actMul [Mul α] (act : α → α) (t : Tn α) (inter : Nat) : Option (Tn α) :=
  match t.shape with
  | [n, m] =>
    if m ≠ 2 * inter then none       -- the check of `_run_gated_activation` (mlp.py L50-54)
    else some ⟨[n, inter], fun ix =>
      act (t.get [ix.getD 0 0, ix.getD 1 0]) * t.get [ix.getD 0 0, inter + ix.getD 1 0]⟩
  | _ => none

/-- The hidden activation of `ParallelMLP.forward` (mlp.py L219-230) on rank `s`: both projections have
`gather_output=False` (L201-210). -/
def Mlp.inner [CommRing α] [Inhabited α] (p : Nat → PState) (act : α → α) (hidden : Nat)
    (gate up down : Nat → Lin α) (x : Nat → Tn α) (s : Nat) : Option (Tn α) :=
  if (x s).shape.getD 1 0 ≠ hidden then none else do
  let g ← Col.forward p false gate x s
  let u ← Col.forward p false up x s
  let gu ← catLast [g, u]
  actMul act gu (down s).per

/-- `ParallelMLP.forward` (mlp.py L218-231) on rank `r`. -/
def Mlp.forward [CommRing α] [Inhabited α] (p : Nat → PState) (act : α → α) (hidden : Nat)
    (gate up down : Nat → Lin α) (x : Nat → Tn α) (r : Nat) : Option (Tn α) :=
  Row.forward p true down (Mlp.inner p act hidden gate up down x) r

end Verif.Shard
