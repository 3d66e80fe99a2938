import Verif.Shard.Model
/-!
`MergedLinear` (pymllm/layers/linear.py L319-467): one physical parameter for several logical
projections, filled shard by shard by its `weight_loader`.
-/
namespace Verif.Shard
open Verif.Tensor
variable {α : Type}

/-- `loaded_shard_id`: a string or an integer. -/
inductive ShardId where
  | str (s : String)
  | idx (i : Int)
  deriving DecidableEq, Repr

/-- The attributes `in_features` and `output_partition_sizes` (linear.py L346-348). -/
structure Merged where
  inF : Nat
  parts : List Nat

/-- `MergedLinear.__init__` (linear.py L338-348): an empty or non-positive partition list raises. -/
def Merged.new (inF : Nat) (parts : List Nat) : Option Merged :=
  if parts = [] ∨ ∃ s ∈ parts, s = 0 then none else some ⟨inF, parts⟩

/-- `_actual_offset_for_shard` (linear.py L370-411) given the loaded size and the parameter's size along
the output dimension; `none` = ValueError. -/
def Merged.offset (m : Merged) (total shard : Nat) (id : ShardId) : Option Int :=
  match id with
  | .str s =>
    if s = "q" then some 0
    else if s = "k" then some ((total : Int) - 2 * shard)
    else if s = "v" then some ((total : Int) - shard)
    else none
  | .idx i =>
    if i < 0 ∨ (m.parts.length : Int) ≤ i then none
    else if total = m.parts.sum then some ((m.parts.take i.toNat).sum : Nat)
    else if total * m.parts.getD i.toNat 0 = m.parts.sum * shard then
      some (((m.parts.take i.toNat).map (fun part => part * total / m.parts.sum)).sum : Nat)
    else some (i * shard)

/-- `param.data.narrow(d, off, n).copy_(loaded)`: the view is written through (linear.py L458-464). -/
def Tn.write (t : Tn α) (d : Nat) (start : Int) (n : Nat) (v : Tn α) : Tn α :=
  let s : Nat := (if start < 0 then start + t.shape.getD d 0 else start).toNat
  ⟨t.shape, fun ix => if s ≤ ix.getD d 0 ∧ ix.getD d 0 < s + n then v.get (ix.set d (ix.getD d 0 - s))
    else t.get ix⟩

/-- `_load_unsharded_metadata` (linear.py L413-432) with a shard id: a parameter of two elements is taken
to be the logical weight shape. -/
def Merged.metadata [NatCast α] (m : Merged) (param loaded : Tn α) : Option (Tn α) :=
  if param.shape ≠ loaded.shape then none
  else if numel param.shape = 2 then
    some ⟨param.shape, fun ix => if lin param.shape ix = 0 then ((m.parts.sum : Nat) : α) else ((m.inF : Nat) : α)⟩
  else some ⟨param.shape, loaded.get⟩

/-- `weight_loader` (linear.py L434-464): the parameter after the call; `none` = it raised.  `dim` is the
parameter's `output_dim` attribute. -/
def Merged.load [NatCast α] (m : Merged) (param : Tn α) (dim : Option Nat) (loaded : Tn α) (id : Option ShardId) :
    Option (Tn α) :=
  match id with
  | none => if param.shape = loaded.shape then some ⟨param.shape, loaded.get⟩ else none
  | some id =>
    match dim with
    | none => m.metadata param loaded
    | some d =>
      if loaded.shape.length ≤ d ∨ param.shape.length ≤ d then none else   -- IndexError
      match m.offset (param.shape.getD d 0) (loaded.shape.getD d 0) id with
      | none => none
      | some off =>
        match param.narrow d off (loaded.shape.getD d 0) with
        | none => none
        | some view => if view.shape = loaded.shape then
            some (param.write d off (loaded.shape.getD d 0) loaded) else none

/-- A checkpoint file is read tensor by tensor (models/qwen3.py L345-402 calls the loader once per
stored shard). -/
def Merged.loadAll [NatCast α] (m : Merged) (param : Tn α) (dim : Option Nat) :
    List (ShardId × Tn α) → Option (Tn α)
  | [] => some param
  | (id, t) :: rest =>
    match m.load param dim t (some id) with
    | none => none
    | some param' => m.loadAll param' dim rest

end Verif.Shard
