import Verif.Shard.Merged
/-!
Loading a checkpoint into `Qwen3ForCausalLM` (pymllm/models/qwen3.py L353-427).

Simplifications: one `tie_word_embeddings` flag (the constructor reads it at L292, the loader at L363);
no quantisation (every linear layer uses `UnquantizedLinearMethod`); `_load_stacked_weight` (L430-460) is
not modelled: in this model every fused parameter carries a `weight_loader` (linear.py L358, L365).
-/
namespace Verif.Shard
open Verif.Tensor
variable {α : Type}

abbrev Name := List Char

/-- Python `pat in s`. -/
def contains (pat : Name) : Name → Bool
  | [] => pat.isEmpty
  | c :: cs => pat.isPrefixOf (c :: cs) || contains pat cs

/-- Python `s.replace(pat, new)`: left to right, non-overlapping; the number is how many characters of the
last match are still to be skipped. -/
def repl (pat new : Name) : Nat → Name → Name
  | _, [] => []
  | k + 1, _ :: cs => repl pat new k cs
  | 0, c :: cs =>
    if pat.isPrefixOf (c :: cs) then new ++ repl pat new (pat.length - 1) cs
    else c :: repl pat new 0 cs

/-- qwen3.py L354-360 -/
def stacked : List (Name × Name × ShardId) :=
  [(".qkv_proj".toList, ".q_proj".toList, .str "q"),
   (".qkv_proj".toList, ".k_proj".toList, .str "k"),
   (".qkv_proj".toList, ".v_proj".toList, .str "v"),
   (".gate_up_proj".toList, ".gate_proj".toList, .idx 0),
   (".gate_up_proj".toList, ".up_proj".toList, .idx 1)]

/-- qwen3.py L369-375: prepend `model.` to names that lack it. -/
def addModel (name : Name) : Name :=
  if !("model.".toList.isPrefixOf name) &&
      ("layers.".toList.isPrefixOf name || "embed_tokens.".toList.isPrefixOf name || "norm.".toList.isPrefixOf name)
  then "model.".toList ++ name else name

/-- `_remap_weight_name` (qwen3.py L421-427): the name starts with the replaced text, so replacing its first
occurrence replaces the prefix. -/
def remap (name : Name) : Name :=
  if "model.language_model.".toList.isPrefixOf name then
    "model.".toList ++ name.drop "model.language_model.".toList.length
  else if "language_model.".toList.isPrefixOf name then
    "model.".toList ++ name.drop "language_model.".toList.length
  else name

/-- The loop over `stacked_params_mapping` (qwen3.py L382-396): the first entry whose weight name occurs and
whose mapped name is a parameter. -/
def routeStacked (has : Name → Bool) (name : Name) : List (Name × Name × ShardId) → Option (Name × ShardId)
  | [] => none
  | (pn, wn, sid) :: rest =>
    if contains wn name then
      if has (repl wn pn 0 name) then some (repl wn pn 0 name, sid) else routeStacked has name rest
    else routeStacked has name rest

/-- Which parameter a checkpoint tensor goes to, with which shard id; `none` = it is skipped without a word
(qwen3.py L366-402). -/
def route (tie : Bool) (has : Name → Bool) (name : Name) : Option (Name × Option ShardId) :=
  if contains "rotary_emb.inv_freq".toList name then none
  else
    let name := addModel name
    if tie && contains "lm_head.weight".toList name then none
    else
      let name := remap name
      match routeStacked has name stacked with
      | some (pn, sid) => some (pn, some sid)
      | none => if has name then some (name, none) else none

/-- Where a parameter's `weight_loader` attribute comes from: `MllmBaseLayer.weight_loader` (base.py L17-28,
used by Linear and RMSNorm), `MergedLinear.weight_loader`, or none at all (nn.Embedding, nn.Linear). -/
inductive Loader where
  | base
  | merged (m : Merged) (dim : Option Nat)
  | plain

structure Param (α : Type) where
  data : Tn α
  loader : Loader

/-- `param.data.copy_(w)`: `w` is broadcast to the parameter's shape; `none` = not broadcastable. -/
def copyFrom (p w : Tn α) : Option (Tn α) :=
  if w.shape.length ≤ p.shape.length ∧
      ((p.shape.drop (p.shape.length - w.shape.length)).zip w.shape).all (fun (a, b) => b == a || b == 1) then
    some ⟨p.shape, fun ix => w.get (((ix.drop (p.shape.length - w.shape.length)).zip w.shape).map
      (fun (i, b) => if b = 1 then 0 else i))⟩
  else none

/-- One tensor goes into one parameter (qwen3.py L389-395 and L404-416); `none` = an exception. -/
def Param.load [NatCast α] (p : Param α) (w : Tn α) (sid : Option ShardId) : Option (Tn α) :=
  match p.loader, sid with
  | .merged m d, sid => m.load p.data d w sid
  | .base, none => copyFrom p.data w
  | .base, some _ => none                                -- TypeError: the base loader takes no shard id
  | .plain, none => if p.data.shape = w.shape then some ⟨p.data.shape, w.get⟩ else some p.data  -- L410-416
  | .plain, some _ => none                               -- unreachable, see the header

/-- `params_dict` (qwen3.py L362). -/
abbrev Store (α : Type) := Name → Option (Param α)

/-- One iteration of the loop (qwen3.py L365-416). -/
def loadOne [NatCast α] (tie : Bool) (st : Store α) (name : Name) (w : Tn α) : Option (Store α) :=
  match route tie (fun n => (st n).isSome) name with
  | none => some st
  | some (pn, sid) =>
    match st pn with
    | none => some st
    | some p =>
      match p.load w sid with
      | none => none
      | some t => some (fun n => if n = pn then some ⟨t, p.loader⟩ else st n)

/-- `load_weights` (qwen3.py L353-416). -/
def loadWeights [NatCast α] (tie : Bool) : Store α → List (Name × Tn α) → Option (Store α)
  | st, [] => some st
  | st, (name, w) :: rest =>
    match loadOne tie st name w with
    | none => none
    | some st' => loadWeights tie st' rest

/-! ### The parameters of a Qwen3 model (qwen3.py L65-115, L170-184, L232-262, L286-297) -/

structure QCfg where
  layers : Nat
  hidden : Nat
  qSize : Nat
  kvSize : Nat
  headDim : Nat
  inter : Nat
  vocab : Nat
  bias : Bool
  tie : Bool

/-- The parameters of one decoder layer. -/
inductive LW where
  | qkvW | qkvB | oW | oB | qn | kn | guW | dW | ln1 | ln2
  deriving DecidableEq, Repr

inductive PKey where
  | embed | norm | head
  | layer (i : Nat) (w : LW)
  deriving DecidableEq, Repr

/-- The attribute path below `model.layers.{i}.`. -/
def LW.path : LW → Name
  | .qkvW => "self_attn.qkv_proj.weight".toList
  | .qkvB => "self_attn.qkv_proj.bias".toList
  | .oW => "self_attn.o_proj.weight".toList
  | .oB => "self_attn.o_proj.bias".toList
  | .qn => "self_attn.q_norm.weight".toList
  | .kn => "self_attn.k_norm.weight".toList
  | .guW => "mlp.gate_up_proj.weight".toList
  | .dW => "mlp.down_proj.weight".toList
  | .ln1 => "input_layernorm.weight".toList
  | .ln2 => "post_attention_layernorm.weight".toList

/-- `named_parameters()` names; the layer number is printed in decimal. -/
def PKey.name : PKey → Name
  | .embed => "model.embed_tokens.weight".toList
  | .norm => "model.norm.weight".toList
  | .head => "lm_head.weight".toList
  | .layer i w => "model.layers.".toList ++ (Nat.toDigits 10 i ++ '.' :: w.path)

/-- Which parameters exist. -/
def QCfg.has (c : QCfg) : PKey → Bool
  | .embed => true
  | .norm => true
  | .head => !c.tie
  | .layer i .qkvB => decide (i < c.layers) && c.bias
  | .layer i .oB => decide (i < c.layers) && c.bias
  | .layer i _ => decide (i < c.layers)

/-- Their shapes. -/
def QCfg.shape (c : QCfg) : PKey → List Nat
  | .embed => [c.vocab, c.hidden]
  | .norm => [c.hidden]
  | .head => [c.vocab, c.hidden]
  | .layer _ .qkvW => [c.qSize + 2 * c.kvSize, c.hidden]
  | .layer _ .qkvB => [c.qSize + 2 * c.kvSize]
  | .layer _ .oW => [c.hidden, c.qSize]
  | .layer _ .oB => [c.hidden]
  | .layer _ .qn => [c.headDim]
  | .layer _ .kn => [c.headDim]
  | .layer _ .guW => [c.inter + c.inter, c.hidden]
  | .layer _ .dW => [c.hidden, c.inter]
  | .layer _ .ln1 => [c.hidden]
  | .layer _ .ln2 => [c.hidden]

/-- Their loaders. -/
def QCfg.loader (c : QCfg) : PKey → Loader
  | .embed => .plain
  | .head => .plain
  | .layer _ .qkvW => .merged ⟨c.hidden, [c.qSize, c.kvSize, c.kvSize]⟩ (some 0)
  | .layer _ .qkvB => .merged ⟨c.hidden, [c.qSize, c.kvSize, c.kvSize]⟩ (some 0)
  | .layer _ .guW => .merged ⟨c.hidden, [c.inter, c.inter]⟩ (some 0)
  | _ => .base

/-- `st` is the parameter dictionary of a freshly built model: exactly these names, these shapes and loaders,
arbitrary contents (`torch.empty`). -/
def Fresh (c : QCfg) (st : Store α) : Prop :=
  (∀ k, c.has k = true → ∃ p, st k.name = some p ∧ p.data.shape = c.shape k ∧ p.loader = c.loader k) ∧
  ∀ n, (st n).isSome → ∃ k, c.has k = true ∧ k.name = n

end Verif.Shard
