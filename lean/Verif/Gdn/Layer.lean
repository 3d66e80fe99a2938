import Verif.Gdn.Lemmas

/-!
# Gated DeltaNet: `GDNAttnBackend.forward_extend` and `forward_decode` over the pooled states
-/

namespace Verif.Gdn

/-- One layer of `GDNPool`: `recurrent_state[layer]` and `conv_state[layer]`, indexed by slot
(memory_pool.py L543-557, `get_layer_state` L579-592).  Simplification: the convolution state is
`[slot, tap, channel]` here and `[slot, channel, tap]` in the code. -/
structure Pool (s : Shape) where
  conv : ℕ → Fin s.w → ℕ → ℝ
  ssm : ℕ → ℕ → Mat s.V s.K

/-- The batch tensors: `mixed_qkv [tokens, conv_dim]`, `a`, `b [tokens, HV]`. -/
structure Batch where
  mixed : ℕ → ℕ → ℝ
  a : ℕ → ℕ → ℝ
  b : ℕ → ℕ → ℝ

/-- One request of a batch: pool slot, first token, number of tokens. -/
structure Job where
  slot : ℕ
  start : ℕ
  len : ℕ

/-- `cu_seqlens` from `extend_seq_lens` by cumulative sum, gdn_backend.py L290-298, with the pool
slot of each request; `base` is the running sum. -/
def layout : ℕ → List (ℕ × ℕ) → List Job
  | _, [] => []
  | base, (slot, len) :: rest => ⟨slot, base, len⟩ :: layout (base + len) rest

/-- `x_padded = cat([prev_state.t(), x])`, gdn_backend.py L600. -/
def xPadded {w : ℕ} (prev : Fin w → ℕ → ℝ) (x : ℕ → ℕ → ℝ) (t : ℕ) : ℕ → ℝ :=
  if h : t < w then prev ⟨t, h⟩ else x (t - w)

/-- `(windows * conv_weight).sum(-1)` for output row `t`, gdn_backend.py L605-608;
`windows[t, d, k] = x_padded[t + k, d]`. -/
def convRow (p : Par) (w : ℕ) (xp : ℕ → ℕ → ℝ) (t d : ℕ) : ℝ :=
  ∑ k ∈ Finset.range (w + 1), xp (t + k) d * p.convW d k

/-- Body of the convolution loop of `forward_extend`, gdn_backend.py L588-608.  A kernel of width
at least two is assumed (`w ≥ 1`): with width one, `x_padded[-(K-1):]` would be the whole tensor. -/
def convJob {s : Shape} (p : Par) (mixed : ℕ → ℕ → ℝ)
    (st : (ℕ → Fin s.w → ℕ → ℝ) × (ℕ → ℕ → ℝ)) (j : Job) :
    (ℕ → Fin s.w → ℕ → ℝ) × (ℕ → ℕ → ℝ) :=
  if j.len = 0 then st else
  let xp := xPadded (st.1 j.slot) (fun t => mixed (j.start + t))
  (Function.update st.1 j.slot (fun i => xp (j.len + i)),
   fun t => if j.start ≤ t ∧ t < j.start + j.len then convRow p s.w xp (t - j.start) else st.2 t)

/-- `F.silu`, `split([key_dim, key_dim, value_dim])` and the head views, gdn_backend.py L610-617;
then normalisation, scaling, head expansion and gating as in `_extend_pytorch_fallback` L741-755
with `_gdn_gating` L231-232, and as in `gdn_extend_chunkwise_torch`, gdn_chunkwise.py L182-201. -/
noncomputable def prepExtend (s : Shape) (p : Par) (conv : ℕ → ℕ → ℝ) (bt : Batch) :
    Inp s.K s.V :=
  let act : ℕ → ℕ → ℝ := fun t d => silu (conv t d)
  let key := s.H * s.K
  let q0 : ℕ → ℕ → Fin s.K → ℝ := fun t h a => act t (h * s.K + a)
  let k0 : ℕ → ℕ → Fin s.K → ℝ := fun t h a => act t (key + (h * s.K + a))
  let q1 : ℕ → ℕ → Fin s.K → ℝ := fun t h a => unit (q0 t h) a * (s.K : ℝ) ^ (-(1 / 2) : ℝ)
  let k1 : ℕ → ℕ → Fin s.K → ℝ := fun t h => unit (k0 t h)
  let rep := s.HV / s.H
  { q := if s.H ≠ s.HV then fun t h => q1 t (h / rep) else q1
    k := if s.H ≠ s.HV then fun t h => k1 t (h / rep) else k1
    v := fun t h d => act t (key + key + (h * s.V + d))
    g := fun t h => -Real.exp (p.aLog h) * softplus (bt.a t h + p.dtBias h)
    beta := fun t h => sigmoid (bt.b t h) }

/-- A scan of one request: length, inputs, initial state to outputs and final state. -/
abbrev Scan (s : Shape) :=
  ℕ → Inp s.K s.V → (ℕ → Mat s.V s.K) → (ℕ → ℕ → Fin s.V → ℝ) × (ℕ → Mat s.V s.K)

/-- Body of the request loop of `gdn_extend_chunkwise_torch`, gdn_chunkwise.py L209-220, and of
`_extend_pytorch_fallback`, gdn_backend.py L762-802. -/
noncomputable def recJob {s : Shape} (scan : Scan s) (x : Inp s.K s.V)
    (st : (ℕ → ℕ → Mat s.V s.K) × (ℕ → ℕ → Fin s.V → ℝ)) (j : Job) :
    (ℕ → ℕ → Mat s.V s.K) × (ℕ → ℕ → Fin s.V → ℝ) :=
  if j.len = 0 then st else
  let r := scan j.len (x.slice j.start) (st.1 j.slot)
  (Function.update st.1 j.slot r.2,
   fun t => if j.start ≤ t ∧ t < j.start + j.len then r.1 (t - j.start) else st.2 t)

/-- `forward_extend`, gdn_backend.py L547-719, on the batched chunkwise or the sequential backend.
`reqs` lists the pool slot and the number of new tokens of every request.  `junk`/`junk'` are the
contents of freshly allocated tensors (`torch.empty_like`, L585; `torch.empty`, gdn_chunkwise.py
L203). -/
noncomputable def forwardExtend {s : Shape} (scan : Scan s) (p : Par) (junk : ℕ → ℕ → ℝ)
    (junk' : ℕ → ℕ → Fin s.V → ℝ) (reqs : List (ℕ × ℕ)) (bt : Batch) (pool : Pool s) :
    Pool s × (ℕ → ℕ → Fin s.V → ℝ) :=
  let jobs := layout 0 reqs
  let c := jobs.foldl (convJob p bt.mixed) (pool.conv, junk)
  let x := prepExtend s p c.2 bt
  let r := jobs.foldl (recJob scan x) (pool.ssm, junk')
  (⟨c.1, r.1⟩, r.2)

/-- Scatter `buf[cache_indices] = new`, gdn_backend.py L385: row `i` goes to slot `idx[i]`.
Where a slot is listed twice PyTorch does not say which row stays; here the last one does. -/
def scatter {α : Type*} (buf : ℕ → α) (new : ℕ → α) : ℕ → List ℕ → ℕ → α
  | _, [] => buf
  | i, s :: rest => scatter (Function.update buf s (new i)) new (i + 1) rest

/-- Convolution part of `forward_decode`, gdn_backend.py L377-385: new state and output of one
request from its gathered state and its row. -/
def convDecode {w : ℕ} (p : Par) (st : Fin w → ℕ → ℝ) (x : ℕ → ℝ) :
    (Fin w → ℕ → ℝ) × (ℕ → ℝ) :=
  (fun i => if h : i.1 + 1 < w then st ⟨i.1 + 1, h⟩ else x,
   fun d => ∑ k ∈ Finset.range (w + 1), (if h : k < w then st ⟨k, h⟩ d else x d) * p.convW d k)

/-- Head expansion, normalisation, scaling and gating of `_decode_pytorch_fallback`,
gdn_backend.py L494-515 (expansion first, unlike `prepExtend`), after the split at L387-396. -/
noncomputable def prepDecode (s : Shape) (p : Par) (conv : ℕ → ℕ → ℝ) (bt : Batch) :
    Inp s.K s.V :=
  let act : ℕ → ℕ → ℝ := fun t d => silu (conv t d)
  let key := s.H * s.K
  let q0 : ℕ → ℕ → Fin s.K → ℝ := fun t h a => act t (h * s.K + a)
  let k0 : ℕ → ℕ → Fin s.K → ℝ := fun t h a => act t (key + (h * s.K + a))
  let rep := s.HV / s.H
  let q1 : ℕ → ℕ → Fin s.K → ℝ := if s.H ≠ s.HV then fun t h => q0 t (h / rep) else q0
  let k1 : ℕ → ℕ → Fin s.K → ℝ := if s.H ≠ s.HV then fun t h => k0 t (h / rep) else k0
  { q := fun t h a => unit (q1 t h) a * (s.K : ℝ) ^ (-(1 / 2) : ℝ)
    k := fun t h => unit (k1 t h)
    v := fun t h d => act t (key + key + (h * s.V + d))
    g := fun t h => -Real.exp (p.aLog h) * softplus (bt.a t h + p.dtBias h)
    beta := fun t h => sigmoid (bt.b t h) }

/-- The request loop of `_decode_pytorch_fallback`, gdn_backend.py L516-541, from request `i`. -/
noncomputable def decodeLoop {s : Shape} (x : Inp s.K s.V) :
    ℕ → List ℕ → (ℕ → ℕ → Mat s.V s.K) × (ℕ → ℕ → Fin s.V → ℝ) →
    (ℕ → ℕ → Mat s.V s.K) × (ℕ → ℕ → Fin s.V → ℝ)
  | _, [], st => st
  | i, slot :: rest, st =>
    let r : ℕ → Mat s.V s.K × (Fin s.V → ℝ) := fun h =>
      seqStep (st.1 slot h) (x.q i h) (x.k i h) (x.v i h) (x.g i h) (x.beta i h)
    decodeLoop x (i + 1) rest
      (Function.update st.1 slot (fun h => (r h).1), Function.update st.2 i (fun h => (r h).2))

/-- `forward_decode` on the PyTorch backend, gdn_backend.py L351-470: one token per request. -/
noncomputable def forwardDecode {s : Shape} (p : Par) (junk' : ℕ → ℕ → Fin s.V → ℝ)
    (slots : List ℕ) (bt : Batch) (pool : Pool s) : Pool s × (ℕ → ℕ → Fin s.V → ℝ) :=
  let new : ℕ → (Fin s.w → ℕ → ℝ) × (ℕ → ℝ) := fun i =>
    convDecode p (pool.conv (slots.getD i 0)) (bt.mixed i)
  let conv := scatter pool.conv (fun i => (new i).1) 0 slots
  let x := prepDecode s p (fun i => (new i).2) bt
  let r := decodeLoop x 0 slots (pool.ssm, junk')
  (⟨conv, r.1⟩, r.2)

/-- What the pool holds for a slot. -/
def Pool.mem {s : Shape} (pool : Pool s) (slot : ℕ) : Mem s := ⟨pool.conv slot, pool.ssm slot⟩

/-- The tokens of a batch from `start` on, as the layer receives them. -/
def Batch.rows (bt : Batch) (start t : ℕ) : Row :=
  ⟨bt.mixed (start + t), bt.a (start + t), bt.b (start + t)⟩

end Verif.Gdn
