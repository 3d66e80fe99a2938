import Verif.Gdn.Spec

/-!
# Gated DeltaNet: the scans of `pymllm/layers/attention`

Arithmetic is over the reals (floating-point rounding is not modelled).  Tensors are functions of
their indices; a dimension whose length matters is passed beside the function.  `HV` is the number
of value heads, `K`/`V` the key and value dimension of a head.
-/

namespace Verif.Gdn

/-- Per-token tensors of one request after normalisation, head expansion and gating:
`q,k [L,HV,K]`, `v [L,HV,V]`, `g,beta [L,HV]` (gdn_chunkwise.py L69-73). -/
structure Inp (K V : ℕ) where
  q : ℕ → ℕ → Fin K → ℝ
  k : ℕ → ℕ → Fin K → ℝ
  v : ℕ → ℕ → Fin V → ℝ
  g : ℕ → ℕ → ℝ
  beta : ℕ → ℕ → ℝ

/-- Rows `start..` of every tensor: `x[start:end]` (gdn_chunkwise.py L214-218). -/
def Inp.slice {K V : ℕ} (x : Inp K V) (start : ℕ) : Inp K V where
  q t := x.q (start + t)
  k t := x.k (start + t)
  v t := x.v (start + t)
  g t := x.g (start + t)
  beta t := x.beta (start + t)

/-! ## The sequential scan -/

/-- One iteration of the loop in `_extend_pytorch_fallback`, gdn_backend.py L781-799, for one head;
also the body of `_decode_pytorch_fallback`, L517-539.  Returns the new state and the output. -/
noncomputable def seqStep {K V : ℕ} (S : Mat V K) (q k : Fin K → ℝ) (v : Fin V → ℝ) (g b : ℝ) :
    Mat V K × (Fin V → ℝ) :=
  let decay := Real.exp g
  let S1 : Mat V K := fun i a => S i a * decay
  let d : Fin V → ℝ := fun i => (v i - ∑ a, S1 i a * k a) * b
  let S2 : Mat V K := fun i a => S1 i a + d i * k a
  (S2, fun i => ∑ a, S2 i a * q a)

/-- State after `n` iterations of the loop, gdn_backend.py L780-798. -/
noncomputable def seqState {K V : ℕ} (x : Inp K V) (S0 : ℕ → Mat V K) : ℕ → ℕ → Mat V K
  | 0, h => S0 h
  | n + 1, h => (seqStep (seqState x S0 n h) (x.q n h) (x.k n h) (x.v n h) (x.g n h) (x.beta n h)).1

/-- `_extend_pytorch_fallback` on one request, gdn_backend.py L763-801: outputs and final state. -/
noncomputable def seqScan {K V : ℕ} (L : ℕ) (x : Inp K V) (S0 : ℕ → Mat V K) :
    (ℕ → ℕ → Fin V → ℝ) × (ℕ → Mat V K) :=
  (fun t h =>
    (seqStep (seqState x S0 t h) (x.q t h) (x.k t h) (x.v t h) (x.g t h) (x.beta t h)).2,
   fun h => seqState x S0 L h)

/-! ## The fully batched chunkwise scan -/

/-- `torch.nn.functional.pad(x, (..., 0, pad))`: zero rows after the first `L`
(gdn_chunkwise.py L85-89). -/
def padRows {α : Type*} [Zero α] (L : ℕ) (x : ℕ → ℕ → α) : ℕ → ℕ → α := fun t h =>
  if t < L then x t h else 0

/-- `Lp = L + pad` with `pad = (C - L % C) % C`, gdn_chunkwise.py L83, L90. -/
def padLen (L C : ℕ) : ℕ := L + (C - L % C) % C

/-- `x.view(NC, C, HV, D).permute(0, 2, 1, 3).reshape(NC*HV, C, D)`, gdn_chunkwise.py L94-96:
batch `b` is head `b % HV` of chunk `b / HV`. -/
def toChunks {α : Type*} (HV C : ℕ) (x : ℕ → ℕ → α) : ℕ → ℕ → α := fun b i =>
  x (b / HV * C + i) (b % HV)

/-- The rows of one `(chunk, head)` batch, gdn_chunkwise.py L98-102. -/
structure Chunk (K V : ℕ) where
  q : ℕ → Fin K → ℝ
  k : ℕ → Fin K → ℝ
  v : ℕ → Fin V → ℝ
  g : ℕ → ℝ
  beta : ℕ → ℝ

namespace Chunk
variable {K V : ℕ} (c : Chunk K V) (C : ℕ)

/-- `cumg = torch.cumsum(gg, dim=1)`, gdn_chunkwise.py L105. -/
def cumg (i : ℕ) : ℝ := ∑ j ∈ Finset.range (i + 1), c.g j

/-- `gamma = torch.exp(cumg)`, gdn_chunkwise.py L106. -/
noncomputable def gamma (i : ℕ) : ℝ := Real.exp (c.cumg i)

/-- `gammaC = torch.exp(cumg[:, -1])`, gdn_chunkwise.py L107. -/
noncomputable def gammaC : ℝ := Real.exp (c.cumg (C - 1))

/-- `BK = bb.unsqueeze(-1) * Kc`, gdn_chunkwise.py L109. -/
def bk (i : ℕ) : Fin K → ℝ := fun a => c.beta i * c.k i a

/-- `inv_gamma = where(gamma > 1e-30, 1/gamma, 0)`, gdn_chunkwise.py L112. -/
noncomputable def invGamma (i : ℕ) : ℝ := if c.gamma i > 1e-30 then 1 / c.gamma i else 0

/-- `BV = (bb * inv_gamma).unsqueeze(-1) * Vc`, gdn_chunkwise.py L113. -/
noncomputable def bv (i : ℕ) : Fin V → ℝ := fun d => c.beta i * c.invGamma i * c.v i d

/-- `A = tril(BK · Kᵀ, diagonal=-1)`, gdn_chunkwise.py L116. -/
def A (i j : ℕ) : ℝ := if j < i then dot (c.bk i) (c.k j) else 0

/-- `M = eye(C) + A`, gdn_chunkwise.py L117. -/
def M (i j : ℕ) : ℝ := (if i = j then 1 else 0) + c.A i j

end Chunk

/-- `torch.linalg.solve_triangular(M, B, upper=False, unitriangular=True)`, used at
gdn_chunkwise.py L118-119: forward substitution; the diagonal is taken to be one and the upper
part is not read. -/
noncomputable def solveLower {D : ℕ} (M : ℕ → ℕ → ℝ) (B : ℕ → Fin D → ℝ) : ℕ → Fin D → ℝ
  | i => fun d => B i d - ∑ j : Fin i, M i j * solveLower M B j d

namespace Chunk
variable {K V : ℕ} (c : Chunk K V) (C : ℕ)

/-- `W`, gdn_chunkwise.py L118. -/
noncomputable def W : ℕ → Fin K → ℝ := solveLower c.M c.bk

/-- `U`, gdn_chunkwise.py L119. -/
noncomputable def U : ℕ → Fin V → ℝ := solveLower c.M c.bv

/-- `KQ = triu(Kc · Qᵀ)`, gdn_chunkwise.py L122. -/
def kq (j r : ℕ) : ℝ := if j ≤ r then dot (c.k j) (c.q r) else 0

/-- `P = Qt - Wt · KQ`, gdn_chunkwise.py L129. -/
noncomputable def P (r : ℕ) : Fin K → ℝ := fun a =>
  c.q r a - ∑ j ∈ Finset.range C, c.W j a * c.kq j r

/-- `O_intra = Ut · KQ`, gdn_chunkwise.py L130. -/
noncomputable def oIntra (r : ℕ) : Fin V → ℝ := fun d =>
  ∑ j ∈ Finset.range C, c.U j d * c.kq j r

/-- `Astate = eye(K) - Wt · Kc`, gdn_chunkwise.py L131-132. -/
noncomputable def aState : Mat K K := fun a a' =>
  (if a = a' then 1 else 0) - ∑ j ∈ Finset.range C, c.W j a * c.k j a'

/-- `UtK = Ut · Kc`, gdn_chunkwise.py L133. -/
noncomputable def utK : Mat V K := fun d a => ∑ j ∈ Finset.range C, c.U j d * c.k j a

/-- `S = gammaC * (S · Astate + UtK)`, gdn_chunkwise.py L146. -/
noncomputable def pass (S : Mat V K) : Mat V K := fun d a =>
  c.gammaC C * ((∑ e, S d e * c.aState C e a) + c.utK C d a)

/-- Column `r` of `gamma * (S · P + O_intra)`, gdn_chunkwise.py L149-150. -/
noncomputable def out (S : Mat V K) (r : ℕ) : Fin V → ℝ := fun d =>
  c.gamma r * ((∑ e, S d e * c.P C r e) + c.oIntra C r d)

end Chunk

/-- Batch `b` of the chunked tensors, gdn_chunkwise.py L84-102. -/
def chunkAt {K V : ℕ} (L HV C : ℕ) (x : Inp K V) (b : ℕ) : Chunk K V where
  q := toChunks HV C (padRows L x.q) b
  k := toChunks HV C (padRows L x.k) b
  v := toChunks HV C (padRows L x.v) b
  g := toChunks HV C (padRows L x.g) b
  beta := toChunks HV C (padRows L x.beta) b

/-- `Sall[c]`: the state entering chunk `c`, gdn_chunkwise.py L142-146. -/
noncomputable def chunkEntry {K V : ℕ} (L HV C : ℕ) (x : Inp K V) (S0 : ℕ → Mat V K) :
    ℕ → ℕ → Mat V K
  | 0, h => S0 h
  | c + 1, h => (chunkAt L HV C x (c * HV + h)).pass C (chunkEntry L HV C x S0 c h)

/-- `_batched_chunk_scan`, gdn_chunkwise.py L68-152.  Row `b` of the flattened entry states is head
`b % HV` of `Sall[b / HV]` (`Sall.reshape(B, V, K)`, L149); the final
`view(NC, HV, V, C).permute(0, 3, 1, 2).reshape(Lp, HV, V)` (L151) reads batch
`(l / C) * HV + h`, column `l % C`.  The number of chunks is `Lp // C`, L91. -/
noncomputable def chunkScan {K V : ℕ} (HV C L : ℕ) (x : Inp K V) (S0 : ℕ → Mat V K) :
    (ℕ → ℕ → Fin V → ℝ) × (ℕ → Mat V K) :=
  (fun l h =>
    let b := l / C * HV + h
    (chunkAt L HV C x b).out C (chunkEntry L HV C x S0 (b / HV) (b % HV)) (l % C),
   fun h => chunkEntry L HV C x S0 (padLen L C / C) h)

/-! ## The older chunkwise scan and the CUDA kernel of the same shape -/

namespace Chunk
variable {K V : ℕ} (c : Chunk K V)

/-- `gamma` of `_process_chunk`: `exp(cumsum(log(alpha.clamp(min=1e-10))))` with
`alpha = exp(g)`, gdn_chunkwise.py L287, L358-360. -/
noncomputable def gammaClamp (i : ℕ) : ℝ :=
  Real.exp (∑ j ∈ Finset.range (i + 1), Real.log (max (Real.exp (c.g j)) 1e-10))

/-- `bv_scaled = (beta / gamma) * v`, gdn_chunkwise.py L365. -/
noncomputable def bvOld (i : ℕ) : Fin V → ℝ := fun d => c.beta i / c.gammaClamp i * c.v i d

/-- `W_buf[:, :, t]` of `_process_chunk`, gdn_chunkwise.py L378, L381-391:
`bk_t - K_prev @ (W_prev^T @ bk_t)`.  The CUDA kernel does the same,
gdn_extend_chunkwise.cuh L316-360. -/
noncomputable def wOld : ℕ → Fin K → ℝ
  | t => fun a => c.bk t a - ∑ j : Fin t, c.k j a * dot (wOld j) (c.bk t)

/-- `U_buf[:, :, t]` of `_process_chunk`, gdn_chunkwise.py L379, L393-396:
`bv_t - U_prev @ (K_prev^T @ bk_t)`. -/
noncomputable def uOld : ℕ → Fin V → ℝ
  | t => fun d => c.bvOld t d - ∑ j : Fin t, uOld j d * dot (c.k j) (c.bk t)

/-- `O_chunk` of `_process_chunk`, gdn_chunkwise.py L401-418. -/
noncomputable def outOld (n : ℕ) (S : Mat V K) (r : ℕ) : Fin V → ℝ := fun d =>
  c.gammaClamp r * ((∑ a, S d a * c.q r a)
    - (∑ j ∈ Finset.range n, (∑ a, S d a * c.wOld j a) * c.kq j r)
    + ∑ j ∈ Finset.range n, c.uOld j d * c.kq j r)

/-- New state of `_process_chunk`, gdn_chunkwise.py L420-429; `n` is the number of tokens. -/
noncomputable def passOld (n : ℕ) (S : Mat V K) : Mat V K := fun d a =>
  c.gammaClamp (n - 1) * (S d a
    - (∑ j ∈ Finset.range n, (∑ e, S d e * c.wOld j e) * c.k j a)
    + ∑ j ∈ Finset.range n, c.uOld j d * c.k j a)

end Chunk

/-- Tokens `start..` of one head as a chunk: `q_seq[cs:ce]` etc., gdn_chunkwise.py L323-327. -/
def rowsAt {K V : ℕ} (x : Inp K V) (start h : ℕ) : Chunk K V where
  q i := x.q (start + i) h
  k i := x.k (start + i) h
  v i := x.v (start + i) h
  g i := x.g (start + i) h
  beta i := x.beta (start + i) h

/-- State entering chunk `c` of the loop `for cs in range(0, seq_len, chunk_size)` of
`gdn_extend_chunkwise`, gdn_chunkwise.py L319-333. -/
noncomputable def oldEntry {K V : ℕ} (C L : ℕ) (x : Inp K V) (S0 : ℕ → Mat V K) :
    ℕ → ℕ → Mat V K
  | 0, h => S0 h
  | c + 1, h => (rowsAt x (c * C) h).passOld (min (c * C + C) L - c * C) (oldEntry C L x S0 c h)

/-- `gdn_extend_chunkwise` on one request, gdn_chunkwise.py L303-335: outputs and final state.
The loop makes `ceil(L / C)` rounds. -/
noncomputable def oldScan {K V : ℕ} (C L : ℕ) (x : Inp K V) (S0 : ℕ → Mat V K) :
    (ℕ → ℕ → Fin V → ℝ) × (ℕ → Mat V K) :=
  (fun l h =>
    let c := l / C
    (rowsAt x (c * C) h).outOld (min (c * C + C) L - c * C) (oldEntry C L x S0 c h) (l % C),
   fun h => oldEntry C L x S0 ((L + C - 1) / C) h)

end Verif.Gdn
