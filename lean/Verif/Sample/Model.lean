import Verif.Gen.Samplers

/-!
# Sampling in the serving engine

Source: `pymllm/layers/sampling.py` (the pure-PyTorch path, taken when FlashInfer is absent),
`pymllm/executor/model_runner.py` L175-L258 (`_apply_penalties`) and L1441-L1532 (`sample`),
`pymllm/orchestrator/model_runner_process.py` L258-L304 and L405-L413 (how options are collected).

Simplifications: logits and probabilities are rationals (exact sums, no NaN or infinity); one row
of a `(batch, vocab)` tensor is a function `Nat → ℚ` of which the first `n` values matter; `softmax`
is a parameter.  Random choice is nondeterminism: a relation says which results are possible.
A Python exception is `none`.
-/

namespace Verif.Sample

open Verif.Gen (mass better)

/-! ### Penalties (model_runner.py L175-L258) -/

/-- The per-request penalty options. -/
structure Penalty where
  rep : ℚ := 1
  freq : ℚ := 0
  pres : ℚ := 0

/-- `token_counts[t] = token_counts.get(t, 0) + 1` (L223-L226) on an association list in insertion
order. -/
def bump (t : Int) : List (Int × Nat) → List (Int × Nat)
  | [] => [(t, 1)]
  | (u, c) :: m => if u = t then (u, c + 1) :: m else (u, c) :: bump t m

/-- The counting loop (L222-L226). -/
def tokenCounts (n : Nat) (history : List Int) : List (Int × Nat) :=
  history.foldl (fun m (t : Int) => if 0 ≤ t ∧ t < (n : Int) then bump t m else m) []

/-- The new logit of one selected token (L235-L253). -/
def penalise (o : Penalty) (count : Nat) (x : ℚ) : ℚ :=
  let x1 := if o.rep ≠ 1 then (if x > 0 then x / o.rep else x * o.rep) else x
  let x2 := if o.freq ≠ 0 then x1 - o.freq * count else x1
  if o.pres ≠ 0 then x2 - o.pres else x2

/-- `logits[i, token_ids_t] = selected_logits` (L255), one entry after the other.  The selected
logits were gathered before, from the untouched row `l`. -/
def writeBack (o : Penalty) (l : Nat → ℚ) : List (Int × Nat) → (Nat → ℚ) → (Nat → ℚ)
  | [], r => r
  | (t, c) :: m, r =>
    writeBack o l m (fun j => if (j : Int) = t then penalise o c (l t.toNat) else r j)

/-- One row of `_apply_penalties` (L209-L255). -/
def applyPenalty (n : Nat) (o : Penalty) (history : List Int) (l : Nat → ℚ) : Nat → ℚ :=
  if history = [] then l
  else if o.rep = 1 ∧ o.freq = 0 ∧ o.pres = 0 then l
  else
    let counts := tokenCounts n history
    if counts = [] then l else writeBack o l counts l

/-! ### Filters (sampling.py) -/

/-- `torch.sort(probs, descending=True)`: the sorted values. -/
def sortedVals (p : Nat → ℚ) (n : Nat) : List ℚ :=
  ((List.range n).map p).mergeSort fun a b => decide (b ≤ a)

/-- `.sum(dim=-1, keepdim=True).clamp(min=1e-8)`. -/
def clampSum (p : Nat → ℚ) (n : Nat) : ℚ := max (mass p (List.range n)) (1 / 10 ^ 8)

/-- `_torch_top_k_renorm_probs` (L565-L585), the per-request branch: `gather` raises on an index
outside the row (negative ones included). -/
def topKRenorm (p : Nat → ℚ) (n : Nat) (k : Int) : Option (Nat → ℚ) :=
  let kIdx := k - 1
  if 0 ≤ kIdx ∧ kIdx < n then
    let threshold := (sortedVals p n).getD kIdx.toNat 0
    let filtered : Nat → ℚ := fun j => if p j < threshold then 0 else p j
    let sums := clampSum filtered n
    some fun j => filtered j / sums
  else none

/-- `torch.cumsum` of the sorted probabilities, at position `i`. -/
def cumsum (p : Nat → ℚ) (idx : List Nat) (i : Nat) : ℚ := mass p (idx.take (i + 1))

/-- `_torch_top_p_renorm_probs` (L513-L534), `idx` being the permutation `torch.sort` returned:
mask positions with `cumsum - sorted_probs > top_p`, scatter back, renormalise. -/
def topPRenorm (p : Nat → ℚ) (n : Nat) (P : ℚ) (idx : List Nat) : Nat → ℚ :=
  let result : Nat → ℚ := fun j =>
    let i := idx.idxOf j
    if cumsum p idx i - p j > P then 0 else p j
  let sums := clampSum result n
  fun j => result j / sums

/-- `torch.multinomial(w, 1)`: an index of positive weight; raises when the weights sum to 0. -/
def multinomial (w : Nat → ℚ) (n : Nat) (res : Option Nat) : Prop :=
  if mass w (List.range n) ≤ 0 then res = none
  else ∃ t, t < n ∧ 0 < w t ∧ res = some t

/-- `top_k_top_p_sampling_from_probs` (L469-L480), one row, both orders being the same code. -/
def topKTopP (p : Nat → ℚ) (n : Nat) (k : Int) (P : ℚ) (res : Option Nat) : Prop :=
  match topKRenorm p n k with
  | none => res = none
  | some p1 => ∃ idx, Verif.Gen.FullSorted p1 n idx ∧ multinomial (topPRenorm p1 n P idx) n res

/-- `min_p_sampling_from_probs` (L334-L356), one row, after the index resolution. -/
def minPWeights (p : Nat → ℚ) (n : Nat) (mp : ℚ) : Nat → ℚ :=
  let maxProb := p (Verif.Gen.sampleGreedy p n)
  let threshold := mp * maxProb
  let filtered : Nat → ℚ := fun j => if p j < threshold then 0 else p j
  let sums := clampSum filtered n
  fun j => filtered j / sums

/-! ### `ModelRunner.sample` (model_runner.py L1441-L1532) -/

/-- One request of the batch: its logits, its history and its sampling options with the defaults
of model_runner_process.py L265-L272. -/
structure Req where
  logits : Nat → ℚ
  history : List Int := []
  temperature : ℚ := 1
  topP : ℚ := 1
  topK : Int := -1
  penalty : Penalty := {}

/-- The constant `1e-6`. -/
def eps : ℚ := 1 / 10 ^ 6

/-- `t < 1e-6`. -/
def isGreedy (t : ℚ) : Bool := t < eps

/-- `has_penalties` (model_runner_process.py L281-L285). -/
def hasPenalties (b : List Req) : Bool :=
  b.any (fun r => r.penalty.rep ≠ 1) || b.any (fun r => r.penalty.freq ≠ 0) ||
    b.any (fun r => r.penalty.pres ≠ 0)

/-- The row after the penalties. -/
def rowLogits (n : Nat) (b : List Req) (r : Req) : Nat → ℚ :=
  if hasPenalties b then applyPenalty n r.penalty r.history r.logits else r.logits

/-- `sample` on a whole batch.  `softmax t l` are the probabilities for temperature `t`.
The result is one token per request, or an exception for the whole batch. -/
def sampleBatch (softmax : ℚ → (Nat → ℚ) → (Nat → ℚ)) (n : Nat) (b : List Req)
    (res : Option (List Nat)) : Prop :=
  if b.all (fun r => isGreedy r.temperature) then
    res = some (b.map fun r => Verif.Gen.sampleGreedy (rowLogits n b r) n)
  else
    let probs : Req → Nat → ℚ := fun r => softmax (max r.temperature eps) (rowLogits n b r)
    match res with
    | some ts => List.Forall₂ (fun r t => topKTopP (probs r) n r.topK r.topP (some t)) b ts
    | none => ∃ r ∈ b, topKTopP (probs r) n r.topK r.topP none

end Verif.Sample
