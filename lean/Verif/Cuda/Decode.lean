import Verif.Cuda.PropsReduce
import Verif.Gdn.Spec

/-!
# `gdn_decode`: the fused kernel for one token per request
(`mllm-kernel/mllm_kernel/cuda/csrc/gdn_decode.cuh`)

Exact arithmetic.  The two scalar sums run under every schedule (`Reduce.lean`, `twoSums`); the two vector sums
(`block_reduce_bv`, L131-169) use disjoint buffers between barriers and are taken as sums.
-/

namespace Verif.Cuda

open Verif.Gdn (softplus sigmoid)

/-- Arguments of a launch, flat as in memory (`run`, gdn_decode.cuh L340-351). -/
structure DecArgs where
  H : ℕ
  HV : ℕ
  K : ℕ
  V : ℕ
  q : ℕ → ℝ
  k : ℕ → ℝ
  v : ℕ → ℝ
  a : ℕ → ℝ
  b : ℕ → ℝ
  aLog : ℕ → ℝ
  dtBias : ℕ → ℝ
  state : ℕ → ℝ
  idx : ℕ → ℕ

/-- `block_k`, gdn_decode.cuh L385-386. -/
def blockK (K : ℕ) : ℕ := min ((K + 31) / 32 * 32) 1024

/-- `BLOCK_K` of the template that is launched, gdn_decode.cuh L416-427. -/
def template (bk : ℕ) : ℕ := if bk = 64 then 64 else if bk = 128 then 128 else if bk = 256 then 256 else 256

/-- Floats of shared memory the launch allocates, gdn_decode.cuh L395. -/
def smemAlloc (bk : ℕ) : ℕ := 2 * bk + 32 + bk / 32 + 32 * (bk / 32)

/-- Offsets of `sk`, `sv_broadcast`, `warp_buf`, `reduce_buf` in the kernel, gdn_decode.cuh L205-210. -/
def offSk (T : ℕ) : ℕ := T
def offSv (T : ℕ) : ℕ := 2 * T
def offWarp (T : ℕ) : ℕ := 2 * T + 32
def offReduce (T : ℕ) : ℕ := 2 * T + 32 + T / 32

/-- The buffers as used by `bk` threads: `sq[k_idx]`, `sk[k_idx]` for every thread (L241-247), 32 of
`sv_broadcast`, one of `warp_buf` per warp (L110), 32 of `reduce_buf` per warp (L141-148).  The layout is right when
they lie in the allocation without overlapping. -/
def layoutOk (bk : ℕ) : Prop :=
  let T := template bk
  bk ≤ offSk T ∧ offSk T + bk ≤ offSv T ∧ offSv T + 32 ≤ offWarp T ∧ offWarp T + bk / 32 ≤ offReduce T ∧
    offReduce T + 32 * (bk / 32) ≤ smemAlloc bk

/-- Key head of a value head, gdn_decode.cuh L197. -/
def DecArgs.kHead (d : DecArgs) (h : ℕ) : ℕ := h * d.H / d.HV

/-- `q_val` and `k_val` of thread `t`, gdn_decode.cuh L227-231. -/
def DecArgs.qVal (d : DecArgs) (n h t : ℕ) : ℝ := if t < d.K then d.q (n * d.H * d.K + d.kHead h * d.K + t) else 0
def DecArgs.kVal (d : DecArgs) (n h t : ℕ) : ℝ := if t < d.K then d.k (n * d.H * d.K + d.kHead h * d.K + t) else 0

/-- What each thread brings to the two scalar sums, gdn_decode.cuh L234-235. -/
def DecArgs.squares (d : DecArgs) (n h : ℕ) (second : Bool) (t : ℕ) : ℝ :=
  if second then d.kVal n h t * d.kVal n h t else d.qVal n h t * d.qVal n h t

/-- `decay` and `beta`, gdn_decode.cuh L214-224. -/
noncomputable def DecArgs.decay (d : DecArgs) (n h : ℕ) : ℝ :=
  Real.exp (-Real.exp (d.aLog h) * softplus (d.a (n * d.HV + h) + d.dtBias h))
noncomputable def DecArgs.beta (d : DecArgs) (n h : ℕ) : ℝ := 1 / (1 + Real.exp (-d.b (n * d.HV + h)))

/-- `scale`, gdn_decode.cuh L382. -/
noncomputable def DecArgs.scale (d : DecArgs) : ℝ := 1 / Real.sqrt d.K

/-- `sq` and `sk`, gdn_decode.cuh L237-247; `got` is what each warp got from the scalar sums. -/
noncomputable def DecArgs.sq (d : DecArgs) (got : Bool → ℕ → ℝ) (n h t : ℕ) : ℝ :=
  if t < d.K then d.qVal n h t * rsqrtf (got false (t / 32) + 1e-6) * d.scale else 0
noncomputable def DecArgs.sk (d : DecArgs) (got : Bool → ℕ → ℝ) (n h t : ℕ) : ℝ :=
  if t < d.K then d.kVal n h t * rsqrtf (got true (t / 32) + 1e-6) else 0

/-- `state_base`, gdn_decode.cuh L252-253. -/
def DecArgs.base (d : DecArgs) (n h : ℕ) : ℕ := d.idx n * d.HV * d.V * d.K + h * d.V * d.K

/-- `block_reduce_bv` for one `bv`, gdn_decode.cuh L131-169: warp sums, then the sum over the warps. -/
def bvSum (warps : ℕ) (f : ℕ → ℝ) : ℝ := ∑ w ∈ Finset.range warps, warpSum (fun l => f (w * 32 + l)) 0

/-- Decayed state of thread `t`, gdn_decode.cuh L255-270; `vb` is the tile. -/
noncomputable def DecArgs.st1 (d : DecArgs) (n h vb t bv : ℕ) : ℝ :=
  (if vb * 32 + bv < d.V ∧ t < d.K then d.state (d.base n h + (vb * 32 + bv) * d.K + t) else 0) * d.decay n h

/-- `v_delta[bv]`, gdn_decode.cuh L272-298. -/
noncomputable def DecArgs.vDelta (d : DecArgs) (got : Bool → ℕ → ℝ) (n h vb bv : ℕ) : ℝ :=
  ((if vb * 32 + bv < d.V then d.v (n * d.HV * d.V + h * d.V + (vb * 32 + bv)) else 0) -
    bvSum (blockK d.K / 32) fun t => d.st1 n h vb t bv * d.sk got n h t) * d.beta n h

/-- Updated state, gdn_decode.cuh L300-304. -/
noncomputable def DecArgs.st2 (d : DecArgs) (got : Bool → ℕ → ℝ) (n h vb t bv : ℕ) : ℝ :=
  d.st1 n h vb t bv + d.vDelta got n h vb bv * d.sk got n h t

/-- `out_vals[bv]`, gdn_decode.cuh L306-315. -/
noncomputable def DecArgs.outVal (d : DecArgs) (got : Bool → ℕ → ℝ) (n h vb bv : ℕ) : ℝ :=
  bvSum (blockK d.K / 32) fun t => d.st2 got n h vb t bv * d.sq got n h t

/-- Cells of the output that block `(vb, y)` writes, gdn_decode.cuh L193-202, L317-324. -/
noncomputable def DecArgs.outWrites (d : DecArgs) (got : Bool → ℕ → ℝ) (y vb : ℕ) : List (ℕ × ℝ) :=
  let n := y / d.HV
  let h := y % d.HV
  (List.range (min 32 (blockK d.K))).filterMap fun t =>
    if vb * 32 + t < d.V then some (n * d.HV * d.V + h * d.V + (vb * 32 + t), d.outVal got n h vb t) else none

/-- Cells of the state pool that block `(vb, y)` writes, gdn_decode.cuh L326-333. -/
noncomputable def DecArgs.stateWrites (d : DecArgs) (got : Bool → ℕ → ℝ) (y vb : ℕ) : List (ℕ × ℝ) :=
  let n := y / d.HV
  let h := y % d.HV
  (List.range (blockK d.K)).flatMap fun t => (List.range 32).filterMap fun bv =>
    if vb * 32 + bv < d.V ∧ t < d.K then
      some (d.base n h + (vb * 32 + bv) * d.K + t, d.st2 got n h vb t bv)
    else none

/-! ## Lemmas -/

theorem bvSum_eq (W : ℕ) (f : ℕ → ℝ) : bvSum W f = ∑ t ∈ Finset.range (W * 32), f t := by
  unfold bvSum
  induction W with
  | zero => simp
  | succ n ih =>
    rw [Finset.sum_range_succ, ih, Nat.add_mul, Nat.one_mul, Finset.sum_range_add, warpSum_eq _ _ (by decide)]

theorem blockK_facts {K : ℕ} (hK : K ≤ 1024) : blockK K / 32 * 32 = blockK K ∧ K ≤ blockK K ∧ blockK K / 32 ≤ 32 := by
  unfold blockK; omega

/-- A sum over the threads of a block of something that vanishes from `K` on is a sum over the key dimension. -/
theorem sum_threads {K B : ℕ} (h : K ≤ B) (f : ℕ → ℝ) (h0 : ∀ t, ¬ t < K → f t = 0) :
    ∑ t ∈ Finset.range B, f t = ∑ a : Fin K, f a := by
  rw [← Fin.sum_univ_eq_sum_range] 
  rw [Fin.sum_univ_eq_sum_range, ← Finset.sum_subset (s₁ := Finset.range K) (Finset.range_mono h)]
  · exact (Fin.sum_univ_eq_sum_range f K).symm
  · intro x _ hx
    exact h0 x (by simpa using hx)

theorem layout_iff {K : ℕ} (h1 : 0 < K) :
    layoutOk (blockK K) ↔ (32 < K ∧ K ≤ 64) ∨ (96 < K ∧ K ≤ 128) ∨ (224 < K ∧ K ≤ 256) := by
  have hb : ∃ m, 0 < m ∧ m ≤ 32 ∧ blockK K = 32 * m ∧ ((m < 32 → K ≤ 32 * m) ∧ 32 * m < K + 32) := by
    refine ⟨min ((K + 31) / 32) 32, ?_, ?_, ?_, ?_⟩ <;> first | omega | (unfold blockK; omega)
  obtain ⟨m, hm0, hm, e, hk, hk'⟩ := hb
  rw [e]
  have hlow : 32 * m < K + 32 := hk'
  have : (layoutOk (32 * m)) ↔ (m = 2 ∨ m = 4 ∨ m = 8) := by
    unfold layoutOk template smemAlloc offSk offSv offWarp offReduce
    dsimp only
    have : 32 * m / 32 = m := by omega
    rw [this]
    split_ifs <;> omega
  rw [this]
  omega

end Verif.Cuda
