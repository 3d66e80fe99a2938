import Verif.Ops.Elewise
import Mathlib.Analysis.SpecialFunctions.Pow.Real
import Mathlib.Analysis.SpecialFunctions.Sqrt
import Mathlib.Algebra.Order.BigOperators.Group.Finset
import Mathlib.Tactic.FieldSimp
/-
The inner loop shared by the CPU attention kernels (online softmax), over the real numbers:
mllm/backends/cpu/kernels/common/fa2_1/fwd_bshd.hpp L46-L86, radix_attn/fwd_bshd.hpp L54-L100,
radix_attn_relax/radix_attn_relax_fwd_bshd.hpp L50-L92, radix_swa_sink/radix_swa_sink_fwd_bshd.hpp,
fa2_1_swa_sink/fa2_swa_sink_fwd_bshd.hpp.

Rounding is not modelled.  The loop updates the `D` accumulators of a row in lockstep with elementwise
operations; the model follows one accumulator.
-/
namespace Verif.Attn
open Verif.Tensor Verif.Ops

/-! ### Model -/

/-- `std::exp2`. -/
noncomputable def exp2 (x : ℝ) : ℝ := (2 : ℝ) ^ x

/-- `std::numbers::log2e`. -/
noncomputable def log2e : ℝ := 1 / Real.log 2

/-- `scale = sqrt(1.0 / D) * log2e`. -/
noncomputable def kscale (D : Nat) : ℝ := Real.sqrt (1 / D) * log2e

/-- Loop state: `scores_max` (`none` is minus infinity), `logsum`, one accumulator of `acc_o`. -/
structure OS where
  mx : Option ℝ
  logsum : ℝ
  acc : ℝ

noncomputable def osInit : OS := ⟨none, 0, 0⟩

/-- `std::max(scores_max_prev, acc_s)`. -/
noncomputable def newMax (mx : Option ℝ) (s : ℝ) : ℝ :=
  match mx with
  | none => s
  | some m => max m s

/-- `scores_scale = exp2(scores_max_prev * scale - scores_max * scale)`; `exp2(-inf)` is 0. -/
noncomputable def rescale (scale : ℝ) (mx : Option ℝ) (m' : ℝ) : ℝ :=
  match mx with
  | none => 0
  | some m => exp2 (m * scale - m' * scale)

/-- One iteration (steps 2-4): rescale what was accumulated, then add the new term. -/
noncomputable def osStep (scale : ℝ) (st : OS) (s v : ℝ) : OS :=
  let m' := newMax st.mx s
  let ss := rescale scale st.mx m'
  let p := exp2 (s * scale - m' * scale)
  ⟨some m', st.logsum * ss + p, st.acc * ss + p * v⟩

/-- The loop over key positions.  `none`: a read of memory that holds no value. -/
noncomputable def osLoop (scale : ℝ) (score val : Nat → Option ℝ) : List Nat → OS → Option OS
  | [], st => some st
  | j :: js, st =>
    match score j, val j with
    | some s, some v => osLoop scale score val js (osStep scale st s v)
    | _, _ => none

/-- Step 5: multiply by `1 / logsum`; with `logsum = 0` the result is not a number (`none`). -/
noncomputable def osFinish (st : OS) : Option ℝ :=
  if st.logsum = 0 then none else some (st.acc * (1 / st.logsum))

/-- The virtual sink token after the loop (radix_swa_sink_fwd_bshd.hpp L95-L111, fa2_swa_sink_fwd_bshd.hpp
L99-L114): its value is divided by `sqrt(1/D)`, it enters the maximum and the sum, and adds no value row. -/
noncomputable def osSink (D : Nat) (st : OS) (sink : ℝ) : OS :=
  let sv := sink / Real.sqrt (1 / D)
  let m' := newMax st.mx sv
  let ss := rescale (kscale D) st.mx m'
  ⟨some m', st.logsum * ss + exp2 (sv * kscale D - m' * kscale D), st.acc * ss⟩

/-- The lanes of `sum_vec` after `n` blocks of `W` elements (impl-any-simd-inl.hpp L12-L24; impl-arm.hpp
L14-L48 with `W = 4`, where the loop over 16 elements is four of these blocks). -/
noncomputable def laneLoop (W : Nat) (x y : Nat → ℝ) : Nat → Nat → ℝ
  | 0, _ => 0
  | n + 1, l => laneLoop W x y n l + x (n * W + l) * y (n * W + l)

/-- `VectorDotProduct`: whole blocks, then the sum of the lanes, then the remaining elements. -/
noncomputable def dotVec (W D : Nat) (x y : Nat → ℝ) : ℝ :=
  (List.range (D % W)).foldl (fun acc i => acc + x (D / W * W + i) * y (D / W * W + i))
    (∑ l ∈ Finset.range W, laneLoop W x y (D / W) l)

/-- The dot product of two rows in memory; `none` if some element read holds no value. -/
noncomputable def dotO (W D : Nat) (x y : Nat → Option ℝ) : Option ℝ :=
  if (∀ i, i < D → (x i).isSome ∧ (y i).isSome) then
    some (dotVec W D (fun i => (x i).getD 0) (fun i => (y i).getD 0))
  else none

/-! ### Specification -/

/-- The attention score of a query and a key: the dot product divided by the square root of the size. -/
noncomputable def score (D : Nat) (q k : Nat → ℝ) : ℝ := (∑ x ∈ Finset.range D, q x * k x) / Real.sqrt D

/-- Softmax attention over the keys `J`: the average of the values `v` with weights proportional to the
exponentials of the scores `s`. -/
noncomputable def attend (J : Finset Nat) (s v : Nat → ℝ) : ℝ :=
  (∑ j ∈ J, Real.exp (s j) * v j) / ∑ j ∈ J, Real.exp (s j)

/-- The same with an attention sink: one more exponential in the denominator, without a value. -/
noncomputable def attendSink (J : Finset Nat) (s v : Nat → ℝ) (sink : ℝ) : ℝ :=
  (∑ j ∈ J, Real.exp (s j) * v j) / (∑ j ∈ J, Real.exp (s j) + Real.exp sink)

/-! ### Proofs -/

theorem exp2_pos (x : ℝ) : 0 < exp2 x := Real.rpow_pos_of_pos (by norm_num) x

theorem exp2_add (x y : ℝ) : exp2 (x + y) = exp2 x * exp2 y := Real.rpow_add (by norm_num) x y

theorem exp2_kscale {D : Nat} (x : ℝ) : exp2 (x * kscale D) = Real.exp (x / Real.sqrt D) := by
  unfold exp2 kscale log2e
  rw [Real.rpow_def_of_pos (by norm_num)]
  congr 1
  have h2 : Real.log 2 ≠ 0 := (Real.log_pos (by norm_num)).ne'
  rw [Real.sqrt_div (by norm_num), Real.sqrt_one]
  field_simp

/-- What the state means after the loop has seen the keys of `L`. -/
structure Inv (scale : ℝ) (s v : Nat → ℝ) (L : List Nat) (st : OS) : Prop where
  empty : L = [] → st = osInit
  full : L ≠ [] → ∃ m, st.mx = some m ∧
    st.logsum * exp2 (m * scale) = (L.map fun j => exp2 (s j * scale)).sum ∧
    st.acc * exp2 (m * scale) = (L.map fun j => exp2 (s j * scale) * v j).sum

theorem exp2_shift (a b : ℝ) : exp2 (a - b) * exp2 b = exp2 a := by
  rw [← exp2_add]; congr 1; ring

theorem osStep_inv {scale : ℝ} {s v : Nat → ℝ} {L : List Nat} {st : OS} (h : Inv scale s v L st) (j : Nat) :
    Inv scale s v (L ++ [j]) (osStep scale st (s j) (v j)) := by
  refine ⟨fun h0 => by simp at h0, fun _ => ?_⟩
  by_cases hL : L = []
  · have := h.empty hL
    subst this hL
    refine ⟨s j, rfl, ?_, ?_⟩
    · simp only [osStep, osInit, newMax, rescale]
      simp [exp2]
    · simp only [osStep, osInit, newMax, rescale]
      simp [exp2, mul_comm]
  · obtain ⟨m, hm, h1, h2⟩ := h.full hL
    refine ⟨newMax st.mx (s j), rfl, ?_, ?_⟩
    · simp only [osStep, hm, rescale, List.map_append, List.sum_append, List.map_cons, List.map_nil,
        List.sum_cons, List.sum_nil, add_zero]
      rw [← h1, add_mul, mul_assoc, exp2_shift, exp2_shift]
    · simp only [osStep, hm, rescale, List.map_append, List.sum_append, List.map_cons, List.map_nil,
        List.sum_cons, List.sum_nil, add_zero]
      rw [← h2, add_mul, mul_assoc, exp2_shift]
      rw [show ∀ a b c : ℝ, a * b * c = a * c * b from fun a b c => by ring, exp2_shift]

theorem osLoop_some {scale : ℝ} {score val : Nat → Option ℝ} {s v : Nat → ℝ} : ∀ {js : List Nat} {L : List Nat}
    {st : OS}, (∀ j ∈ js, score j = some (s j)) → (∀ j ∈ js, val j = some (v j)) → Inv scale s v L st →
    ∃ st', osLoop scale score val js st = some st' ∧ Inv scale s v (L ++ js) st'
  | [], L, st, _, _, h => ⟨st, rfl, by simpa using h⟩
  | j :: js, L, st, hs, hv, h => by
    obtain ⟨st', h1, h2⟩ := osLoop_some (js := js) (L := L ++ [j]) (st := osStep scale st (s j) (v j))
      (fun k hk => hs k (by simp [hk])) (fun k hk => hv k (by simp [hk])) (osStep_inv h j)
    refine ⟨st', ?_, by simpa using h2⟩
    unfold osLoop
    rw [hs j (by simp), hv j (by simp)]
    exact h1

theorem inv_init (scale : ℝ) (s v : Nat → ℝ) : Inv scale s v [] osInit := ⟨fun _ => rfl, fun h => absurd rfl h⟩

theorem list_sum_finset {L : List Nat} (hn : L.Nodup) (f : Nat → ℝ) :
    (L.map f).sum = ∑ j ∈ L.toFinset, f j := (List.sum_toFinset f hn).symm

theorem sum_exp_pos {J : Finset Nat} (hJ : J.Nonempty) (s : Nat → ℝ) : 0 < ∑ j ∈ J, Real.exp (s j) :=
  Finset.sum_pos (fun _ _ => Real.exp_pos _) hJ

/-- The loop over a non-empty list of distinct keys, finished, is softmax attention. -/
theorem online_attend {D : Nat} {score val : Nat → Option ℝ} {s v : Nat → ℝ} {js : List Nat} (hne : js ≠ [])
    (hnd : js.Nodup) (hs : ∀ j ∈ js, score j = some (s j)) (hv : ∀ j ∈ js, val j = some (v j)) :
    (osLoop (kscale D) score val js osInit).bind osFinish =
      some (attend js.toFinset (fun j => s j / Real.sqrt D) v) := by
  obtain ⟨st, h1, h2⟩ := osLoop_some hs hv (inv_init (kscale D) s v)
  rw [List.nil_append] at h2
  obtain ⟨m, _, hl, ha⟩ := h2.full hne
  have hp := exp2_pos (m * kscale D)
  rw [list_sum_finset hnd] at hl ha
  simp only [exp2_kscale] at hl ha hp
  have hJ : js.toFinset.Nonempty := by
    obtain ⟨a, t, rfl⟩ := List.exists_cons_of_ne_nil hne
    exact ⟨a, by simp⟩
  have hpos := sum_exp_pos hJ (fun j => s j / Real.sqrt D)
  have hl0 : st.logsum ≠ 0 := by
    intro h0; rw [h0, zero_mul] at hl; exact absurd hl hpos.ne
  rw [h1, Option.bind_some, osFinish, if_neg hl0]
  congr 1
  unfold attend
  rw [← hl, ← ha]
  have := hp.ne'
  field_simp

theorem sink_scale {D : Nat} (hD : 0 < D) (x : ℝ) : x / Real.sqrt (1 / D) / Real.sqrt D = x := by
  have : (0 : ℝ) < D := by exact_mod_cast hD
  have h2 : Real.sqrt D ≠ 0 := (Real.sqrt_pos.mpr this).ne'
  rw [Real.sqrt_div (by norm_num), Real.sqrt_one]
  field_simp

/-- The loop followed by the sink token is softmax attention with a sink; it may see no key at all. -/
theorem online_sink {D : Nat} (hD : 0 < D) {score val : Nat → Option ℝ} {s v : Nat → ℝ} {js : List Nat}
    (hnd : js.Nodup) (hs : ∀ j ∈ js, score j = some (s j)) (hv : ∀ j ∈ js, val j = some (v j)) (sink : ℝ) :
    ((osLoop (kscale D) score val js osInit).bind fun st => osFinish (osSink D st sink)) =
      some (attendSink js.toFinset (fun j => s j / Real.sqrt D) v sink) := by
  obtain ⟨st, h1, h2⟩ := osLoop_some hs hv (inv_init (kscale D) s v)
  rw [List.nil_append] at h2
  rw [h1, Option.bind_some]
  -- the state after the sink
  have key : ∃ m, (osSink D st sink).logsum * exp2 (m * kscale D) =
        (js.map fun j => exp2 (s j * kscale D)).sum + exp2 (sink / Real.sqrt (1 / D) * kscale D) ∧
      (osSink D st sink).acc * exp2 (m * kscale D) = (js.map fun j => exp2 (s j * kscale D) * v j).sum := by
    by_cases hL : js = []
    · have := h2.empty hL
      subst this hL
      refine ⟨sink / Real.sqrt (1 / D), ?_, ?_⟩
      · simp [osSink, osInit, newMax, rescale, exp2]
      · simp [osSink, osInit, newMax, rescale]
    · obtain ⟨m, hm, hl, ha⟩ := h2.full hL
      refine ⟨newMax st.mx (sink / Real.sqrt (1 / D)), ?_, ?_⟩
      · simp only [osSink, hm, rescale]
        rw [← hl, add_mul, mul_assoc, exp2_shift, exp2_shift]
      · simp only [osSink, hm, rescale]
        rw [← ha, mul_assoc, exp2_shift]
  obtain ⟨m, hl, ha⟩ := key
  have hp := exp2_pos (m * kscale D)
  rw [list_sum_finset hnd] at hl ha
  simp only [exp2_kscale] at hl ha hp
  rw [sink_scale hD] at hl
  have hpos : 0 < ∑ j ∈ js.toFinset, Real.exp (s j / Real.sqrt D) + Real.exp sink :=
    add_pos_of_nonneg_of_pos (Finset.sum_nonneg fun _ _ => (Real.exp_pos _).le) (Real.exp_pos _)
  have hl0 : (osSink D st sink).logsum ≠ 0 := by
    intro h0; rw [h0, zero_mul] at hl; exact absurd hl hpos.ne
  rw [osFinish, if_neg hl0]
  congr 1
  unfold attendSink
  rw [← hl, ← ha]
  have := hp.ne'
  field_simp

/-- An empty loop gives no number. -/
theorem online_empty (scale : ℝ) (score val : Nat → Option ℝ) :
    (osLoop scale score val [] osInit).bind osFinish = none := by
  simp [osLoop, osFinish, osInit]

theorem laneLoop_sum (W : Nat) (x y : Nat → ℝ) : ∀ n : Nat,
    ∑ l ∈ Finset.range W, laneLoop W x y n l = ∑ i ∈ Finset.range (n * W), x i * y i
  | 0 => by simp [laneLoop]
  | n + 1 => by
    simp only [laneLoop, Finset.sum_add_distrib]
    rw [laneLoop_sum W x y n, Nat.add_mul, one_mul, Finset.sum_range_add]

theorem foldl_sum (f : Nat → ℝ) : ∀ (n : Nat) (a : ℝ),
    (List.range n).foldl (fun acc i => acc + f i) a = a + ∑ i ∈ Finset.range n, f i
  | 0, a => by simp
  | n + 1, a => by
    rw [List.range_succ, List.foldl_append, foldl_sum f n a, Finset.sum_range_succ]
    simp [add_assoc]

theorem dotVec_eq (W D : Nat) (x y : Nat → ℝ) : dotVec W D x y = ∑ i ∈ Finset.range D, x i * y i := by
  unfold dotVec
  rw [foldl_sum (fun i => x (D / W * W + i) * y (D / W * W + i)), laneLoop_sum, ← Finset.sum_range_add]
  rw [Nat.div_add_mod']

theorem dotO_some {x y : Nat → Option ℝ} {f g : Nat → ℝ} {W D : Nat} (hx : ∀ i, i < D → x i = some (f i))
    (hy : ∀ i, i < D → y i = some (g i)) : dotO W D x y = some (∑ i ∈ Finset.range D, f i * g i) := by
  unfold dotO
  rw [if_pos (fun i hi => by simp [hx i hi, hy i hi]), dotVec_eq]
  congr 1
  apply Finset.sum_congr rfl
  intro i hi
  have hi' := Finset.mem_range.mp hi
  rw [hx i hi', hy i hi']
  rfl

/-- Softmax attention is an average: its result lies between the smallest and the largest value. -/
theorem attend_between {J : Finset Nat} (hJ : J.Nonempty) (s v : Nat → ℝ) (lo hi : ℝ)
    (h : ∀ j ∈ J, lo ≤ v j ∧ v j ≤ hi) : lo ≤ attend J s v ∧ attend J s v ≤ hi := by
  have hp := sum_exp_pos hJ s
  unfold attend
  rw [le_div_iff₀ hp, div_le_iff₀ hp, Finset.mul_sum, Finset.mul_sum]
  constructor
  · apply Finset.sum_le_sum
    intro j hj
    rw [mul_comm]
    exact mul_le_mul_of_nonneg_left (h j hj).1 (Real.exp_pos _).le
  · apply Finset.sum_le_sum
    intro j hj
    rw [mul_comm hi]
    exact mul_le_mul_of_nonneg_left (h j hj).2 (Real.exp_pos _).le

end Verif.Attn
