import Verif.Quant.Dot

/-!
`mat_mul` of a linear layer with K-quantised weights
(`mllm/backends/cpu/kernels/common/ggml/matmul.cpp`).

For `Q4_K`, `Q6_K`, `Q2_K`, `Q3_K` weights the two llamafile checks refuse (`llamafile_sgemm.cpp` L1038), `gemv`,
`gemm` and `from_float_to_mat` are null (`vec_dot_type.cpp` L214-324), so what remains is: quantise every row of the input
to `q8_K`, then one `vec_dot` per output.  Memory of blocks is a function from block indices; `2D` weights, `transpose0 = false`,
`transpose1 = true` as `LinearOp.cpp` L286 calls it.
-/

namespace Verif.Quant

open Verif.Kern (run Upd Interleave)

/-- Shapes and strides: `B` batches (the product of the leading dimensions) of `M` rows of `K`; `N` outputs.
`s3`, `s2` are `src0_stride[-3]`, `src0_stride[-2]` (in elements), `w2` is `src1_stride[-2]`, `d3` is `dst_stride[-3]`. -/
structure MM where
  (B M K N s3 s2 w2 d3 : Nat)

/-- L166-181: one iteration of the quantising loop; it writes the `K / 256` blocks of one row.  The temporary tensor is
contiguous: its strides are `M * K` and `K`. -/
noncomputable def quantJob (g : MM) (rnd : ℝ → Int) (junk : Nat → Nat → Int) (x : Nat → ℝ) (combined : Nat) : List (Upd Q8K) :=
  let b := combined / g.M
  let s := combined % g.M
  let src := (if b > 0 then g.s3 * b else 0) + s * g.s2
  let dst := ((if b > 0 then g.M * g.K * b else 0) + s * g.K) / 256
  (List.range (g.K / 256)).map fun i => Upd.put (dst + i) (q8KBlock rnd (junk (dst + i)) fun j => x (src + (i * 256 + j)))

/-- The parallel quantising loop. -/
noncomputable def quantJobs (g : MM) (rnd : ℝ → Int) (junk : Nat → Nat → Int) (x : Nat → ℝ) : List (List (Upd Q8K)) :=
  (List.range (g.B * g.M)).map (quantJob g rnd junk x)

/-- L295-349: one iteration of the product loop: sixteen outputs of one row.  `dot` is `vec_dot(K, &sumf, w, x)` with `sumf`
starting from 0; the offsets into the quantised rows use the strides of the *input* (L147, 327-329). -/
noncomputable def dotJob {ω : Type} (g : MM) (dot : (Nat → ω) → (Nat → Q8K) → ℝ) (w : Nat → ω) (q : Nat → Q8K) (bias : Option (Nat → ℝ))
    (combined : Nat) : List (Upd ℝ) :=
  let nblk := g.N / 16 + 1
  let b := combined / (g.M * nblk)
  let m := combined % (g.M * nblk) / nblk
  let block := combined % (g.M * nblk) % nblk
  ((List.range 16).map (block * 16 + ·)).filter (· < g.N) |>.map fun n =>
    let src0 := (if g.B > 1 then b * g.s3 else 0) + m * g.s2
    let src1 := n * g.w2
    let sumf := dot (fun i => w (src1 / 256 + i)) (fun i => q (src0 / 256 + i))
    Upd.put (b * g.d3 + (m * g.N + n)) (match bias with | some v => sumf + v n | none => sumf)

noncomputable def dotJobs {ω : Type} (g : MM) (dot : (Nat → ω) → (Nat → Q8K) → ℝ) (w : Nat → ω) (q : Nat → Q8K) (bias : Option (Nat → ℝ)) :
    List (List (Upd ℝ)) :=
  (List.range (g.B * g.M * (g.N / 16 + 1))).map (dotJob g dot w q bias)

/-- A run of `mat_mul`: any schedule of the first loop, then any schedule of the second; `tmp` is what the temporary
tensor held, `out` what the output held. -/
def MatMulRun {ω : Type} (g : MM) (rnd : ℝ → Int) (junk : Nat → Nat → Int) (dot : (Nat → ω) → (Nat → Q8K) → ℝ) (w : Nat → ω) (x : Nat → ℝ)
    (bias : Option (Nat → ℝ)) (tmp : Nat → Q8K) (out out' : Nat → ℝ) : Prop :=
  ∃ s1 s2, Interleave (quantJobs g rnd junk x) s1 ∧ Interleave (dotJobs g dot w (run s1 tmp) bias) s2 ∧ out' = run s2 out

/-- L334: `float sumf = 0; vec_dot(K, &sumf, w, x)` for `Q4_K` weights. -/
noncomputable def vecDot4 (tg : SimdK) (P : Plat) (K : Nat) (w : Nat → Q4K) (y : Nat → Q8K) : ℝ := run (dotQ4K tg P K 0 w y) (fun _ => 0) 0

/-- The same for `Q6_K` weights. -/
noncomputable def vecDot6 (tg : SimdK) (P : Plat) (K : Nat) (w : Nat → Q6K) (y : Nat → Q8K) : ℝ := run (dotQ6K tg P K 0 w y) (fun _ => 0) 0

end Verif.Quant
