import Verif.Cuda.Decode
import Verif.Cuda.Store

/-! # C194: the fused decode kernel of the gated delta rule -/

namespace Verif.Cuda

open Verif.Gdn

/-- What value head `h` of request `n` sees: its key head is the one its group shares, query and key are divided by
the root of their squared length plus 1e-6, the query also by the root of the key dimension. -/
noncomputable def DecArgs.tok (d : DecArgs) (n h : ℕ) : Tok d.K d.V where
  q a := d.q (n * d.H * d.K + d.kHead h * d.K + a) /
    Real.sqrt ((∑ e : Fin d.K, d.q (n * d.H * d.K + d.kHead h * d.K + e) ^ 2) + 1e-6) * (1 / Real.sqrt d.K)
  k a := d.k (n * d.H * d.K + d.kHead h * d.K + a) /
    Real.sqrt ((∑ e : Fin d.K, d.k (n * d.H * d.K + d.kHead h * d.K + e) ^ 2) + 1e-6)
  v i := d.v (n * d.HV * d.V + h * d.V + i)
  g := -Real.exp (d.aLog h) * softplus (d.a (n * d.HV + h) + d.dtBias h)
  beta := sigmoid (d.b (n * d.HV + h))

/-- The matrix of head `h` that the pool holds for request `n`. -/
def DecArgs.mat (d : DecArgs) (n h : ℕ) : Mat d.V d.K := fun i a =>
  d.state (d.idx n * d.HV * d.V * d.K + h * d.V * d.K + i * d.K + a)

/-- The warps of a block of request `n`, head `h` have finished their two scalar sums, by any schedule. -/
def DecArgs.Summed (d : DecArgs) (n h : ℕ) (got : Bool → ℕ → ℝ) : Prop :=
  ∃ c, Reach (blockK d.K / 32) (d.squares n h) twoSums c ∧ (∀ w < blockK d.K / 32, c.pc w = twoSums.length) ∧ c.got = got

theorem layout_small {K : ℕ} (hK : layoutOk (blockK K)) (h1 : 0 < K) : K ≤ 1024 ∧ 64 ≤ blockK K := by
  rcases (layout_iff h1).mp hK with h | h | h <;> (unfold blockK; omega)

theorem total_k {d : DecArgs} (hK : d.K ≤ 1024) (n h : ℕ) :
    total (blockK d.K / 32) (d.squares n h) true =
      ∑ e : Fin d.K, d.k (n * d.H * d.K + d.kHead h * d.K + e) ^ 2 := by
  unfold total
  rw [(blockK_facts hK).1, sum_threads (blockK_facts hK).2.1]
  · exact Finset.sum_congr rfl fun e _ => by simp [DecArgs.squares, DecArgs.kVal, pow_two]
  · intro t ht; simp [DecArgs.squares, DecArgs.kVal, ht]

theorem total_q {d : DecArgs} (hK : d.K ≤ 1024) (n h : ℕ) :
    total (blockK d.K / 32) (d.squares n h) false =
      ∑ e : Fin d.K, d.q (n * d.H * d.K + d.kHead h * d.K + e) ^ 2 := by
  unfold total
  rw [(blockK_facts hK).1, sum_threads (blockK_facts hK).2.1]
  · exact Finset.sum_congr rfl fun e _ => by simp [DecArgs.squares, DecArgs.qVal, pow_two]
  · intro t ht; simp [DecArgs.squares, DecArgs.qVal, ht]

theorem sk_eq {d : DecArgs} (hK : d.K ≤ 1024) {n h : ℕ} {got : Bool → ℕ → ℝ} (hg : d.Summed n h got) (a : Fin d.K) :
    d.sk got n h a = (d.tok n h).k a := by
  obtain ⟨c, hr, hd, rfl⟩ := hg
  have hf := blockK_facts hK
  have ha := a.isLt
  have := (two_sums hf.2.2 _ c hr (a / 32) (by omega) (hd _ (by omega))).1
  unfold DecArgs.sk
  rw [if_pos ha, this, total_k hK]
  simp [DecArgs.kVal, DecArgs.tok, rsqrtf, div_eq_mul_inv]

theorem st2_eq {d : DecArgs} (hK : d.K ≤ 1024) {n h : ℕ} {got : Bool → ℕ → ℝ} (hg : d.Summed n h got) {vb bv : ℕ}
    (hi : vb * 32 + bv < d.V) (a : Fin d.K) :
    d.st2 got n h vb a bv = next (d.mat n h) (d.tok n h) ⟨vb * 32 + bv, hi⟩ a := by
  have hf := blockK_facts hK
  have h1 : ∀ e : Fin d.K, d.st1 n h vb e bv = d.mat n h ⟨vb * 32 + bv, hi⟩ e * d.decay n h := by
    intro e
    unfold DecArgs.st1
    rw [if_pos ⟨hi, e.isLt⟩]
    rfl
  have hsum : bvSum (blockK d.K / 32) (fun t => d.st1 n h vb t bv * d.sk got n h t) =
      d.decay n h * app (d.mat n h) (d.tok n h).k ⟨vb * 32 + bv, hi⟩ := by
    rw [bvSum_eq, hf.1, sum_threads hf.2.1]
    · unfold app dot
      rw [Finset.mul_sum]
      refine Finset.sum_congr rfl fun e _ => ?_
      rw [h1, sk_eq hK hg]
      ring
    · intro t ht
      simp [DecArgs.sk, ht]
  unfold DecArgs.st2 DecArgs.vDelta
  rw [if_pos hi, hsum, h1, sk_eq hK hg]
  unfold next
  have hg : (d.tok n h).g = -Real.exp (d.aLog h) * softplus (d.a (n * d.HV + h) + d.dtBias h) := rfl
  have hb : (d.tok n h).beta = d.beta n h := rfl
  have hv : (d.tok n h).v ⟨vb * 32 + bv, hi⟩ = d.v (n * d.HV * d.V + h * d.V + (vb * 32 + bv)) := rfl
  rw [hb, hv, hg]
  unfold DecArgs.decay
  ring

/-- C194.  For key dimensions the kernel's buffers are laid out for, every batch and every schedule: the cells of the
pool that the launch writes are the matrices of the batch's slots, and what is written is the gated delta rule applied
to the old matrix. -/
theorem C194_state (d : DecArgs) (bs : ℕ) (hK0 : 0 < d.K) (hHV : 0 < d.HV) (hl : layoutOk (blockK d.K))
    (got : ℕ → ℕ → Bool → ℕ → ℝ)
    (hg : ∀ y < bs * d.HV, ∀ vb < (d.V + 31) / 32, d.Summed (y / d.HV) (y % d.HV) (got y vb)) (x : ℕ) (r : ℝ) :
    (∃ y < bs * d.HV, ∃ vb < (d.V + 31) / 32, (x, r) ∈ d.stateWrites (got y vb) y vb) ↔
      ∃ n < bs, ∃ h < d.HV, ∃ (i : Fin d.V) (a : Fin d.K),
        x = d.idx n * d.HV * d.V * d.K + h * d.V * d.K + i * d.K + a ∧
        r = next (d.mat n h) (d.tok n h) i a := by
  have hK := (layout_small hl hK0).1
  constructor
  · rintro ⟨y, hy, vb, hvb, hm⟩
    unfold DecArgs.stateWrites at hm
    simp only [List.mem_flatMap, List.mem_filterMap, List.mem_range] at hm
    obtain ⟨t, -, bv, hbv, e⟩ := hm
    split_ifs at e with hc
    have e := Option.some.inj e
    injection e with e1 e2
    refine ⟨y / d.HV, Nat.div_lt_of_lt_mul (by rwa [Nat.mul_comm]), y % d.HV, Nat.mod_lt _ hHV,
      ⟨vb * 32 + bv, hc.1⟩, ⟨t, hc.2⟩, e1.symm, ?_⟩
    rw [← e2]
    exact st2_eq hK (hg y hy vb hvb) hc.1 ⟨t, hc.2⟩
  · rintro ⟨n, hn, h, hh, i, a, rfl, rfl⟩
    have hy : n * d.HV + h < bs * d.HV := by
      have : (n + 1) * d.HV ≤ bs * d.HV := Nat.mul_le_mul_right _ hn
      rw [Nat.add_mul] at this
      omega
    have e1 : (n * d.HV + h) / d.HV = n := by
      rw [Nat.add_comm, Nat.add_mul_div_right _ _ hHV, Nat.div_eq_of_lt hh, Nat.zero_add]
    have e2 : (n * d.HV + h) % d.HV = h := by
      rw [Nat.add_comm, Nat.add_mul_mod_self_right, Nat.mod_eq_of_lt hh]
    have hi := i.isLt
    have hvb : (i : ℕ) / 32 < (d.V + 31) / 32 := by omega
    have hsplit : (i : ℕ) / 32 * 32 + (i : ℕ) % 32 = i := by omega
    refine ⟨_, hy, i / 32, hvb, ?_⟩
    have hs := hg _ hy _ hvb
    rw [e1, e2] at hs
    unfold DecArgs.stateWrites
    simp only [List.mem_flatMap, List.mem_filterMap, List.mem_range]
    refine ⟨a, lt_of_lt_of_le a.isLt (blockK_facts hK).2.1, (i : ℕ) % 32, Nat.mod_lt _ (by decide), ?_⟩
    rw [e1, e2, hsplit, if_pos ⟨hi, a.isLt⟩]
    congr 2
    have := st2_eq hK hs (vb := (i : ℕ) / 32) (bv := (i : ℕ) % 32) (by omega) a
    rw [this]
    congr 1
    exact Fin.ext hsplit

/-- C194.  No two blocks touch the same cell of the pool when the requests' slots are distinct: a cell belongs to one
request, head, row and column.  (Each block reads only cells it writes, so the order of the blocks does not matter.) -/
theorem C194_cells (d : DecArgs) (n n' h h' i i' a a' : ℕ) (hh : h < d.HV) (hh' : h' < d.HV) (hi : i < d.V)
    (hi' : i' < d.V) (ha : a < d.K) (ha' : a' < d.K)
    (e : d.idx n * d.HV * d.V * d.K + h * d.V * d.K + i * d.K + a =
      d.idx n' * d.HV * d.V * d.K + h' * d.V * d.K + i' * d.K + a') :
    d.idx n = d.idx n' ∧ h = h' ∧ i = i' ∧ a = a' := by
  have f : ∀ s h i a : ℕ, s * d.HV * d.V * d.K + h * d.V * d.K + i * d.K + a =
      ((s * d.HV + h) * d.V + i) * d.K + a := by intros; ring
  rw [f, f] at e
  obtain ⟨e1, e2⟩ := row_unique le_rfl ha ha' e
  obtain ⟨e3, e4⟩ := row_unique le_rfl hi hi' e1
  obtain ⟨e5, e6⟩ := row_unique le_rfl hh hh' e3
  exact ⟨e5, e6, e4, e2⟩

/-- C194.  The output, when the first sum has come out right in every warp of every block (see
`C194_race_violated`). -/
theorem C194_output_partial (d : DecArgs) (bs : ℕ) (hK0 : 0 < d.K) (hHV : 0 < d.HV) (hl : layoutOk (blockK d.K))
    (got : ℕ → ℕ → Bool → ℕ → ℝ)
    (hg : ∀ y < bs * d.HV, ∀ vb < (d.V + 31) / 32, d.Summed (y / d.HV) (y % d.HV) (got y vb))
    (hq : ∀ y < bs * d.HV, ∀ vb < (d.V + 31) / 32, ∀ w < blockK d.K / 32,
      got y vb false w = ∑ e : Fin d.K, d.q (y / d.HV * d.H * d.K + d.kHead (y % d.HV) * d.K + e) ^ 2)
    (x : ℕ) (r : ℝ) :
    (∃ y < bs * d.HV, ∃ vb < (d.V + 31) / 32, (x, r) ∈ d.outWrites (got y vb) y vb) ↔
      ∃ n < bs, ∃ h < d.HV, ∃ i : Fin d.V, x = n * d.HV * d.V + h * d.V + i ∧
        r = app (next (d.mat n h) (d.tok n h)) (d.tok n h).q i := by
  obtain ⟨hK, h64⟩ := layout_small hl hK0
  have hf := blockK_facts hK
  have key : ∀ y < bs * d.HV, ∀ vb < (d.V + 31) / 32, ∀ bv, ∀ hi : vb * 32 + bv < d.V,
      d.outVal (got y vb) (y / d.HV) (y % d.HV) vb bv =
        app (next (d.mat (y / d.HV) (y % d.HV)) (d.tok (y / d.HV) (y % d.HV))) (d.tok (y / d.HV) (y % d.HV)).q
          ⟨vb * 32 + bv, hi⟩ := by
    intro y hy vb hvb bv hi
    unfold DecArgs.outVal
    rw [bvSum_eq, hf.1, sum_threads hf.2.1]
    · unfold app dot
      refine Finset.sum_congr rfl fun e _ => ?_
      rw [st2_eq hK (hg y hy vb hvb) hi]
      congr 1
      unfold DecArgs.sq
      have he := e.isLt
      rw [if_pos he, hq y hy vb hvb _ (by omega)]
      simp [DecArgs.qVal, DecArgs.tok, DecArgs.scale, rsqrtf, div_eq_mul_inv]
    · intro t ht
      simp [DecArgs.sq, ht]
  have hmin : min 32 (blockK d.K) = 32 := by omega
  constructor
  · rintro ⟨y, hy, vb, hvb, hm⟩
    unfold DecArgs.outWrites at hm
    simp only [List.mem_filterMap, List.mem_range, hmin] at hm
    obtain ⟨t, -, e⟩ := hm
    split_ifs at e with hc
    have e := Option.some.inj e
    injection e with e1 e2
    refine ⟨y / d.HV, Nat.div_lt_of_lt_mul (by rwa [Nat.mul_comm]), y % d.HV, Nat.mod_lt _ hHV,
      ⟨vb * 32 + t, hc⟩, e1.symm, ?_⟩
    rw [← e2]
    exact key y hy vb hvb t hc
  · rintro ⟨n, hn, h, hh, i, rfl, rfl⟩
    have hy : n * d.HV + h < bs * d.HV := by
      have : (n + 1) * d.HV ≤ bs * d.HV := Nat.mul_le_mul_right _ hn
      rw [Nat.add_mul] at this
      omega
    have e1 : (n * d.HV + h) / d.HV = n := by
      rw [Nat.add_comm, Nat.add_mul_div_right _ _ hHV, Nat.div_eq_of_lt hh, Nat.zero_add]
    have e2 : (n * d.HV + h) % d.HV = h := by
      rw [Nat.add_comm, Nat.add_mul_mod_self_right, Nat.mod_eq_of_lt hh]
    have hi := i.isLt
    have hvb : (i : ℕ) / 32 < (d.V + 31) / 32 := by omega
    have hsplit : (i : ℕ) / 32 * 32 + (i : ℕ) % 32 = i := by omega
    refine ⟨_, hy, i / 32, hvb, ?_⟩
    have hk := key _ hy _ hvb ((i : ℕ) % 32) (by omega)
    rw [e1, e2] at hk
    unfold DecArgs.outWrites
    simp only [List.mem_filterMap, List.mem_range, hmin]
    refine ⟨(i : ℕ) % 32, Nat.mod_lt _ (by decide), ?_⟩
    rw [e1, e2, hsplit, if_pos hi, hk]
    congr 3
    exact Fin.ext hsplit

/-- C194 fails for the output: for every key dimension the layout is right for, some schedule gives warp 1 the sum of
warp 0's squared keys as the squared length of the query; then, unless the two sums agree, every non-zero query
component of that warp is scaled wrongly. -/
theorem C194_race_violated (d : DecArgs) (n h t : ℕ) (hK0 : 0 < d.K) (hl : layoutOk (blockK d.K))
    (ht : 32 ≤ t ∧ t < 64 ∧ t < d.K) (hqt : d.q (n * d.H * d.K + d.kHead h * d.K + t) ≠ 0)
    (hne : ∑ e ∈ Finset.range 32, d.squares n h true e ≠
      ∑ e : Fin d.K, d.q (n * d.H * d.K + d.kHead h * d.K + e) ^ 2) :
    ∃ c, Reach (blockK d.K / 32) (d.squares n h) twoSums c ∧ c.pc 1 = 5 ∧
      d.sq c.got n h t ≠ (d.tok n h).q ⟨t, ht.2.2⟩ := by
  obtain ⟨hK, h64⟩ := layout_small hl hK0
  obtain ⟨c, hr, hp, hgot⟩ := two_sums_race (W := blockK d.K / 32) (by omega) (blockK_facts hK).2.2 (d.squares n h)
  refine ⟨c, hr, hp, ?_⟩
  have hw : t / 32 = 1 := by omega
  have hpart : part (d.squares n h) true 0 = ∑ e ∈ Finset.range 32, d.squares n h true e := by
    unfold part; simp
  unfold DecArgs.sq
  rw [if_pos ht.2.2, hw, hgot, hpart]
  simp only [DecArgs.qVal, if_pos ht.2.2, DecArgs.tok, DecArgs.scale, rsqrtf]
  intro he
  have hKp : (0 : ℝ) < 1 / Real.sqrt d.K := by
    have : (0 : ℝ) < d.K := by exact_mod_cast hK0
    positivity
  have hA : 0 ≤ ∑ e ∈ Finset.range 32, d.squares n h true e :=
    Finset.sum_nonneg fun e _ => by simp only [DecArgs.squares, if_true]; exact mul_self_nonneg _
  have hB : 0 ≤ ∑ e : Fin d.K, d.q (n * d.H * d.K + d.kHead h * d.K + e) ^ 2 :=
    Finset.sum_nonneg fun e _ => sq_nonneg _
  generalize ∑ e ∈ Finset.range 32, d.squares n h true e = A at *
  generalize ∑ e : Fin d.K, d.q (n * d.H * d.K + d.kHead h * d.K + e) ^ 2 = B at *
  have he := mul_right_cancel₀ hKp.ne' he
  rw [div_eq_mul_one_div (d.q _) (Real.sqrt _)] at he
  have he := mul_left_cancel₀ hqt he
  have he := (one_div_one_div _).symm.trans ((congrArg (fun z => 1 / z) he).trans (one_div_one_div _))
  have : A + 1e-6 = B + 1e-6 := (Real.sqrt_inj (by positivity) (by positivity)).mp he
  exact hne (by linarith)

/-- C194 fails for other key dimensions: unless it lies in 33–64, 97–128 or 225–256 the buffers overlap or leave the
allocation, although the launch accepts it. -/
theorem C194_layout_violated (K : ℕ) (h1 : 0 < K)
    (h : ¬ ((32 < K ∧ K ≤ 64) ∨ (96 < K ∧ K ≤ 128) ∨ (224 < K ∧ K ≤ 256))) : ¬ layoutOk (blockK K) :=
  fun hl => h ((layout_iff h1).mp hl)

/-- The dimension the released models use is fine. -/
theorem C194_layout_128 : layoutOk (blockK 128) := (layout_iff (by decide)).mpr (by omega)

/-- C194.  With a whole number of value heads per key head the group's key head is the one repetition gives. -/
theorem C194_group (d : DecArgs) (h rep : ℕ) (hH : 0 < d.H) (hr : 0 < rep) (hv : d.HV = d.H * rep) :
    d.kHead h = h / (d.HV / d.H) := by
  unfold DecArgs.kHead
  rw [hv, Nat.mul_div_cancel_left _ hH, Nat.mul_comm d.H rep, Nat.mul_div_mul_right _ _ hH]

/-- C194 fails against the other backends: prefill and the PyTorch decode divide by `|x| + 1e-6`, the kernel by
`sqrt(|x|² + 1e-6)`; the two agree for exactly one length of `x`. -/
theorem C194_norm_violated (s : ℝ) (hs : 0 ≤ s) :
    Real.sqrt (s ^ 2 + 1e-6) = s + 1e-6 ↔ s = (1 - 1e-6) / 2 := by
  rw [Real.sqrt_eq_iff_mul_self_eq (by positivity) (by positivity)]
  constructor
  · intro h; norm_num at h ⊢; nlinarith
  · intro h; subst h; norm_num

/-- The hypotheses of `C194_state` are met: two requests, four value heads, key dimension 128. -/
example : ∃ (d : DecArgs) (got : ℕ → ℕ → Bool → ℕ → ℝ), d.K = 128 ∧ d.HV = 4 ∧ d.V = 128 ∧ layoutOk (blockK d.K) ∧
    ∀ y < 2 * d.HV, ∀ vb < (d.V + 31) / 32, d.Summed (y / d.HV) (y % d.HV) (got y vb) := by
  let d : DecArgs := ⟨2, 4, 128, 128, fun i => i, fun i => i + 1, fun _ => 1, fun _ => 0, fun _ => 0, fun _ => 0,
    fun _ => 0, fun _ => 0, fun n => n + 3⟩
  have h : ∀ y : ℕ, ∃ got, d.Summed (y / d.HV) (y % d.HV) got := by
    intro y
    obtain ⟨c, hr, hd⟩ := C193_reachable (W := blockK d.K / 32) (d.squares (y / d.HV) (y % d.HV)) twoSums
    exact ⟨c.got, c, hr, hd, rfl⟩
  choose got hgot using h
  exact ⟨d, fun y _ => got y, rfl, rfl, rfl, C194_layout_128, fun y _ vb _ => hgot y⟩

end Verif.Cuda
