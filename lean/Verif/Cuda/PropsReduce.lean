import Verif.Cuda.ReduceLemmas
import Mathlib.Algebra.BigOperators.Ring.Finset
import Mathlib.Analysis.SpecialFunctions.Pow.Real

/-! # C193: the gated RMS norm kernel; block-wide sums under every schedule -/

namespace Verif.Cuda

/-- Every reachable configuration goes on until every warp has finished, and each step moves one warp forward: no
schedule deadlocks or runs forever. -/
theorem C193_progress {W : ℕ} (hW : 0 < W) (val : Bool → ℕ → ℝ) (prog : List Ins) (c : Cfg)
    (h : Reach W val prog c) :
    (∀ w < W, c.pc w = prog.length) ∨
    ∃ c', Step W val prog c c' ∧ ∃ w < W, c'.pc = Function.update c.pc w (c.pc w + 1) := by
  by_cases hd : ∀ w < W, c.pc w = prog.length
  · exact Or.inl hd
  · right
    obtain ⟨w, hw, hmin⟩ := Finset.exists_min_image (Finset.range W) c.pc ⟨0, Finset.mem_range.mpr hW⟩
    have hw := Finset.mem_range.mp hw
    have hmin : ∀ v < W, c.pc w ≤ c.pc v := fun v hv => hmin v (Finset.mem_range.mpr hv)
    have hl : c.pc w < prog.length := by
      push Not at hd
      obtain ⟨u, hu, hne⟩ := hd
      have := reach_len h u
      have := hmin u hu
      omega
    obtain ⟨c', hs, hpc⟩ := can_step (W := W) val c hw hl hmin
    exact ⟨c', hs, w, hw, hpc⟩

/-- C193.  One block-wide sum: whatever the schedule and whatever shared memory held, every warp that has its result
has the sum over all threads. -/
theorem C193_sum {W : ℕ} (hW : W ≤ 32) (val : Bool → ℕ → ℝ) (c : Cfg) (h : Reach W val (callSum false) c)
    (w : ℕ) (hw : w < W) (hd : c.pc w = (callSum false).length) :
    c.got false w = ∑ t ∈ Finset.range (W * 32), val false t := by
  have hi := reach_inv hW (⟨callSum true, rfl⟩ : callSum false <+: twoSums) h
  have h0 := reach_len h 0
  have hl : (callSum false).length = 5 := rfl
  rcases hi.g1 w hw (by omega) with e | ⟨-, e, -⟩
  · exact e
  · omega

/-! ## The norm -/

/-- Sum of squares of one thread, rms_norm_gated.cuh L104-109: columns `tid, tid + 256, …` below `N`. -/
def rmsPart (N : ℕ) (x : ℕ → ℝ) (tid : ℕ) : ℝ :=
  ∑ j ∈ Finset.range ((N + 255 - tid) / 256), x (tid + 256 * j) * x (tid + 256 * j)

noncomputable def rsqrtf (a : ℝ) : ℝ := 1 / Real.sqrt a

/-- Second pass of one thread, rms_norm_gated.cuh L132-149: the cells it writes; `s` is `shared_sum[0]` as this
thread read it, `row` is `blockIdx.x`; no gate is `none`. -/
noncomputable def rmsWrites (N : ℕ) (eps : ℝ) (x w : ℕ → ℝ) (gate : Option (ℕ → ℝ)) (row tid : ℕ) (s : ℝ) :
    List (ℕ × ℝ) :=
  let rms := rsqrtf (s / N + eps)
  (List.range ((N + 255 - tid) / 256)).map fun j =>
    let col := tid + 256 * j
    let normed := x (row * N + col) * rms * w col
    (row * N + col, match gate with
      | none => normed
      | some z => normed * (z (row * N + col) / (1 + Real.exp (-(z (row * N + col))))))

set_option linter.constructorNameAsVariable false in
theorem stride_sum (N : ℕ) (f : ℕ → ℝ) :
    ∑ t ∈ Finset.range 256, ∑ j ∈ Finset.range ((N + 255 - t) / 256), f (t + 256 * j) =
      ∑ col ∈ Finset.range N, f col := by
  rw [Finset.sum_sigma']
  refine Finset.sum_bij' (fun p _ => p.1 + 256 * p.2) (fun c _ => ⟨c % 256, c / 256⟩) ?_ ?_ ?_ ?_ ?_
  · rintro ⟨t, j⟩ h
    simp only [Finset.mem_sigma, Finset.mem_range] at h ⊢
    omega
  · intro c h
    simp only [Finset.mem_sigma, Finset.mem_range] at h ⊢
    omega
  · rintro ⟨t, j⟩ h
    simp only [Finset.mem_sigma, Finset.mem_range] at h
    have e1 : (t + 256 * j) % 256 = t := by omega
    have e2 : (t + 256 * j) / 256 = j := by omega
    simp only [e1, e2]
  · intro c h
    simp only
    omega
  · intros; rfl

/-- The documented value: `x / sqrt(mean(x²) + eps) · w`, times `silu` of the gate if there is one. -/
noncomputable def gatedNorm (N : ℕ) (eps : ℝ) (x w : ℕ → ℝ) (z : Option (ℕ → ℝ)) (col : ℕ) : ℝ :=
  x col / Real.sqrt ((∑ e ∈ Finset.range N, x e ^ 2) / N + eps) * w col *
    (match z with
     | none => 1
     | some z => z col / (1 + Real.exp (-(z col))))

/-- C193.  For every row, width, schedule and initial shared memory: when a thread's warp has its sum, what the
thread writes is the norm of its columns; and the threads of the block together write every column of the row and no
other cell. -/
theorem C193_norm (N : ℕ) (eps : ℝ) (x w : ℕ → ℝ) (gate : Option (ℕ → ℝ)) (row : ℕ) (c : Cfg)
    (h : Reach 8 (fun _ tid => rmsPart N (fun col => x (row * N + col)) tid) (callSum false) c)
    (hd : ∀ wp < 8, c.pc wp = (callSum false).length) (a : ℕ) (y : ℝ) :
    (∃ tid < 256, (a, y) ∈ rmsWrites N eps x w gate row tid (c.got false (tid / 32))) ↔
      ∃ col < N, a = row * N + col ∧
        y = gatedNorm N eps (fun e => x (row * N + e)) w (gate.map fun z e => z (row * N + e)) col := by
  have hs : ∀ tid < 256, c.got false (tid / 32) = ∑ e ∈ Finset.range N, x (row * N + e) ^ 2 := by
    intro tid ht
    rw [C193_sum (by decide) _ c h _ (by omega) (hd _ (by omega))]
    have := stride_sum N (fun e => x (row * N + e) * x (row * N + e))
    unfold rmsPart
    rw [show 8 * 32 = 256 from rfl, this]
    exact Finset.sum_congr rfl fun e _ => (pow_two _).symm
  have hv : ∀ tid < 256, rmsWrites N eps x w gate row tid (c.got false (tid / 32)) =
      (List.range ((N + 255 - tid) / 256)).map fun j => (row * N + (tid + 256 * j),
        gatedNorm N eps (fun e => x (row * N + e)) w (gate.map fun z e => z (row * N + e)) (tid + 256 * j)) := by
    intro tid ht
    unfold rmsWrites
    rw [hs tid ht]
    refine List.map_congr_left fun j _ => ?_
    dsimp only
    cases gate with
    | none => simp [gatedNorm, rsqrtf, div_eq_mul_inv]
    | some z => simp [gatedNorm, rsqrtf, div_eq_mul_inv]
  constructor
  · rintro ⟨tid, ht, hp⟩
    rw [hv tid ht] at hp
    obtain ⟨j, hj, e⟩ := List.mem_map.mp hp
    have hj := List.mem_range.mp hj
    injection e with e1 e2
    exact ⟨tid + 256 * j, by omega, e1.symm, e2.symm⟩
  · rintro ⟨col, hc, rfl, rfl⟩
    refine ⟨col % 256, Nat.mod_lt _ (by decide), ?_⟩
    rw [hv _ (Nat.mod_lt _ (by decide))]
    refine List.mem_map.mpr ⟨col / 256, List.mem_range.mpr (by omega), ?_⟩
    rw [show col % 256 + 256 * (col / 256) = col by omega]

/-- Such configurations exist: the hypotheses of `C193_norm` are met for every row. -/
theorem C193_reachable {W : ℕ} (val : Bool → ℕ → ℝ) (prog : List Ins) :
    ∃ c, Reach W val prog c ∧ ∀ w < W, c.pc w = prog.length := all_at val _ le_rfl

/-- `run` checks the shapes of input, output and weight but not of the gate (rms_norm_gated.cuh L172-178): the cells
of the gate that are read. -/
def gateReads (M N : ℕ) : Set ℕ := {a | ∃ row < M, ∃ col < N, a = row * N + col}

/-- C193 fails for a gate that is smaller than the input: it is accepted whatever its size, and if it has fewer
elements than the input some read is past its end. -/
theorem C193_gate_violated (M N numel : ℕ) (h : numel < M * N) : ∃ a ∈ gateReads M N, numel ≤ a := by
  have hN : 0 < N := by
    rcases Nat.eq_zero_or_pos N with e | e
    · rw [e, Nat.mul_zero] at h; omega
    · exact e
  refine ⟨numel, ⟨numel / N, Nat.div_lt_of_lt_mul (by rwa [Nat.mul_comm]), numel % N, Nat.mod_lt _ hN, ?_⟩, le_rfl⟩
  rw [Nat.mul_comm]; exact (Nat.div_add_mod _ _).symm

/-! ## Two sums through one buffer -/

/-- Two sums in a row: the second is right in every warp, the first is right in warp 0, and in any other warp it is
either right or warp 0's contribution to the second sum. -/
theorem two_sums {W : ℕ} (hW : W ≤ 32) (val : Bool → ℕ → ℝ) (c : Cfg) (h : Reach W val twoSums c)
    (w : ℕ) (hw : w < W) (hd : c.pc w = twoSums.length) :
    c.got true w = total W val true ∧
    (c.got false w = total W val false ∨ (w ≠ 0 ∧ c.got false w = part val true 0)) := by
  have hi := reach_inv hW (List.prefix_refl _) h
  have hl : twoSums.length = 10 := rfl
  refine ⟨hi.g2 w hw (by omega), ?_⟩
  rcases hi.g1 w hw (by omega) with e | ⟨e, -, e'⟩
  · exact Or.inl e
  · exact Or.inr ⟨e, e'⟩

/-- The race is real: with more than one warp some schedule gives warp 1 the wrong first sum. -/
theorem two_sums_race {W : ℕ} (h2 : 2 ≤ W) (hW : W ≤ 32) (val : Bool → ℕ → ℝ) :
    ∃ c, Reach W val twoSums c ∧ c.pc 1 = 5 ∧ c.got false 1 = part val true 0 := by
  obtain ⟨c, hr, hp⟩ := all_at (W := W) val (prog := twoSums) 4 (by decide)
  have h0 := hp 0 (by omega)
  have h1 := hp 1 (by omega)
  have s1 := Step.load (W := W) (val := val) (prog := twoSums) (c := c) (w := 0) (i := false) (by omega)
    (by rw [h0]; rfl)
  have r1 := hr.step s1
  have s2 := Step.share (W := W) (val := val) (prog := twoSums) (w := 0) (i := true)
    (c := ⟨Function.update c.pc 0 (c.pc 0 + 1), c.mem,
          fun j => if j = false then Function.update (c.got j) 0 (c.mem 0) else c.got j⟩) (by omega)
    (by simp only [Function.update_self, h0]; rfl)
  have r2 := r1.step s2
  refine ⟨_, r2.step (Step.load (w := 1) (i := false) (by omega) ?_), ?_, ?_⟩
  · simp only [Function.update_of_ne (show (1 : ℕ) ≠ 0 by decide), h1]; rfl
  · simp [h1]
  · simp only [if_true, Function.update_self]
    rw [warpSum_eq _ _ (by decide)]
    rfl

end Verif.Cuda
