import Verif.Cuda.Vec
import Verif.Cuda.PropsDecode

/-! # C194: the vector sums of the fused decode kernel -/

namespace Verif.Cuda

/-- What the threads of block `vb` of request `n`, head `h` share for entry `bv`, gdn_decode.cuh L272-315; `my_v` is read by
thread `bv` (L285-291). -/
noncomputable def DecArgs.vval (d : DecArgs) (got : Bool → ℕ → ℝ) (n h vb bv : ℕ) : VVal where
  one t := d.st1 n h vb t bv * d.sk got n h t
  put s := ((if vb * 32 + bv < d.V then d.v (n * d.HV * d.V + h * d.V + (vb * 32 + bv)) else 0) - s) * d.beta n h
  two x t := (d.st1 n h vb t bv + x * d.sk got n h t) * d.sq got n h t

/-- Any values, any number of warps, any schedule: whoever has passed the broadcast holds the one `v_delta`, whoever is
done holds the sum of what all threads shared the second time, computed from that `v_delta`. -/
theorem vec_sums {W : ℕ} {val : VVal} {c : VCfg} (h : VReach W val c) {w : ℕ} (hw : w < W) :
    (8 ≤ c.pc w → c.vd w = val.put (∑ t ∈ Finset.range (W * 32), val.one t)) ∧
    (13 ≤ c.pc w → c.out w =
      ∑ t ∈ Finset.range (W * 32), val.two (val.put (∑ t ∈ Finset.range (W * 32), val.one t)) t) := by
  have hi := vinv_reach h
  have fold : ∀ f : ℕ → ℝ, ∑ v ∈ Finset.range W, ∑ l ∈ Finset.range 32, f (v * 32 + l) =
      ∑ t ∈ Finset.range (W * 32), f t := by
    intro f
    rw [← bvSum_eq]
    exact Finset.sum_congr rfl fun v _ => (warpSum_eq _ 0 (by decide)).symm
  have e1 : val.dv W = val.put (∑ t ∈ Finset.range (W * 32), val.one t) := congrArg val.put (fold val.one)
  have e2 : val.d2 W = ∑ t ∈ Finset.range (W * 32), val.two (val.dv W) t := fold (val.two (val.dv W))
  exact ⟨fun hp => (hi.g2 w hw hp).trans e1, fun hp => (hi.g3 w hw hp).trans (e2.trans (by rw [e1]))⟩

/-- C194.  The two vector sums and the broadcast between them reuse their buffers, but under no schedule of the warps does
that show: every warp goes on with the `v_delta` and the output value that `C194_state` and `C194_output_partial` are
about. -/
theorem C194_vector_sums (d : DecArgs) (got : Bool → ℕ → ℝ) (n h vb bv : ℕ) (c : VCfg)
    (hr : VReach (blockK d.K / 32) (d.vval got n h vb bv) c) (w : ℕ) (hw : w < blockK d.K / 32) :
    (8 ≤ c.pc w → c.vd w = d.vDelta got n h vb bv) ∧ (13 ≤ c.pc w → c.out w = d.outVal got n h vb bv) := by
  obtain ⟨h1, h2⟩ := vec_sums hr hw
  have e1 : (d.vval got n h vb bv).put (∑ t ∈ Finset.range (blockK d.K / 32 * 32), (d.vval got n h vb bv).one t) =
      d.vDelta got n h vb bv := by
    unfold DecArgs.vDelta
    rw [bvSum_eq]; rfl
  refine ⟨fun hp => (h1 hp).trans e1, fun hp => (h2 hp).trans ?_⟩
  rw [e1]
  unfold DecArgs.outVal
  rw [bvSum_eq]; rfl

/-- No schedule gets stuck: unless all warps are done one of them can go on. -/
theorem C194_vector_progress (W : ℕ) (val : VVal) (c : VCfg) (w : ℕ) (hw : w < W) (hp : c.pc w < 13) :
    ∃ c', VStep W val c c' := by
  obtain ⟨m, hm, hmin⟩ := Finset.exists_min_image (Finset.range W) c.pc ⟨w, Finset.mem_range.mpr hw⟩
  have hm := Finset.mem_range.mp hm
  have hmin : ∀ v < W, c.pc m ≤ c.pc v := fun v hv => hmin v (Finset.mem_range.mpr hv)
  have hlt : c.pc m < vecProg.length := lt_of_le_of_lt (hmin w hw) hp
  have hx : vecProg[c.pc m]? = some vecProg[c.pc m] := List.getElem?_eq_getElem hlt
  generalize vecProg[c.pc m] = x at hx
  cases x with
  | share1 => exact ⟨_, .share1 hm hx⟩
  | share2 => exact ⟨_, .share2 hm hx⟩
  | sync => exact ⟨_, .sync hm hx hmin⟩
  | fold =>
    by_cases h0 : m = 0
    · subst h0; exact ⟨_, .fold hm hx⟩
    · exact ⟨_, .foldSkip hm h0 hx⟩
  | load1 => exact ⟨_, .load1 hm hx⟩
  | put =>
    by_cases h0 : m = 0
    · subst h0; exact ⟨_, .put hm hx⟩
    · exact ⟨_, .putSkip hm h0 hx⟩
  | loadV => exact ⟨_, .loadV hm hx⟩
  | load2 => exact ⟨_, .load2 hm hx⟩

theorem vstep_pc {W : ℕ} {val : VVal} {c c' : VCfg} (h : VStep W val c c') :
    ∃ w < W, c.pc w < 13 ∧ c'.pc = Function.update c.pc w (c.pc w + 1) := by
  have len : ∀ {p x}, vecProg[p]? = some x → p < 13 := fun h => (List.getElem?_eq_some_iff.mp h).1
  cases h with
  | share1 hw hx => exact ⟨_, hw, len hx, rfl⟩
  | share2 hw hx => exact ⟨_, hw, len hx, rfl⟩
  | sync hw hx _ => exact ⟨_, hw, len hx, rfl⟩
  | fold h0 hx => exact ⟨_, h0, len hx, rfl⟩
  | foldSkip hw _ hx => exact ⟨_, hw, len hx, rfl⟩
  | load1 hw hx => exact ⟨_, hw, len hx, rfl⟩
  | put h0 hx => exact ⟨_, h0, len hx, rfl⟩
  | putSkip hw _ hx => exact ⟨_, hw, len hx, rfl⟩
  | loadV hw hx => exact ⟨_, hw, len hx, rfl⟩
  | load2 hw hx => exact ⟨_, hw, len hx, rfl⟩

/-- Every schedule can be carried on to the end, where `vec_sums` says what each warp holds. -/
theorem C194_vector_finish (W : ℕ) (val : VVal) (c : VCfg) (hr : VReach W val c) :
    ∃ c', VReach W val c' ∧ ∀ w < W, 13 ≤ c'.pc w := by
  generalize hn : ∑ w ∈ Finset.range W, (13 - c.pc w) = k
  induction k using Nat.strong_induction_on generalizing c with
  | _ k ih =>
    by_cases hall : ∀ w < W, 13 ≤ c.pc w
    · exact ⟨c, hr, hall⟩
    · push Not at hall
      obtain ⟨w, hw, hp⟩ := hall
      obtain ⟨c', hs⟩ := C194_vector_progress W val c w hw hp
      obtain ⟨u, hu, hlt, e⟩ := vstep_pc hs
      refine ih _ ?_ c' (hr.step hs) rfl
      rw [← hn, e]
      refine Finset.sum_lt_sum (fun v _ => ?_) ⟨u, Finset.mem_range.mpr hu, ?_⟩
      · rw [Function.update_apply]; split_ifs with hv
        · subst hv; omega
        · exact le_rfl
      · rw [Function.update_self]; omega

/-- The hypotheses of `C194_vector_sums` are met at the end of a run, with four warps (key dimension 128). -/
example (d : DecArgs) (hK : d.K = 128) (got : Bool → ℕ → ℝ) : ∃ c, VReach (blockK d.K / 32) (d.vval got 0 0 0 5) c ∧
    3 < blockK d.K / 32 ∧ c.out 3 = d.outVal got 0 0 0 5 := by
  have h3 : 3 < blockK d.K / 32 := by rw [hK]; decide
  obtain ⟨c, hr, hd⟩ := C194_vector_finish (blockK d.K / 32) (d.vval got 0 0 0 5)
    ⟨fun _ => 0, fun _ => 7, 7, fun _ => 7, fun _ => 7, fun _ => 7⟩ (.start fun _ => rfl)
  exact ⟨c, hr, h3, (C194_vector_sums d got 0 0 0 5 c hr 3 h3).2 (hd 3 h3)⟩

end Verif.Cuda
