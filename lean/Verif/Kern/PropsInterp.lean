import Verif.Kern.InterpLemmas

/-! C129: resizing. -/

namespace Verif.Kern

open Verif.Tensor (numel InB lin lin_lt)

theorem sizeShape3 (N C L OL : Nat) : sizeShape [N, C, L] [OL] = some [N, C, OL] := by simp [sizeShape]
theorem sizeShape4 (N C H W OH OW : Nat) : sizeShape [N, C, H, W] [OH, OW] = some [N, C, OH, OW] := by simp [sizeShape]
theorem sizeShape5 (N C D H W OD OH OW : Nat) : sizeShape [N, C, D, H, W] [OD, OH, OW] = some [N, C, OD, OH, OW] := by
  simp [sizeShape]

theorem by_size3 {x : Ten ℝ} {N C L : Nat} (hx : x.Is [N, C, L]) (OL : Nat) (mode : IMode) (align aa : Bool) :
    interpBySize x [OL] mode align aa =
      (interpForward mode align aa x.data [N, C, L] [N, C, OL]).map fun us => ([N, C, OL], us) := by
  unfold interpBySize
  rw [hx.1, sizeShape3]
  simp only [Option.bind_eq_bind, Option.bind_some]
  cases interpForward mode align aa x.data [N, C, L] [N, C, OL] <;> rfl

theorem by_size4 {x : Ten ℝ} {N C H W : Nat} (hx : x.Is [N, C, H, W]) (OH OW : Nat) (mode : IMode) (align aa : Bool) :
    interpBySize x [OH, OW] mode align aa =
      (interpForward mode align aa x.data [N, C, H, W] [N, C, OH, OW]).map fun us => ([N, C, OH, OW], us) := by
  unfold interpBySize
  rw [hx.1, sizeShape4]
  simp only [Option.bind_eq_bind, Option.bind_some]
  cases interpForward mode align aa x.data [N, C, H, W] [N, C, OH, OW] <;> rfl

theorem by_size5 {x : Ten ℝ} {N C D H W : Nat} (hx : x.Is [N, C, D, H, W]) (OD OH OW : Nat) (mode : IMode) (align aa : Bool) :
    interpBySize x [OD, OH, OW] mode align aa =
      (interpForward mode align aa x.data [N, C, D, H, W] [N, C, OD, OH, OW]).map fun us => ([N, C, OD, OH, OW], us) := by
  unfold interpBySize
  rw [hx.1, sizeShape5]
  simp only [Option.bind_eq_bind, Option.bind_some]
  cases interpForward mode align aa x.data [N, C, D, H, W] [N, C, OD, OH, OW] <;> rfl

theorem read3 {x : Ten ℝ} {N C L : Nat} (hx : x.Is [N, C, L]) {n c i : Nat} (hn : n < N) (hc : c < C) (hi : i < L) :
    x.data ((n * C + c) * L + i) = x.get [n, c, i] := by
  rw [hx.get (by exact ⟨hn, hc, hi, trivial⟩), lin3]; congr 1; ring

theorem read4 {x : Ten ℝ} {N C H W : Nat} (hx : x.Is [N, C, H, W]) {n c i j : Nat} (hn : n < N) (hc : c < C) (hi : i < H)
    (hj : j < W) : x.data (((n * C + c) * H + i) * W + j) = x.get [n, c, i, j] := by
  rw [hx.get (by exact ⟨hn, hc, hi, hj, trivial⟩), lin4]; congr 1; ring

theorem read5 {x : Ten ℝ} {N C D H W : Nat} (hx : x.Is [N, C, D, H, W]) {n c k i j : Nat} (hn : n < N) (hc : c < C) (hk : k < D)
    (hi : i < H) (hj : j < W) : x.data ((((n * C + c) * D + k) * H + i) * W + j) = x.get [n, c, k, i, j] := by
  rw [hx.get (by exact ⟨hn, hc, hk, hi, hj, trivial⟩), lin5]; congr 1; ring

/-! ### Nearest neighbour -/

/-- `C129`, nearest neighbour on a line. -/
theorem C129_nearest1d_partial (x : Ten ℝ) (N C L OL : Nat) (align aa : Bool) (hx : x.Is [N, C, L]) (h0 : 0 < L)
    (hf : Fair align L OL) :
    ∃ us, ∃ pick : Nat → Nat, interpBySize x [OL] .nearest align aa = some ([N, C, OL], us) ∧
      (∀ t < OL, IsNearest L (resizePos align L OL t) (pick t)) ∧
      Yields [[us]] [N, C, OL] fun ix => x.get [ix.getD 0 0, ix.getD 1 0, pick (ix.getD 2 0)] := by
  refine ⟨nearest2d align N C 1 L 1 OL x.data 0, nearIdx align L OL, by rw [by_size3 hx]; rfl,
    fun t _ => nearIdx_spec h0 hf t, ?_⟩
  intro m m' hex
  have h := loop4_computes (N := N) (C := C) (H := 1) (W := OL)
    (v := fun n c h w => x.data (0 + (((n * C + c) * 1 + nearIdx align 1 1 h) * L + nearIdx align L OL w)))
    (val := fun ix => x.get [ix.getD 0 0, ix.getD 1 0, nearIdx align L OL (ix.getD 3 0)]) (by
      intro n hn c hc y hy z hz
      have : nearIdx align 1 1 y = 0 := by have := nearIdx_lt (align := align) (n := 1) (by decide) 1 y; omega
      rw [this, show 0 + (((n * C + c) * 1 + 0) * L + nearIdx align L OL z) = (n * C + c) * L + nearIdx align L OL z by ring,
        read3 hx hn hc (nearIdx_lt h0 OL z)]
      rfl) m m' hex
  refine ⟨fun ix hix => ?_, fun i hi => h.2 i (by simpa [numel] using hi)⟩
  obtain ⟨n, c, l, rfl, hn, hc, hl⟩ := inB3 hix
  have := h.1 [n, c, 0, l] ⟨hn, hc, by decide, hl, trivial⟩
  rw [out_get (by exact ⟨hn, hc, by decide, hl, trivial⟩), lin4] at this
  rw [out_get hix, lin3]
  simpa using this

/-- `C129`, nearest neighbour on images: an index per axis, each closest to the position read. -/
theorem C129_nearest2d_partial (x : Ten ℝ) (N C H W OH OW : Nat) (align aa : Bool) (hx : x.Is [N, C, H, W]) (h0 : 0 < H ∧ 0 < W)
    (hf : Fair align H OH ∧ Fair align W OW) :
    ∃ us, ∃ py pz : Nat → Nat, interpBySize x [OH, OW] .nearest align aa = some ([N, C, OH, OW], us) ∧
      (∀ t < OH, IsNearest H (resizePos align H OH t) (py t)) ∧ (∀ t < OW, IsNearest W (resizePos align W OW t) (pz t)) ∧
      Yields [[us]] [N, C, OH, OW] fun ix => x.get [ix.getD 0 0, ix.getD 1 0, py (ix.getD 2 0), pz (ix.getD 3 0)] := by
  refine ⟨nearest2d align N C H W OH OW x.data 0, nearIdx align H OH, nearIdx align W OW, by rw [by_size4 hx]; rfl,
    fun t _ => nearIdx_spec h0.1 hf.1 t, fun t _ => nearIdx_spec h0.2 hf.2 t, ?_⟩
  refine loop4_computes ?_
  intro n hn c hc y hy z hz
  rw [Nat.zero_add, read4 hx hn hc (nearIdx_lt h0.1 OH y) (nearIdx_lt h0.2 OW z)]
  rfl

/-- `C129`, nearest neighbour on volumes. -/
theorem C129_nearest3d_partial (x : Ten ℝ) (N C D H W OD OH OW : Nat) (align aa : Bool) (hx : x.Is [N, C, D, H, W])
    (h0 : 0 < D ∧ 0 < H ∧ 0 < W) (hf : Fair align D OD ∧ Fair align H OH ∧ Fair align W OW) :
    ∃ us, ∃ pd py pz : Nat → Nat, interpBySize x [OD, OH, OW] .nearest align aa = some ([N, C, OD, OH, OW], us) ∧
      (∀ t < OD, IsNearest D (resizePos align D OD t) (pd t)) ∧ (∀ t < OH, IsNearest H (resizePos align H OH t) (py t)) ∧
      (∀ t < OW, IsNearest W (resizePos align W OW t) (pz t)) ∧
      Yields [[us]] [N, C, OD, OH, OW] fun ix =>
        x.get [ix.getD 0 0, ix.getD 1 0, pd (ix.getD 2 0), py (ix.getD 3 0), pz (ix.getD 4 0)] := by
  refine ⟨nearest3d align N C D H W OD OH OW x.data, nearIdx align D OD, nearIdx align H OH, nearIdx align W OW,
    by rw [by_size5 hx]; rfl, fun t _ => nearIdx_spec h0.1 hf.1 t, fun t _ => nearIdx_spec h0.2.1 hf.2.1 t,
    fun t _ => nearIdx_spec h0.2.2 hf.2.2 t, ?_⟩
  refine nearest3d_computes ?_
  intro n hn c hc d hd y hy z hz
  rw [← hx.get (by exact ⟨hn, hc, nearIdx_lt h0.1 OD d, nearIdx_lt h0.2.1 OH y, nearIdx_lt h0.2.2 OW z, trivial⟩)]
  rfl

/-! ### Linear modes -/

/-- `C129`, linear interpolation on a line. -/
theorem C129_linear_partial (x : Ten ℝ) (N C L OL : Nat) (align aa : Bool) (hx : x.Is [N, C, L]) (h0 : 0 < L)
    (hf : Fair align L OL) :
    ∃ us, interpBySize x [OL] .linear align aa = some ([N, C, OL], us) ∧
      Yields [[us]] [N, C, OL] fun ix =>
        linAt L (resizePos align L OL (ix.getD 2 0)) fun i => x.get [ix.getD 0 0, ix.getD 1 0, i] := by
  refine ⟨linear1d align N C L OL x.data, by rw [by_size3 hx]; rfl, loop3_computes ?_⟩
  intro n hn c hc l hl
  rw [lerp_lin h0 hf]
  exact linAt_congr fun i hi => read3 hx hn hc hi

theorem blur_spec {x : Ten ℝ} {N C H W : Nat} (hx : x.Is [N, C, H, W]) (h0 : 0 < H ∧ 0 < W) (sigma : ℝ) {n c y z : Nat}
    (hn : n < N) (hc : c < C) (hy : y < H) (hz : z < W) :
    blur H W sigma x.data (((n * C + c) * H + y) * W + z) = gaussAt (radiusOf sigma) sigma H y fun y' =>
      gaussAt (radiusOf sigma) sigma W z fun z' => x.get [n, c, y', z'] := by
  obtain ⟨d1, m1⟩ := divmod (i := (n * C + c) * H + y) hz
  obtain ⟨d2, m2⟩ := divmod (i := n * C + c) hy
  unfold blur
  dsimp only
  rw [Nat.mul_comm H W, ← Nat.div_div_eq_div_mul, d1, m1, d2, m2, blurAxis_gauss h0.1]
  refine gaussAt_congr h0.1 fun y' hy' => ?_
  rw [blurAxis_gauss h0.2]
  exact gaussAt_congr h0.2 fun z' hz' => read4 hx hn hc hy' hz'

theorem shrink_one (align : Bool) (o : Nat) (h : ¬ (o ≠ 1 ∨ align = true)) : shrink align 1 o = 1 ∧ scaleOf align 1 o = 0 := by
  push Not at h
  obtain ⟨rfl, h⟩ := h
  have : align = false := by simpa using h
  subst this
  simp [shrink, scaleOf]

/-- The scale the code computes is the shrink factor, unless that is one. -/
theorem scaleOf_fair {align : Bool} {n o : Nat} (h : Fair align n o) :
    scaleOf align n o = shrink align n o ∨ (shrink align n o = 1 ∧ scaleOf align n o = 0) := by
  by_cases h' : o ≠ 1 ∨ align = true
  · exact .inl (scaleOf_shrink h')
  · rcases h with h | h | h
    · exact absurd (.inl h) h'
    · exact absurd (.inr h) h'
    · subst h; exact .inr (shrink_one align o h')

theorem antialiased_spec {x : Ten ℝ} {N C H W OH OW : Nat} {align aa : Bool} (hx : x.Is [N, C, H, W]) (h0 : 0 < H ∧ 0 < W)
    (hf : Fair align H OH ∧ Fair align W OW) {n c y z : Nat} (hn : n < N) (hc : c < C) (hy : y < H) (hz : z < W) :
    antialiased align aa H W OH OW x.data (((n * C + c) * H + y) * W + z) =
      smoothed align aa H W OH OW (fun y z => x.get [n, c, y, z]) y z := by
  have c1 : (1 < scaleOf align H OH ∨ 1 < scaleOf align W OW) ↔ (1 < shrink align H OH ∨ 1 < shrink align W OW) := by
    rcases scaleOf_fair hf.1 with e | ⟨e, e'⟩ <;> rcases scaleOf_fair hf.2 with g | ⟨g, g'⟩
    · rw [e, g]
    · rw [e, g, g']; norm_num
    · rw [e, e', g]; norm_num
    · rw [e, e', g, g']; norm_num
  unfold antialiased smoothed
  dsimp only
  by_cases hc1 : aa = true ∧ (1 < shrink align H OH ∨ 1 < shrink align W OW)
  · rw [if_pos hc1, if_pos ⟨hc1.1, c1.mpr hc1.2⟩]
    have hm : max (scaleOf align H OH) (scaleOf align W OW) = max (shrink align H OH) (shrink align W OW) := by
      rcases scaleOf_fair hf.1 with e | ⟨e, e'⟩ <;> rcases scaleOf_fair hf.2 with g | ⟨g, g'⟩
      · rw [e, g]
      · rw [e, g, g']
        have : 1 < shrink align H OH := by rcases hc1.2 with h | h; exacts [h, by rw [g] at h; exact absurd h (lt_irrefl _)]
        rw [max_eq_left (by linarith), max_eq_left this.le]
      · rw [e, e', g]
        have : 1 < shrink align W OW := by rcases hc1.2 with h | h; exacts [by rw [e] at h; exact absurd h (lt_irrefl _), h]
        rw [max_eq_right (by linarith), max_eq_right this.le]
      · rw [e, g] at hc1
        rcases hc1.2 with h | h <;> exact absurd h (lt_irrefl _)
    have hs : 0.5 * max (scaleOf align H OH) (scaleOf align W OW) = max (shrink align H OH) (shrink align W OW) / 2 := by
      rw [hm]; norm_num; ring
    have hbig : 1 < max (shrink align H OH) (shrink align W OW) := by rw [lt_max_iff]; exact hc1.2
    rw [hs, blur_spec hx h0 _ hn hc hy hz]
    have hr : radiusOf (max (shrink align H OH) (shrink align W OW) / 2) =
        ⌈3 * (max (shrink align H OH) (shrink align W OW) / 2)⌉.toNat := by
      unfold radiusOf
      have : 1 ≤ ⌈3 * (max (shrink align H OH) (shrink align W OW) / 2)⌉ := by
        rw [Int.one_le_ceil_iff]; linarith
      omega
    rw [hr]
  · rw [if_neg hc1, if_neg (fun h => hc1 ⟨h.1, c1.mp h.2⟩)]
    exact read4 hx hn hc hy hz

/-- `C129`, bilinear interpolation, with and without antialiasing. -/
theorem C129_bilinear_partial (x : Ten ℝ) (N C H W OH OW : Nat) (align aa : Bool) (hx : x.Is [N, C, H, W]) (h0 : 0 < H ∧ 0 < W)
    (hf : Fair align H OH ∧ Fair align W OW) :
    ∃ us, interpBySize x [OH, OW] .bilinear align aa = some ([N, C, OH, OW], us) ∧
      Yields [[us]] [N, C, OH, OW] fun ix =>
        linAt H (resizePos align H OH (ix.getD 2 0)) fun i => linAt W (resizePos align W OW (ix.getD 3 0)) fun j =>
          smoothed align aa H W OH OW (fun y z => x.get [ix.getD 0 0, ix.getD 1 0, y, z]) i j := by
  refine ⟨bilinear2d align N C H W OH OW (antialiased align aa H W OH OW x.data), by rw [by_size4 hx]; rfl, loop4_computes ?_⟩
  intro n hn c hc y hy z hz
  rw [lerp_lin h0.1 hf.1]
  refine linAt_congr fun i hi => ?_
  rw [lerp_lin h0.2 hf.2]
  exact linAt_congr fun j hj => antialiased_spec hx h0 hf hn hc hi hj

/-- `C129`, bicubic interpolation, with and without antialiasing. -/
theorem C129_bicubic_partial (x : Ten ℝ) (N C H W OH OW : Nat) (align aa : Bool) (hx : x.Is [N, C, H, W]) (h0 : 0 < H ∧ 0 < W)
    (hf : Fair align H OH ∧ Fair align W OW) :
    ∃ us, interpBySize x [OH, OW] .bicubic align aa = some ([N, C, OH, OW], us) ∧
      Yields [[us]] [N, C, OH, OW] fun ix =>
        cubicAt H (resizePos align H OH (ix.getD 2 0)) fun i => cubicAt W (resizePos align W OW (ix.getD 3 0)) fun j =>
          smoothed align aa H W OH OW (fun y z => x.get [ix.getD 0 0, ix.getD 1 0, y, z]) i j := by
  refine ⟨bicubic2d align N C H W OH OW (antialiased align aa H W OH OW x.data), by rw [by_size4 hx]; rfl, loop4_computes ?_⟩
  intro n hn c hc y hy z hz
  rw [cubicAxis_cubic h0.1 hf.1]
  refine cubicAt_congr h0.1 fun i hi => ?_
  rw [cubicAxis_cubic h0.2 hf.2]
  exact cubicAt_congr h0.2 fun j hj => antialiased_spec hx h0 hf hn hc hi hj

/-- `C129`, trilinear interpolation. -/
theorem C129_trilinear_partial (x : Ten ℝ) (N C D H W OD OH OW : Nat) (align aa : Bool) (hx : x.Is [N, C, D, H, W])
    (h0 : 0 < D ∧ 0 < H ∧ 0 < W) (hf : Fair align D OD ∧ Fair align H OH ∧ Fair align W OW) :
    ∃ us, interpBySize x [OD, OH, OW] .trilinear align aa = some ([N, C, OD, OH, OW], us) ∧
      Yields [[us]] [N, C, OD, OH, OW] fun ix =>
        linAt D (resizePos align D OD (ix.getD 2 0)) fun k => linAt H (resizePos align H OH (ix.getD 3 0)) fun i =>
          linAt W (resizePos align W OW (ix.getD 4 0)) fun j => x.get [ix.getD 0 0, ix.getD 1 0, k, i, j] := by
  refine ⟨trilinear3d align N C D H W OD OH OW x.data, by rw [by_size5 hx]; rfl, loop5_computes ?_⟩
  intro n hn c hc d hd y hy z hz
  rw [lerp_lin h0.1 hf.1]
  refine linAt_congr fun k hk => ?_
  rw [lerp_lin h0.2.1 hf.2.1]
  refine linAt_congr fun i hi => ?_
  rw [lerp_lin h0.2.2 hf.2.2]
  exact linAt_congr fun j hj => read5 hx hn hc hk hi hj

/-! ### Range and constants -/

theorem lerp_range {align : Bool} {n : Nat} (hn : 0 < n) {lo hi : ℝ} {f : Nat → ℝ} (h : ∀ i < n, lo ≤ f i ∧ f i ≤ hi) (o t : Nat) :
    lo ≤ lerp align n o t f ∧ lerp align n o t f ≤ hi := by
  unfold lerp
  dsimp only
  obtain ⟨s, hs⟩ : ∃ s, s = srcPos align (scaleOf align n o) t := ⟨_, rfl⟩
  rw [← hs, clampIdx_edge hn, clampIdx_edge hn]
  have w0 := Int.floor_le s
  have w1 := Int.lt_floor_add_one s
  obtain ⟨a1, a2⟩ := h _ (edge_lt hn ⌊s⌋)
  obtain ⟨b1, b2⟩ := h _ (edge_lt hn (⌊s⌋ + 1))
  constructor
  · nlinarith [mul_nonneg (show 0 ≤ 1 - (s - (⌊s⌋ : ℝ)) by linarith) (sub_nonneg.mpr a1),
      mul_nonneg (show 0 ≤ s - (⌊s⌋ : ℝ) by linarith) (sub_nonneg.mpr b1)]
  · nlinarith [mul_nonneg (show 0 ≤ 1 - (s - (⌊s⌋ : ℝ)) by linarith) (sub_nonneg.mpr a2),
      mul_nonneg (show 0 ≤ s - (⌊s⌋ : ℝ) by linarith) (sub_nonneg.mpr b2)]

theorem gaussAt_range {r n : Nat} (hn : 0 < n) {sigma lo hi : ℝ} {f : Nat → ℝ} (h : ∀ i < n, lo ≤ f i ∧ f i ≤ hi) (t : Nat) :
    lo ≤ gaussAt r sigma n t f ∧ gaussAt r sigma n t f ≤ hi := by
  unfold gaussAt
  have hp : 0 < ∑ k ∈ Finset.Icc (-(r : Int)) r, Real.exp (-((k : ℝ) * k) / (2 * sigma * sigma)) :=
    Finset.sum_pos (fun k _ => Real.exp_pos _) ⟨0, by simp⟩
  rw [le_div_iff₀ hp, div_le_iff₀ hp, Finset.mul_sum, Finset.mul_sum]
  constructor
  · refine Finset.sum_le_sum fun k _ => ?_
    rw [mul_comm]
    exact mul_le_mul_of_nonneg_left (h _ (edge_lt hn _)).1 (Real.exp_pos _).le
  · refine Finset.sum_le_sum fun k _ => ?_
    rw [mul_comm hi]
    exact mul_le_mul_of_nonneg_left (h _ (edge_lt hn _)).2 (Real.exp_pos _).le

theorem antialiased_range {x : Ten ℝ} {N C H W OH OW : Nat} {align aa : Bool} (hx : x.Is [N, C, H, W]) (h0 : 0 < H ∧ 0 < W)
    {lo hi : ℝ} (hr : ∀ ix, InB [N, C, H, W] ix → lo ≤ x.get ix ∧ x.get ix ≤ hi) {n c y z : Nat} (hn : n < N) (hc : c < C)
    (hy : y < H) (hz : z < W) :
    lo ≤ antialiased align aa H W OH OW x.data (((n * C + c) * H + y) * W + z) ∧
      antialiased align aa H W OH OW x.data (((n * C + c) * H + y) * W + z) ≤ hi := by
  unfold antialiased
  split
  · rw [blur_spec hx h0 _ hn hc hy hz]
    exact gaussAt_range h0.1 (fun y' hy' => gaussAt_range h0.2 (fun z' hz' => hr [n, c, y', z'] ⟨hn, hc, hy', hz', trivial⟩) z) y
  · rw [read4 hx hn hc hy hz]
    exact hr _ ⟨hn, hc, hy, hz, trivial⟩

/-- Every output element lies in `[lo, hi]`, whatever the schedule. -/
def OutIn (us : List (Upd ℝ)) (sh : List Nat) (lo hi : ℝ) : Prop :=
  ∀ m m', Exec [[us]] m m' → ∀ ix, InB sh ix → lo ≤ (outRows sh m').get ix ∧ (outRows sh m').get ix ≤ hi

theorem outIn_of {us : List (Upd ℝ)} {sh : List Nat} {lo hi : ℝ} {val : List Nat → ℝ} (h : Yields [[us]] sh val)
    (hv : ∀ ix, InB sh ix → lo ≤ val ix ∧ val ix ≤ hi) : OutIn us sh lo hi := by
  intro m m' hex ix hix
  rw [(h m m' hex).1 ix hix]
  exact hv ix hix

theorem range3 {x : Ten ℝ} {N C L OL : Nat} {mode : IMode} {align aa : Bool} (hx : x.Is [N, C, L]) (h0 : 0 < L) {lo hi : ℝ}
    (hr : ∀ ix, InB [N, C, L] ix → lo ≤ x.get ix ∧ x.get ix ≤ hi) {us : List (Upd ℝ)}
    (h : interpForward mode align aa x.data [N, C, L] [N, C, OL] = some us) : OutIn us [N, C, OL] lo hi := by
  cases mode <;> simp only [interpForward, Option.some.injEq, reduceCtorEq] at h
  · subst h
    have hc : Yields [[nearest2d align N C 1 L 1 OL x.data 0]] [N, C, 1, OL] fun ix =>
        x.get [ix.getD 0 0, ix.getD 1 0, nearIdx align L OL (ix.getD 3 0)] := by
      refine loop4_computes ?_
      intro n hn c hc y hy z hz
      have : nearIdx align 1 1 y = 0 := by have := nearIdx_lt (align := align) (n := 1) (by decide) 1 y; omega
      rw [this, show 0 + (((n * C + c) * 1 + 0) * L + nearIdx align L OL z) = (n * C + c) * L + nearIdx align L OL z by ring,
        read3 hx hn hc (nearIdx_lt h0 OL z)]
      rfl
    intro m m' hex ix hix
    obtain ⟨n, c, l, rfl, hn, hc', hl⟩ := inB3 hix
    have := (hc m m' hex).1 [n, c, 0, l] ⟨hn, hc', by decide, hl, trivial⟩
    rw [out_get (by exact ⟨hn, hc', by decide, hl, trivial⟩), lin4] at this
    have e : (outRows [N, C, OL] m').get [n, c, l] = x.get [n, c, nearIdx align L OL l] := by
      rw [out_get hix, lin3]
      simpa using this
    rw [e]
    exact hr _ ⟨hn, hc', nearIdx_lt h0 OL l, trivial⟩
  · subst h
    refine outIn_of (loop3_computes (val := fun ix => lerp align L OL (ix.getD 2 0) fun i =>
      x.data ((ix.getD 0 0 * C + ix.getD 1 0) * L + i)) (by intros; rfl)) ?_
    intro ix hix
    obtain ⟨n, c, l, rfl, hn, hc, hl⟩ := inB3 hix
    refine lerp_range h0 (fun i hi => ?_) _ _
    have : x.data ((n * C + c) * L + i) = _ := read3 hx hn hc hi
    simp only [List.getD_cons_zero, List.getD_cons_succ]
    rw [this]
    exact hr _ ⟨hn, hc, hi, trivial⟩

theorem range4 {x : Ten ℝ} {N C H W OH OW : Nat} {mode : IMode} {align aa : Bool} (hx : x.Is [N, C, H, W]) (h0 : 0 < H ∧ 0 < W)
    {lo hi : ℝ} (hr : ∀ ix, InB [N, C, H, W] ix → lo ≤ x.get ix ∧ x.get ix ≤ hi) {us : List (Upd ℝ)} (hm : mode ≠ .bicubic)
    (h : interpForward mode align aa x.data [N, C, H, W] [N, C, OH, OW] = some us) : OutIn us [N, C, OH, OW] lo hi := by
  cases mode <;> simp only [interpForward, Option.some.injEq, reduceCtorEq] at h
  · subst h
    refine outIn_of (loop4_computes (val := fun ix => x.data (0 + (((ix.getD 0 0 * C + ix.getD 1 0) * H +
      nearIdx align H OH (ix.getD 2 0)) * W + nearIdx align W OW (ix.getD 3 0)))) (by intros; rfl)) ?_
    intro ix hix
    obtain ⟨n, c, y, z, rfl, hn, hc, hy, hz⟩ := inB4 hix
    simp only [List.getD_cons_zero, List.getD_cons_succ, Nat.zero_add]
    rw [read4 hx hn hc (nearIdx_lt h0.1 OH y) (nearIdx_lt h0.2 OW z)]
    exact hr _ ⟨hn, hc, nearIdx_lt h0.1 OH y, nearIdx_lt h0.2 OW z, trivial⟩
  · subst h
    refine outIn_of (loop4_computes (val := fun ix => lerp align H OH (ix.getD 2 0) fun i => lerp align W OW (ix.getD 3 0) fun j =>
      antialiased align aa H W OH OW x.data (((ix.getD 0 0 * C + ix.getD 1 0) * H + i) * W + j)) (by intros; rfl)) ?_
    intro ix hix
    obtain ⟨n, c, y, z, rfl, hn, hc, hy, hz⟩ := inB4 hix
    exact lerp_range h0.1 (fun i hi => lerp_range h0.2 (fun j hj => antialiased_range hx h0 hr hn hc hi hj) _ _) _ _
  · exact absurd rfl hm

theorem range5 {x : Ten ℝ} {N C D H W OD OH OW : Nat} {mode : IMode} {align aa : Bool} (hx : x.Is [N, C, D, H, W])
    (h0 : 0 < D ∧ 0 < H ∧ 0 < W) {lo hi : ℝ} (hr : ∀ ix, InB [N, C, D, H, W] ix → lo ≤ x.get ix ∧ x.get ix ≤ hi)
    {us : List (Upd ℝ)} (h : interpForward mode align aa x.data [N, C, D, H, W] [N, C, OD, OH, OW] = some us) :
    OutIn us [N, C, OD, OH, OW] lo hi := by
  cases mode <;> simp only [interpForward, Option.some.injEq, reduceCtorEq] at h
  · subst h
    refine outIn_of (nearest3d_computes (val := fun ix => x.data (lin [N, C, D, H, W] [ix.getD 0 0, ix.getD 1 0,
      nearIdx align D OD (ix.getD 2 0), nearIdx align H OH (ix.getD 3 0), nearIdx align W OW (ix.getD 4 0)])) (by intros; rfl)) ?_
    intro ix hix
    obtain ⟨n, c, d, y, z, rfl, hn, hc, hd, hy, hz⟩ := inB5 hix
    simp only [List.getD_cons_zero, List.getD_cons_succ]
    have hb : InB [N, C, D, H, W] [n, c, nearIdx align D OD d, nearIdx align H OH y, nearIdx align W OW z] :=
      ⟨hn, hc, nearIdx_lt h0.1 OD d, nearIdx_lt h0.2.1 OH y, nearIdx_lt h0.2.2 OW z, trivial⟩
    rw [← hx.get hb]
    exact hr _ hb
  · subst h
    refine outIn_of (loop5_computes (val := fun ix => lerp align D OD (ix.getD 2 0) fun k => lerp align H OH (ix.getD 3 0) fun i =>
      lerp align W OW (ix.getD 4 0) fun j => x.data ((((ix.getD 0 0 * C + ix.getD 1 0) * D + k) * H + i) * W + j))
      (by intros; rfl)) ?_
    intro ix hix
    obtain ⟨n, c, d, y, z, rfl, hn, hc, hd, hy, hz⟩ := inB5 hix
    refine lerp_range h0.1 (fun k hk => lerp_range h0.2.1 (fun i hi => lerp_range h0.2.2 (fun j hj => ?_) _ _) _ _) _ _
    simp only [List.getD_cons_zero, List.getD_cons_succ]
    rw [read5 hx hn hc hk hi hj]
    exact hr _ ⟨hn, hc, hk, hi, hj, trivial⟩

theorem by_size_ok {x : Ten ℝ} {size sh : List Nat} {mode : IMode} {align aa : Bool} {us : List (Upd ℝ)}
    (h : interpBySize x size mode align aa = some (sh, us)) :
    sizeShape x.shape size = some sh ∧ interpForward mode align aa x.data x.shape sh = some us := by
  unfold interpBySize at h
  simp only [Option.bind_eq_bind, Option.bind_eq_some_iff] at h
  obtain ⟨a, ha, b, hb, h⟩ := h
  cases h
  exact ⟨ha, hb⟩

theorem interp_shapes {x : Nat → ℝ} {a b : List Nat} {mode : IMode} {align aa : Bool} {us : List (Upd ℝ)}
    (h : interpForward mode align aa x a b = some us) :
    (∃ N C L N' C' L', a = [N, C, L] ∧ b = [N', C', L']) ∨ (∃ N C H W N' C' H' W', a = [N, C, H, W] ∧ b = [N', C', H', W']) ∨
      ∃ N C D H W N' C' D' H' W', a = [N, C, D, H, W] ∧ b = [N', C', D', H', W'] := by
  unfold interpForward at h
  split at h
  · exact .inl ⟨_, _, _, _, _, _, rfl, rfl⟩
  · exact .inr (.inl ⟨_, _, _, _, _, _, _, _, rfl, rfl⟩)
  · exact .inr (.inr ⟨_, _, _, _, _, _, _, _, _, _, rfl, rfl⟩)
  · cases h

/-- `C129`: except for bicubic, every accepted resize — any sizes, with or without aligned corners or antialiasing — keeps batch
and channels and stays within the range of the input. -/
theorem C129_range (x : Ten ℝ) (size : List Nat) (mode : IMode) (align aa : Bool) (lo hi : ℝ) (hm : mode ≠ .bicubic)
    (hlen : size.length + 2 = x.shape.length) (hs : x.stride = rowStr x.shape) (h0 : ∀ d ∈ x.shape.drop 2, 0 < d)
    (hr : ∀ ix, InB x.shape ix → lo ≤ x.get ix ∧ x.get ix ≤ hi) (sh : List Nat) (us : List (Upd ℝ))
    (h : interpBySize x size mode align aa = some (sh, us)) :
    sh = x.shape.take 2 ++ size ∧ ∀ m m', Exec [[us]] m m' →
      ∀ ix, InB sh ix → lo ≤ (outRows sh m').get ix ∧ (outRows sh m').get ix ≤ hi := by
  obtain ⟨h1, h2⟩ := by_size_ok h
  have e : sh = x.shape.take 2 ++ size := by
    unfold sizeShape at h1
    rw [if_pos (by omega), show x.shape.length - size.length = 2 by omega] at h1
    exact (Option.some.inj h1).symm
  refine ⟨e, ?_⟩
  rcases interp_shapes h2 with ⟨N, C, L, N', C', L', ha, hb⟩ | ⟨N, C, H, W, N', C', H', W', ha, hb⟩ |
    ⟨N, C, D, H, W, N', C', D', H', W', ha, hb⟩
  · have hx : x.Is [N, C, L] := ⟨ha, by rw [hs, ha]⟩
    rw [ha] at hr h2 e h0
    rw [hb] at e
    simp only [List.take, List.cons_append, List.nil_append, List.cons.injEq] at e
    obtain ⟨rfl, rfl, _⟩ := e
    subst hb
    exact range3 hx (h0 L (by simp)) hr h2
  · have hx : x.Is [N, C, H, W] := ⟨ha, by rw [hs, ha]⟩
    rw [ha] at hr h2 e h0
    rw [hb] at e
    simp only [List.take, List.cons_append, List.nil_append, List.cons.injEq] at e
    obtain ⟨rfl, rfl, _⟩ := e
    subst hb
    exact range4 hx ⟨h0 H (by simp), h0 W (by simp)⟩ hr hm h2
  · have hx : x.Is [N, C, D, H, W] := ⟨ha, by rw [hs, ha]⟩
    rw [ha] at hr h2 e h0
    rw [hb] at e
    simp only [List.take, List.cons_append, List.nil_append, List.cons.injEq] at e
    obtain ⟨rfl, rfl, _⟩ := e
    subst hb
    exact range5 hx ⟨h0 D (by simp), h0 H (by simp), h0 W (by simp)⟩ hr h2

theorem cubicAxis_const {align : Bool} {n : Nat} (hn : 0 < n) {v : ℝ} {f : Nat → ℝ} (h : ∀ i < n, f i = v) (o t : Nat) :
    cubicAxis align n o t f = v := by
  unfold cubicAxis
  dsimp only
  simp only [clampIdx_edge hn]
  rw [h _ (edge_lt hn _), h _ (edge_lt hn _), h _ (edge_lt hn _), h _ (edge_lt hn _)]
  unfold cubic
  rw [show (2.0 : ℝ) = 2 by norm_num]
  ring

/-- `C129`: every accepted resize of a constant tensor gives that constant. -/
theorem C129_constant (x : Ten ℝ) (size : List Nat) (mode : IMode) (align aa : Bool) (v : ℝ)
    (hlen : size.length + 2 = x.shape.length) (hs : x.stride = rowStr x.shape) (h0 : ∀ d ∈ x.shape.drop 2, 0 < d)
    (hr : ∀ ix, InB x.shape ix → x.get ix = v) (sh : List Nat) (us : List (Upd ℝ))
    (h : interpBySize x size mode align aa = some (sh, us)) :
    ∀ m m', Exec [[us]] m m' → ∀ ix, InB sh ix → (outRows sh m').get ix = v := by
  intro m m' hex ix hix
  have hr' : ∀ ix, InB x.shape ix → v ≤ x.get ix ∧ x.get ix ≤ v := fun ix hix => by rw [hr ix hix]; exact ⟨le_rfl, le_rfl⟩
  by_cases hm : mode = .bicubic
  · subst hm
    obtain ⟨h1, h2⟩ := by_size_ok h
    rcases interp_shapes h2 with ⟨N, C, L, N', C', L', ha, hb⟩ | ⟨N, C, H, W, N', C', H', W', ha, hb⟩ |
      ⟨N, C, D, H, W, N', C', D', H', W', ha, hb⟩
    · rw [ha, hb] at h2; simp [interpForward] at h2
    · have hx : x.Is [N, C, H, W] := ⟨ha, by rw [hs, ha]⟩
      have e : sh = x.shape.take 2 ++ size := by
        unfold sizeShape at h1
        rw [if_pos (by omega), show x.shape.length - size.length = 2 by omega] at h1
        exact (Option.some.inj h1).symm
      rw [ha] at hr' h2 e h0
      rw [hb] at e
      simp only [List.take, List.cons_append, List.nil_append, List.cons.injEq] at e
      obtain ⟨rfl, rfl, _⟩ := e
      subst hb
      simp only [interpForward, Option.some.injEq] at h2
      subst h2
      have hp : 0 < H ∧ 0 < W := ⟨h0 H (by simp), h0 W (by simp)⟩
      refine (loop4_computes (val := fun _ => v) ?_ m m' hex).1 ix hix
      intro n hn c hc y hy z hz
      refine cubicAxis_const hp.1 (fun i hi => cubicAxis_const hp.2 (fun j hj => ?_) _ _) _ _
      have := antialiased_range (align := align) (aa := aa) (OH := H') (OW := W') hx hp hr' hn hc hi hj
      exact le_antisymm this.2 this.1
    · rw [ha, hb] at h2; simp [interpForward] at h2
  · have := (C129_range x size mode align aa v v hm hlen hs h0 hr' sh us h).2 m m' hex ix hix
    exact le_antisymm this.2 this.1

/-! ### Resizing to the same size -/

theorem fair_self (align : Bool) (n : Nat) : Fair align n n := by
  by_cases h : n = 1
  · exact .inr (.inr h)
  · exact .inl h

theorem resizePos_self {align : Bool} {n t : Nat} (h : t < n) : resizePos align n n t = t := by
  unfold resizePos
  have hn : (n : ℝ) ≠ 0 := by exact_mod_cast (by omega : n ≠ 0)
  cases align
  · simp only [Bool.false_eq_true, if_false]
    rw [div_self hn]; ring
  · simp only [if_true]
    by_cases h1 : n = 1
    · have : t = 0 := by omega
      subst this; simp
    · have : (n : ℝ) - 1 ≠ 0 := by
        intro e
        have : (n : ℝ) = 1 := by linarith
        exact h1 (by exact_mod_cast this)
      rw [div_self this, mul_one]

theorem linAt_node {n t : Nat} (h : t < n) (f : Nat → ℝ) : linAt n (t : ℝ) f = f t := by
  unfold linAt
  have h1 : (t : ℝ) ≤ (n : ℝ) - 1 := by
    have : ((t + 1 : Nat) : ℝ) ≤ n := by exact_mod_cast h
    push_cast at this
    linarith
  rw [min_eq_left h1, max_eq_right (by positivity)]
  have := hat_two h (w := 0) le_rfl one_pos (.inl rfl) f
  rw [add_zero] at this
  rw [this]; ring

theorem cubicAt_node {n t : Nat} (h : t < n) (f : Nat → ℝ) : cubicAt n (t : ℝ) f = f t := by
  rw [← cubic_of (by omega)]
  have : clampIdx ⌊(t : ℝ)⌋ n = t := by
    rw [Int.floor_natCast]; unfold clampIdx; omega
  rw [this]
  unfold cubic
  rw [Int.floor_natCast]
  simp

theorem nearest_node {n t i : Nat} (h : t < n) (hi : IsNearest n (t : ℝ) i) : i = t := by
  have := hi.2 t h
  rw [sub_self, abs_zero] at this
  have := abs_nonpos_iff.mp this
  have : (t : ℝ) = i := by linarith
  exact_mod_cast this.symm

theorem smoothed_self {align aa : Bool} {H W : Nat} (f : Nat → Nat → ℝ) (y z : Nat) : smoothed align aa H W H W f y z = f y z := by
  have : ∀ n, ¬ 1 < shrink align n n := by
    intro n
    unfold shrink
    cases align
    · simp only [Bool.false_eq_true, if_false]; exact not_lt.mpr (div_self_le_one _)
    · simp only [if_true]; exact not_lt.mpr (div_self_le_one _)
  unfold smoothed
  rw [if_neg (by rintro ⟨_, h | h⟩ <;> exact this _ h)]

/-- `C129`: resizing to the size the input has gives the input back, in every mode that accepts the rank. -/
theorem C129_identity (x : Ten ℝ) (mode : IMode) (align aa : Bool) (hs : x.stride = rowStr x.shape) (h0 : ∀ d ∈ x.shape.drop 2, 0 < d)
    (sh : List Nat) (us : List (Upd ℝ)) (h : interpBySize x (x.shape.drop 2) mode align aa = some (sh, us)) :
    sh = x.shape ∧ ∀ m m', Exec [[us]] m m' → ∀ ix, InB sh ix → (outRows sh m').get ix = x.get ix := by
  obtain ⟨h1, h2⟩ := by_size_ok h
  rcases interp_shapes h2 with ⟨N, C, L, N', C', L', ha, hb⟩ | ⟨N, C, H, W, N', C', H', W', ha, hb⟩ |
    ⟨N, C, D, H, W, N', C', D', H', W', ha, hb⟩
  · have hx : x.Is [N, C, L] := ⟨ha, by rw [hs, ha]⟩
    have hL : 0 < L := h0 L (by rw [ha]; simp)
    rw [ha] at h ⊢
    simp only [List.drop] at h
    have e := (by_size_ok h).1
    rw [ha, sizeShape3] at e
    cases e
    refine ⟨rfl, fun m m' hex ix hix => ?_⟩
    obtain ⟨n, c, l, rfl, hn, hc, hl⟩ := inB3 hix
    cases mode
    · obtain ⟨us', pick, hu, hp, hC⟩ := C129_nearest1d_partial x N C L L align aa hx hL (fair_self _ _)
      rw [hu] at h; cases h
      rw [(hC m m' hex).1 _ hix]
      have := hp l hl
      rw [resizePos_self hl] at this
      simp only [List.getD_cons_zero, List.getD_cons_succ]
      rw [nearest_node hl this]
    · obtain ⟨us', hu, hC⟩ := C129_linear_partial x N C L L align aa hx hL (fair_self _ _)
      rw [hu] at h; cases h
      rw [(hC m m' hex).1 _ hix]
      simp only [List.getD_cons_zero, List.getD_cons_succ]
      rw [resizePos_self hl, linAt_node hl]
    all_goals simp [by_size3 hx, interpForward] at h
  · have hx : x.Is [N, C, H, W] := ⟨ha, by rw [hs, ha]⟩
    have hp : 0 < H ∧ 0 < W := ⟨h0 H (by rw [ha]; simp), h0 W (by rw [ha]; simp)⟩
    rw [ha] at h ⊢
    simp only [List.drop] at h
    have e := (by_size_ok h).1
    rw [ha, sizeShape4] at e
    cases e
    refine ⟨rfl, fun m m' hex ix hix => ?_⟩
    obtain ⟨n, c, y, z, rfl, hn, hc, hy, hz⟩ := inB4 hix
    have hf : Fair align H H ∧ Fair align W W := ⟨fair_self _ _, fair_self _ _⟩
    cases mode
    · obtain ⟨us', py, pz, hu, h3, h4, hC⟩ := C129_nearest2d_partial x N C H W H W align aa hx hp hf
      rw [hu] at h; cases h
      rw [(hC m m' hex).1 _ hix]
      have t3 := h3 y hy
      have t4 := h4 z hz
      rw [resizePos_self hy] at t3
      rw [resizePos_self hz] at t4
      simp only [List.getD_cons_zero, List.getD_cons_succ]
      rw [nearest_node hy t3, nearest_node hz t4]
    · simp [by_size4 hx, interpForward] at h
    · obtain ⟨us', hu, hC⟩ := C129_bilinear_partial x N C H W H W align aa hx hp hf
      rw [hu] at h; cases h
      rw [(hC m m' hex).1 _ hix]
      simp only [List.getD_cons_zero, List.getD_cons_succ]
      rw [resizePos_self hy, resizePos_self hz, linAt_node hy, linAt_node hz, smoothed_self]
    · obtain ⟨us', hu, hC⟩ := C129_bicubic_partial x N C H W H W align aa hx hp hf
      rw [hu] at h; cases h
      rw [(hC m m' hex).1 _ hix]
      simp only [List.getD_cons_zero, List.getD_cons_succ]
      rw [resizePos_self hy, resizePos_self hz, cubicAt_node hy, cubicAt_node hz, smoothed_self]
    · simp [by_size4 hx, interpForward] at h
  · have hx : x.Is [N, C, D, H, W] := ⟨ha, by rw [hs, ha]⟩
    have hp : 0 < D ∧ 0 < H ∧ 0 < W := ⟨h0 D (by rw [ha]; simp), h0 H (by rw [ha]; simp), h0 W (by rw [ha]; simp)⟩
    rw [ha] at h ⊢
    simp only [List.drop] at h
    have e := (by_size_ok h).1
    rw [ha, sizeShape5] at e
    cases e
    refine ⟨rfl, fun m m' hex ix hix => ?_⟩
    obtain ⟨n, c, d, y, z, rfl, hn, hc, hd, hy, hz⟩ := inB5 hix
    have hf : Fair align D D ∧ Fair align H H ∧ Fair align W W := ⟨fair_self _ _, fair_self _ _, fair_self _ _⟩
    cases mode
    · obtain ⟨us', pd, py, pz, hu, h3, h4, h5, hC⟩ := C129_nearest3d_partial x N C D H W D H W align aa hx hp hf
      rw [hu] at h; cases h
      rw [(hC m m' hex).1 _ hix]
      have t3 := h3 d hd
      have t4 := h4 y hy
      have t5 := h5 z hz
      rw [resizePos_self hd] at t3
      rw [resizePos_self hy] at t4
      rw [resizePos_self hz] at t5
      simp only [List.getD_cons_zero, List.getD_cons_succ]
      rw [nearest_node hd t3, nearest_node hy t4, nearest_node hz t5]
    · simp [by_size5 hx, interpForward] at h
    · simp [by_size5 hx, interpForward] at h
    · simp [by_size5 hx, interpForward] at h
    · obtain ⟨us', hu, hC⟩ := C129_trilinear_partial x N C D H W D H W align aa hx hp hf
      rw [hu] at h; cases h
      rw [(hC m m' hex).1 _ hix]
      simp only [List.getD_cons_zero, List.getD_cons_succ]
      rw [resizePos_self hd, resizePos_self hy, resizePos_self hz, linAt_node hd, linAt_node hy, linAt_node hz]

/-! ### Scale factors, refusals and what is violated -/

/-- `C129`: scale factors mean the truncated sizes. -/
theorem C129_by_scale (x : Ten ℝ) (factor : List ℝ) (mode : IMode) (align aa : Bool) (h : factor.length ≤ x.shape.length) :
    interpByScale x factor mode align aa =
      interpBySize x (List.zipWith (fun (d : Nat) f => ⌊(d : ℝ) * f⌋.toNat) (x.shape.drop (x.shape.length - factor.length)) factor)
        mode align aa := by
  unfold interpByScale interpBySize scaleShape sizeShape
  have hl : (List.zipWith (fun (d : Nat) (f : ℝ) => ⌊(d : ℝ) * f⌋.toNat) (x.shape.drop (x.shape.length - factor.length))
      factor).length = factor.length := by
    rw [List.length_zipWith, List.length_drop]; omega
  rw [if_pos h, hl, if_pos h]

/-- `C129`: a mode is accepted only for its rank: nearest for three to five dimensions, linear for three, bilinear and bicubic
for four, trilinear for five. -/
theorem C129_refuses (x : Ten ℝ) (size : List Nat) (mode : IMode) (align aa : Bool)
    (h : match mode with
      | .nearest => x.shape.length < 3 ∨ 5 < x.shape.length
      | .linear => x.shape.length ≠ 3
      | .bilinear => x.shape.length ≠ 4
      | .bicubic => x.shape.length ≠ 4
      | .trilinear => x.shape.length ≠ 5) : interpBySize x size mode align aa = none := by
  cases hr : interpBySize x size mode align aa with
  | none => rfl
  | some p =>
    obtain ⟨sh, us⟩ := p
    obtain ⟨_, h2⟩ := by_size_ok hr
    rcases interp_shapes h2 with ⟨N, C, L, N', C', L', ha, hb⟩ | ⟨N, C, H, W, N', C', H', W', ha, hb⟩ |
      ⟨N, C, D, H, W, N', C', D', H', W', ha, hb⟩ <;> rw [ha, hb] at h2 <;> rw [ha] at h <;> cases mode <;>
      simp [interpForward] at h2 h

/-- One output without aligned corners is the first sample, whatever the length. -/
theorem C129_single_output (x : Ten ℝ) (N C L : Nat) (aa : Bool) (hx : x.Is [N, C, L]) (h0 : 0 < L) :
    ∃ us, interpBySize x [1] .linear false aa = some ([N, C, 1], us) ∧
      Yields [[us]] [N, C, 1] fun ix => x.get [ix.getD 0 0, ix.getD 1 0, 0] := by
  refine ⟨linear1d false N C L 1 x.data, by rw [by_size3 hx]; rfl, loop3_computes ?_⟩
  intro n hn c hc l hl
  unfold lerp
  dsimp only
  have hs : srcPos false (scaleOf false L 1) l = -(1 / 2) := by simp [srcPos, scaleOf]
  have hfl : ⌊(-(1 / 2) : ℝ)⌋ = -1 := by rw [Int.floor_eq_iff]; norm_num
  rw [hs, hfl]
  have e1 : clampIdx (-1) L = 0 := by unfold clampIdx; omega
  have e2 : clampIdx (-1 + 1) L = 0 := by unfold clampIdx; omega
  rw [e1, e2, read3 hx hn hc h0]
  simp only [List.getD_cons_zero, List.getD_cons_succ]
  ring

/-- Three samples `0, 1, 0`. -/
def peak : Ten ℝ := ⟨[1, 1, 3], [3, 3, 1], fun i => if i = 1 then 1 else 0⟩

/-- `C129` fails for one output without aligned corners: the cell of the output is the whole line, whose middle sample is `1`,
but the result is the first sample. -/
theorem C129_single_output_violated :
    resizePos false 3 1 0 = 1 ∧ linAt 3 (resizePos false 3 1 0) (fun i => peak.get [0, 0, i]) = 1 ∧
      ∃ us, interpBySize peak [1] .linear false true = some ([1, 1, 1], us) ∧
        ∀ m m', Exec [[us]] m m' → (outRows [1, 1, 1] m').get [0, 0, 0] = 0 := by
  have hp : resizePos false 3 1 0 = 1 := by norm_num [resizePos]
  refine ⟨hp, ?_, ?_⟩
  · rw [hp]
    have := linAt_node (n := 3) (t := 1) (by decide) fun i => peak.get [0, 0, i]
    rw [Nat.cast_one] at this
    rw [this]
    simp [peak, Ten.get, pos]
  · obtain ⟨us, h, hC⟩ := C129_single_output peak 1 1 3 true ⟨rfl, rfl⟩ (by decide)
    refine ⟨us, h, fun m m' hex => ?_⟩
    rw [(hC m m' hex).1 [0, 0, 0] (by simp [InB])]
    simp [peak, Ten.get, pos]

/-- A transposed view of `2 × 2` numbers. -/
def viewT : Ten ℝ := ⟨[1, 1, 2, 2], [4, 4, 1, 2], fun i => i⟩

theorem nearIdx_self {align : Bool} {n t : Nat} (h : t < n) : nearIdx align n n t = t := by
  have := nearIdx_spec (align := align) (by omega : 0 < n) (fair_self align n) t
  rw [resizePos_self h] at this
  exact nearest_node h this

/-- `C129` fails for views: strides are ignored, here resizing to the same size undoes the transposition. -/
theorem C129_view_violated :
    viewT.get [0, 0, 0, 1] = 2 ∧ ∃ us, interpBySize viewT [2, 2] .nearest false false = some ([1, 1, 2, 2], us) ∧
      ∀ m m', Exec [[us]] m m' → (outRows [1, 1, 2, 2] m').get [0, 0, 0, 1] = 1 := by
  refine ⟨by norm_num [viewT, Ten.get, pos], nearest2d false 1 1 2 2 2 2 viewT.data 0, ?_, ?_⟩
  · unfold interpBySize
    rw [show viewT.shape = [1, 1, 2, 2] from rfl, sizeShape4]
    rfl
  · intro m m' hex
    have := (loop4_computes (N := 1) (C := 1) (H := 2) (W := 2) (v := fun n c h w => viewT.data (0 + (((n * 1 + c) * 2 +
      nearIdx false 2 2 h) * 2 + nearIdx false 2 2 w))) (val := fun ix => viewT.data (0 + (((ix.getD 0 0 * 1 + ix.getD 1 0) * 2 +
      nearIdx false 2 2 (ix.getD 2 0)) * 2 + nearIdx false 2 2 (ix.getD 3 0)))) (by intros; rfl) m m' hex).1 [0, 0, 0, 1]
      (by simp [InB])
    rw [this]
    simp only [List.getD_cons_zero, List.getD_cons_succ]
    rw [nearIdx_self (by decide), nearIdx_self (by decide)]
    norm_num [viewT]

/-- `C129` fails when the sizes also cover the channels: the output has the requested channels, the loops the input's, so the
result is written past its end. -/
theorem C129_channels_violated :
    ∃ us, interpBySize ⟨[1, 2, 1, 1], [2, 1, 1, 1], fun i => i + 7⟩ [1, 1, 1] .nearest false false = some ([1, 1, 1, 1], us) ∧
      ∀ m m', Exec [[us]] m m' → m' (numel [1, 1, 1, 1]) = 8 := by
  refine ⟨nearest2d false 1 2 1 1 1 1 (fun i => i + 7) 0, ?_, ?_⟩
  · simp [interpBySize, sizeShape, interpForward]
  · intro m m' hex
    have := (loop4_computes (N := 1) (C := 2) (H := 1) (W := 1) (v := fun n c h w => ((0 + (((n * 2 + c) * 1 +
      nearIdx false 1 1 h) * 1 + nearIdx false 1 1 w) : Nat) : ℝ) + 7) (val := fun ix => ((0 + (((ix.getD 0 0 * 2 + ix.getD 1 0) * 1 +
      nearIdx false 1 1 (ix.getD 2 0)) * 1 + nearIdx false 1 1 (ix.getD 3 0)) : Nat) : ℝ) + 7) (by intros; rfl) m m' hex).1
      [0, 1, 0, 0] (by simp [InB])
    rw [out_get (by simp [InB]), lin4] at this
    simp only [List.getD_cons_zero, List.getD_cons_succ] at this
    rw [nearIdx_self (by decide)] at this
    norm_num at this
    simpa [numel] using this

/-! ## Concrete cases -/

/-- Two samples. -/
def two : Ten ℝ := ⟨[1, 1, 2], [2, 2, 1], fun i => if i = 0 then 10 else 20⟩

/-- The hypotheses of `C129_linear_partial` are met: `10, 20` to four samples gives `12.5` at the second. -/
example : ∃ us, interpBySize two [4] .linear false false = some ([1, 1, 4], us) ∧
    ∀ m m', Exec [[us]] m m' → (outRows [1, 1, 4] m').get [0, 0, 1] = 12.5 := by
  obtain ⟨us, h, hC⟩ := C129_linear_partial two 1 1 2 4 false false ⟨rfl, rfl⟩ (by decide) (.inl (by decide))
  refine ⟨us, h, fun m m' hex => ?_⟩
  rw [(hC m m' hex).1 [0, 0, 1] (by simp [InB])]
  have hp : resizePos false 2 4 1 = 1 / 4 := by norm_num [resizePos]
  simp only [List.getD_cons_zero, List.getD_cons_succ]
  rw [hp]
  have := hat_two (n := 2) (a := 0) (w := 1 / 4) (by decide) (by norm_num) (by norm_num) (.inr (by decide)) fun i => two.get [0, 0, i]
  unfold linAt
  rw [show max 0 (min (1 / 4 : ℝ) (((2 : Nat) : ℝ) - 1)) = ((0 : Nat) : ℝ) + 1 / 4 by norm_num, this]
  norm_num [two, Ten.get, pos]

/-- And of `C129_nearest1d_partial`, `C129_range` and `C129_constant`. -/
example : ∃ us, ∃ pick : Nat → Nat, interpBySize two [4] .nearest true false = some ([1, 1, 4], us) ∧
    (∀ t < 4, IsNearest 2 (resizePos true 2 4 t) (pick t)) :=
  let ⟨us, pick, h, hp, _⟩ := C129_nearest1d_partial two 1 1 2 4 true false ⟨rfl, rfl⟩ (by decide) (.inl (by decide))
  ⟨us, pick, h, hp⟩

example : ∃ us, interpBySize two [1] .linear false false = some ([1, 1, 1], us) ∧ ∀ m m', Exec [[us]] m m' →
    10 ≤ (outRows [1, 1, 1] m').get [0, 0, 0] ∧ (outRows [1, 1, 1] m').get [0, 0, 0] ≤ 20 := by
  have h : interpBySize two [1] .linear false false = some ([1, 1, 1], linear1d false 1 1 2 1 two.data) := by
    rw [by_size3 (N := 1) (C := 1) (L := 2) ⟨rfl, rfl⟩]; rfl
  refine ⟨_, h, fun m m' hex => ?_⟩
  refine (C129_range two [1] .linear false false 10 20 (by decide) rfl rfl (by decide) ?_ _ _ h).2 m m' hex _ (by simp [InB])
  intro ix hix
  obtain ⟨n, c, l, rfl, hn, hc, hl⟩ := inB3 hix
  have : two.get [n, c, l] = two.data (n * 2 + (c * 2 + l)) := by simp [two, Ten.get, pos]
  rw [this]
  simp only [two]
  split <;> norm_num

/-- An image of `4 × 4` shrunk to `2 × 2` with antialiasing. -/
def img : Ten ℝ := ⟨[1, 1, 4, 4], [16, 16, 4, 1], fun i => i⟩

example : ∃ us, interpBySize img [2, 2] .bicubic false true = some ([1, 1, 2, 2], us) ∧ ∃ val, Yields [[us]] [1, 1, 2, 2] val :=
  let ⟨us, h, hC⟩ := C129_bicubic_partial img 1 1 4 4 2 2 false true ⟨rfl, rfl⟩ (by decide) ⟨.inl (by decide), .inl (by decide)⟩
  ⟨us, h, _, hC⟩

example : ∃ us, interpBySize img [2, 2] .bilinear false true = some ([1, 1, 2, 2], us) ∧ ∃ val, Yields [[us]] [1, 1, 2, 2] val :=
  let ⟨us, h, hC⟩ := C129_bilinear_partial img 1 1 4 4 2 2 false true ⟨rfl, rfl⟩ (by decide) ⟨.inl (by decide), .inl (by decide)⟩
  ⟨us, h, _, hC⟩

end Verif.Kern
