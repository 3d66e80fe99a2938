import Verif.Quant.Lemmas
import Mathlib.Algebra.Order.BigOperators.Ring.Finset
import Mathlib.Algebra.BigOperators.Field
import Mathlib.Tactic.Linarith

/-! The scale search of q4_K (`make_qkx2_quants`). -/

namespace Verif.Quant

theorem Rounds.mono {rnd : ℝ → Int} (hr : Rounds rnd) {x y : ℝ} (h : x ≤ y) : rnd x ≤ rnd y := by
  rcases eq_or_lt_of_le h with h | h
  · rw [h]
  · have h1 := hr x; have h2 := hr y
    rw [abs_le] at h1 h2
    have : (rnd x : ℝ) < rnd y + 1 := by linarith
    have : rnd x < rnd y + 1 := by exact_mod_cast this
    omega

theorem qkxMax_spec {n : Nat} (hn : 0 < n) (x : Nat → ℝ) : (∀ i < n, x i ≤ qkxMax n x) ∧ ∃ i < n, qkxMax n x = x i := by
  have key : ∀ m, (∀ i < m + 1, x i ≤ qkxMax (m + 1) x) ∧ ∃ i < m + 1, qkxMax (m + 1) x = x i := by
    intro m
    induction m with
    | zero => exact ⟨fun i hi => by rw [show i = 0 by omega]; simp [qkxMax], 0, by omega, by simp [qkxMax]⟩
    | succ m ih =>
      have e : qkxMax (m + 1 + 1) x = if x (m + 1) > qkxMax (m + 1) x then x (m + 1) else qkxMax (m + 1) x := by
        unfold qkxMax; rw [Nat.add_sub_cancel, Nat.add_sub_cancel, List.range_succ, List.foldl_append]; rfl
      rw [e]
      split
      · rename_i h
        refine ⟨fun i hi => ?_, m + 1, by omega, rfl⟩
        rcases Nat.lt_succ_iff_lt_or_eq.mp hi with h' | h'
        · exact (ih.1 i h').trans h.le
        · rw [h']
      · rename_i h
        obtain ⟨i, hi, he⟩ := ih.2
        refine ⟨fun i hi => ?_, i, by omega, he⟩
        rcases Nat.lt_succ_iff_lt_or_eq.mp hi with h' | h'
        · exact ih.1 i h'
        · rw [h']; exact not_lt.mp h
  have := key (n - 1)
  rwa [Nat.sub_add_cancel hn] at this

theorem qkxMin_spec {n : Nat} (hn : 0 < n) (x : Nat → ℝ) :
    (∀ i < n, qkxMin n x ≤ x i) ∧ qkxMin n x ≤ 0 ∧ ∀ lo, lo ≤ 0 → (∀ i < n, lo ≤ x i) → lo ≤ qkxMin n x := by
  obtain ⟨mn, hmn⟩ : ∃ mn, mn = (List.range (n - 1)).foldl (fun m i => if x (i + 1) < m then x (i + 1) else m) (x 0) := ⟨_, rfl⟩
  have key : ∀ m, (∀ i < m + 1, (List.range m).foldl (fun m i => if x (i + 1) < m then x (i + 1) else m) (x 0) ≤ x i) ∧
      ∃ i < m + 1, (List.range m).foldl (fun m i => if x (i + 1) < m then x (i + 1) else m) (x 0) = x i := by
    intro m
    induction m with
    | zero => exact ⟨fun i hi => by rw [show i = 0 by omega]; simp, 0, by omega, by simp⟩
    | succ m ih =>
      rw [List.range_succ, List.foldl_append]
      obtain ⟨f, hf⟩ : ∃ f, f = (List.range m).foldl (fun m i => if x (i + 1) < m then x (i + 1) else m) (x 0) := ⟨_, rfl⟩
      rw [← hf] at ih ⊢
      simp only [List.foldl_cons, List.foldl_nil]
      split
      · rename_i h
        refine ⟨fun i hi => ?_, m + 1, by omega, rfl⟩
        rcases Nat.lt_succ_iff_lt_or_eq.mp hi with h' | h'
        · exact h.le.trans (ih.1 i h')
        · rw [h']
      · rename_i h
        obtain ⟨i, hi, he⟩ := ih.2
        refine ⟨fun i hi => ?_, i, by omega, he⟩
        rcases Nat.lt_succ_iff_lt_or_eq.mp hi with h' | h'
        · exact ih.1 i h'
        · rw [h']; exact not_lt.mp h
  have k := key (n - 1)
  rw [Nat.sub_add_cancel hn, ← hmn] at k
  unfold qkxMin
  simp only [← hmn]
  split
  · rename_i h
    exact ⟨fun i hi => h.le.trans (k.1 i hi), le_refl _, fun lo h1 _ => h1⟩
  · rename_i h
    obtain ⟨i, hi, he⟩ := k.2
    exact ⟨k.1, not_lt.mp h, fun lo _ h2 => he ▸ h2 i hi⟩

theorem clampTo_le (n : Nat) (l : Int) : clampTo n l ≤ n := by unfold clampTo; omega

theorem qkxCodes_le (rnd : ℝ → Int) (nmax : Nat) (x : Nat → ℝ) (mn isc : ℝ) (i : Nat) : qkxCodes rnd nmax x mn isc i ≤ nmax :=
  clampTo_le _ _

theorem qkxCodes_mono {rnd : ℝ → Int} (hr : Rounds rnd) (nmax : Nat) (x : Nat → ℝ) (mn : ℝ) {isc : ℝ} (hi : 0 ≤ isc) {i j : Nat}
    (h : x i ≤ x j) : qkxCodes rnd nmax x mn isc i ≤ qkxCodes rnd nmax x mn isc j := by
  have := hr.mono (mul_le_mul_of_nonneg_left (sub_le_sub_right h mn) hi)
  unfold qkxCodes clampTo; omega

/-- Chebyshev's sum inequality with weights. -/
theorem cov_nonneg {n : Nat} {w x l : Nat → ℝ} (hw : ∀ i < n, 0 ≤ w i) (hm : ∀ i < n, ∀ j < n, x i ≤ x j → l i ≤ l j) :
    (∑ i ∈ Finset.range n, w i * x i) * (∑ i ∈ Finset.range n, w i * l i) ≤
      (∑ i ∈ Finset.range n, w i) * ∑ i ∈ Finset.range n, w i * l i * x i := by
  have h0 : 0 ≤ ∑ i ∈ Finset.range n, ∑ j ∈ Finset.range n, w i * w j * ((x i - x j) * (l i - l j)) := by
    refine Finset.sum_nonneg fun i hi => Finset.sum_nonneg fun j hj => ?_
    rw [Finset.mem_range] at hi hj
    refine mul_nonneg (mul_nonneg (hw i hi) (hw j hj)) ?_
    rcases le_total (x i) (x j) with h | h
    · exact mul_nonneg_of_nonpos_of_nonpos (by linarith) (by linarith [hm i hi j hj h])
    · exact mul_nonneg (by linarith) (by linarith [hm j hj i hi h])
  have e : ∑ i ∈ Finset.range n, ∑ j ∈ Finset.range n, w i * w j * ((x i - x j) * (l i - l j)) =
      2 * ((∑ i ∈ Finset.range n, w i) * (∑ i ∈ Finset.range n, w i * l i * x i) -
        (∑ i ∈ Finset.range n, w i * x i) * ∑ i ∈ Finset.range n, w i * l i) := by
    have t : ∀ i j, w i * w j * ((x i - x j) * (l i - l j)) =
        (w i * l i * x i) * w j - (w i * x i) * (w j * l j) - (w i * l i) * (w j * x j) + w i * (w j * l j * x j) := by
      intro i j; ring
    simp only [t, Finset.sum_add_distrib, Finset.sum_sub_distrib, ← Finset.sum_mul_sum]
    ring
  rw [e] at h0
  linarith

/-- What the search keeps true. -/
structure QkxOk (n nmax : Nat) (x w : Nat → ℝ) (e0 : ℝ) (s : Qkx) : Prop where
  mad : s.mad = qkxErr n x w s.scale s.min s.L
  le : s.mad ≤ e0
  scale : 0 ≤ s.scale
  min : s.min ≤ 0
  codes : ∀ i, s.L i ≤ nmax

theorem qkxStep_ok {n nmax : Nat} {x w : Nat → ℝ} {e0 : ℝ} {s : Qkx} (hs : QkxOk n nmax x w e0 s) {La : Nat → Nat}
    (hL : ∀ i, La i ≤ nmax) (hw : ∀ i < n, 0 ≤ w i) (hm : ∀ i < n, ∀ j < n, x i ≤ x j → La i ≤ La j) :
    QkxOk n nmax x w e0 (qkxStep n x w La s) := by
  have hcov := cov_nonneg (n := n) (w := w) (x := x) (l := fun i => (La i : ℝ)) hw
    (fun i hi j hj h => by exact_mod_cast hm i hi j hj h)
  have hsl : 0 ≤ ∑ i ∈ Finset.range n, w i * (La i : ℝ) :=
    Finset.sum_nonneg fun i hi => mul_nonneg (hw i (Finset.mem_range.mp hi)) (by positivity)
  have hsw : 0 ≤ ∑ i ∈ Finset.range n, w i := Finset.sum_nonneg fun i hi => hw i (Finset.mem_range.mp hi)
  have hsl2 : 0 ≤ ∑ i ∈ Finset.range n, w i * (La i : ℝ) * La i :=
    Finset.sum_nonneg fun i hi => mul_nonneg (mul_nonneg (hw i (Finset.mem_range.mp hi)) (by positivity)) (by positivity)
  unfold qkxStep
  simp only
  obtain ⟨sw, hsw'⟩ : ∃ t, t = ∑ i ∈ Finset.range n, w i := ⟨_, rfl⟩
  obtain ⟨sx, hsx'⟩ : ∃ t, t = ∑ i ∈ Finset.range n, w i * x i := ⟨_, rfl⟩
  obtain ⟨sl, hsl'⟩ : ∃ t, t = ∑ i ∈ Finset.range n, w i * (La i : ℝ) := ⟨_, rfl⟩
  obtain ⟨sl2, hsl2'⟩ : ∃ t, t = ∑ i ∈ Finset.range n, w i * (La i : ℝ) * La i := ⟨_, rfl⟩
  obtain ⟨sxl, hsxl'⟩ : ∃ t, t = ∑ i ∈ Finset.range n, w i * (La i : ℝ) * x i := ⟨_, rfl⟩
  rw [← hsw'] at hsw
  rw [← hsl'] at hsl
  rw [← hsl2'] at hsl2
  simp only [← hsw', ← hsx', ← hsl', ← hsl2', ← hsxl'] at hcov ⊢
  by_cases hD : sw * sl2 - sl * sl > 0
  · rw [if_pos hD]
    obtain ⟨m0, hm0⟩ : ∃ m0, m0 = (sl2 * sx - sl * sxl) / (sw * sl2 - sl * sl) := ⟨_, rfl⟩
    rw [← hm0]
    by_cases hmad : qkxErr n x w (if m0 > 0 then sxl / sl2 else (sw * sxl - sx * sl) / (sw * sl2 - sl * sl))
        (if m0 > 0 then 0 else m0) La < s.mad
    · rw [if_pos hmad]
      refine ⟨rfl, hmad.le.trans hs.le, ?_, ?_, hL⟩
      · show 0 ≤ if m0 > 0 then sxl / sl2 else (sw * sxl - sx * sl) / (sw * sl2 - sl * sl)
        split
        · rename_i hpos
          refine div_nonneg ?_ hsl2
          by_contra hneg
          rw [not_le] at hneg
          have hn : 0 < sl2 * sx - sl * sxl := by
            by_contra c
            have : m0 ≤ 0 := by rw [hm0]; exact div_nonpos_of_nonpos_of_nonneg (not_lt.mp c) hD.le
            linarith
          have hswp : 0 < sw := by
            rcases eq_or_lt_of_le hsw with h | h
            · rw [← h] at hD; nlinarith
            · exact h
          have h1 : sw * (sl * sxl) ≥ sl * (sx * sl) := by nlinarith
          have h2 : sx ≤ 0 := by
            by_contra c
            rw [not_le] at c
            nlinarith [mul_nonneg c.le hsl, mul_neg_of_pos_of_neg hswp hneg]
          have h3 : sx * (sw * sl2) ≤ sx * (sl * sl) := mul_le_mul_of_nonpos_left (by linarith) h2
          nlinarith [mul_pos hswp hn]
        · exact div_nonneg (by linarith) hD.le
      · show (if m0 > 0 then (0 : ℝ) else m0) ≤ 0
        split
        · exact le_refl _
        · rename_i h; exact not_lt.mp h
    · rw [if_neg hmad]; exact hs
  · rw [if_neg hD]; exact hs

/-- The search returns codes in range, a non-negative scale and offset, and a fit at least as good (in weighted
squared error) as half a step of the plain grid over any range that contains the data and zero. -/
theorem qkx2_fit {rnd : ℝ → Int} (hr : Rounds rnd) {n nmax : Nat} (hn : 0 < n) (hmax : 0 < nmax) {x w : Nat → ℝ}
    (hw : ∀ i < n, 0 ≤ w i) {rmin rdelta : ℝ} (hrm : 0 ≤ rmin + nmax) (hrd : 0 ≤ rdelta) (nstep : Nat) :
    let r := qkx2 rnd n nmax x w rmin rdelta nstep
    (∀ i, r.2.2 i ≤ nmax) ∧ 0 ≤ r.1 ∧ 0 ≤ r.2.1 ∧
      ∀ lo hi, lo ≤ 0 → (∀ i < n, lo ≤ x i ∧ x i ≤ hi) →
        ∑ i ∈ Finset.range n, w i * (r.1 * r.2.2 i - r.2.1 - x i) ^ 2 ≤
          ∑ i ∈ Finset.range n, w i * ((hi - lo) / nmax / 2) ^ 2 := by
  obtain ⟨hmx, imx, himx, hemx⟩ := qkxMax_spec hn x
  obtain ⟨hmn, hmn0, hmnl⟩ := qkxMin_spec hn x
  unfold qkx2
  simp only
  obtain ⟨mn, hmn'⟩ : ∃ t, t = qkxMin n x := ⟨_, rfl⟩
  obtain ⟨mx, hmx'⟩ : ∃ t, t = qkxMax n x := ⟨_, rfl⟩
  rw [← hmn'] at hmn hmn0 hmnl
  rw [← hmx'] at hmx hemx
  simp only [← hmn', ← hmx']
  have hle : mn ≤ mx := by rw [hemx]; exact hmn imx himx
  have hspan : ∀ lo hi, lo ≤ 0 → (∀ i < n, lo ≤ x i ∧ x i ≤ hi) → mx - mn ≤ hi - lo := by
    intro lo hi h0 h
    have h1 := hmnl lo h0 fun i hi' => (h i hi').1
    have h2 : mx ≤ hi := by rw [hemx]; exact (h imx himx).2
    linarith
  by_cases heq : mx = mn
  · rw [if_pos heq]
    refine ⟨fun i => by simp, le_refl _, by simp only; linarith, fun lo hi h0 h => ?_⟩
    refine Finset.sum_le_sum fun i hi' => ?_
    have hi' := Finset.mem_range.mp hi'
    have : x i = mn := le_antisymm (heq ▸ hmx i hi') (hmn i hi')
    rw [this]
    have e : (0 : ℝ) * ((0 : Nat) : ℝ) - -mn - mn = 0 := by ring
    rw [e]
    refine mul_le_mul_of_nonneg_left ?_ (hw i hi')
    rw [zero_pow two_ne_zero]; exact sq_nonneg _
  rw [if_neg heq]
  have hd : 0 < mx - mn := by
    rcases lt_or_eq_of_le hle with h | h
    · linarith
    · exact absurd h.symm heq
  have hnm : (0 : ℝ) < nmax := by exact_mod_cast hmax
  obtain ⟨s0, hs0⟩ : ∃ s0 : Qkx, s0 = ⟨qkxErr n x w (1 / (nmax / (mx - mn))) mn (qkxCodes rnd nmax x mn (nmax / (mx - mn))),
    1 / (nmax / (mx - mn)), mn, qkxCodes rnd nmax x mn (nmax / (mx - mn))⟩ := ⟨_, rfl⟩
  have hinit : qkxErr n x w (1 / (nmax / (mx - mn))) mn (qkxCodes rnd nmax x mn (nmax / (mx - mn))) ≤
      ∑ i ∈ Finset.range n, w i * ((mx - mn) / nmax / 2) ^ 2 := by
    unfold qkxErr
    refine Finset.sum_le_sum fun i hi => ?_
    have hi := Finset.mem_range.mp hi
    refine mul_le_mul_of_nonneg_left ?_ (hw i hi)
    have hr1 := hr (nmax / (mx - mn) * (x i - mn))
    have hy0 : 0 ≤ nmax / (mx - mn) * (x i - mn) := mul_nonneg (by positivity) (by linarith [hmn i hi])
    have hy1 : nmax / (mx - mn) * (x i - mn) ≤ nmax := by
      rw [div_mul_eq_mul_div, div_le_iff₀ hd]
      exact mul_le_mul_of_nonneg_left (by linarith [hmx i hi]) hnm.le
    obtain ⟨z, hz⟩ : ∃ z, z = rnd (nmax / (mx - mn) * (x i - mn)) := ⟨_, rfl⟩
    have hc : ((qkxCodes rnd nmax x mn (nmax / (mx - mn)) i : Nat) : ℝ) = z := by
      rw [← hz] at hr1
      rw [abs_le] at hr1
      have h1 : (-1 : ℝ) < z := by linarith
      have h2 : (z : ℝ) < nmax + 1 := by linarith
      have h1' : (-1 : Int) < z := by exact_mod_cast h1
      have h2' : z < (nmax : Int) + 1 := by exact_mod_cast h2
      have : ((qkxCodes rnd nmax x mn (nmax / (mx - mn)) i : Nat) : Int) = z := by
        unfold qkxCodes clampTo; rw [← hz]; omega
      exact_mod_cast this
    rw [hc]
    have e : 1 / (nmax / (mx - mn)) * (z : ℝ) + mn - x i =
        ((mx - mn) / nmax) * (z - nmax / (mx - mn) * (x i - mn)) := by field_simp; ring
    rw [e, ← sq_abs, abs_mul, abs_sub_comm, abs_of_pos (by positivity : 0 < (mx - mn) / nmax)]
    have : (mx - mn) / nmax * |nmax / (mx - mn) * (x i - mn) - z| ≤ (mx - mn) / nmax / 2 := by
      rw [← hz] at hr1
      calc _ ≤ (mx - mn) / nmax * (1 / 2) := mul_le_mul_of_nonneg_left hr1 (by positivity)
        _ = _ := by ring
    exact pow_le_pow_left₀ (by positivity) this 2
  have hok0 : QkxOk n nmax x w (∑ i ∈ Finset.range n, w i * ((mx - mn) / nmax / 2) ^ 2) s0 := by
    rw [hs0]
    exact ⟨rfl, hinit, by positivity, hmn0, fun i => qkxCodes_le ..⟩
  have fin : ∀ s : Qkx, QkxOk n nmax x w (∑ i ∈ Finset.range n, w i * ((mx - mn) / nmax / 2) ^ 2) s →
      (∀ i, s.L i ≤ nmax) ∧ 0 ≤ s.scale ∧ 0 ≤ -s.min ∧ ∀ lo hi, lo ≤ 0 → (∀ i < n, lo ≤ x i ∧ x i ≤ hi) →
        ∑ i ∈ Finset.range n, w i * (s.scale * s.L i - -s.min - x i) ^ 2 ≤
          ∑ i ∈ Finset.range n, w i * ((hi - lo) / nmax / 2) ^ 2 := by
    intro s hs
    refine ⟨hs.codes, hs.scale, by linarith [hs.min], fun lo hi h0 h => ?_⟩
    have h1 : ∑ i ∈ Finset.range n, w i * (s.scale * s.L i - -s.min - x i) ^ 2 = s.mad := by
      rw [hs.mad]; unfold qkxErr
      exact Finset.sum_congr rfl fun i _ => by rw [sub_neg_eq_add]
    rw [h1]
    refine hs.le.trans (Finset.sum_le_sum fun i hi' => mul_le_mul_of_nonneg_left ?_ (hw i (Finset.mem_range.mp hi')))
    refine pow_le_pow_left₀ (by positivity) ?_ 2
    have := hspan lo hi h0 h
    gcongr
  rw [← hs0]
  split
  · have h := fin s0 hok0
    rw [hs0] at h
    exact h
  · refine fin _ ?_
    have key : ∀ m, QkxOk n nmax x w (∑ i ∈ Finset.range n, w i * ((mx - mn) / nmax / 2) ^ 2)
        ((List.range m).foldl (fun (s : Qkx) (k : Nat) =>
          qkxStep n x w (qkxCodes rnd nmax x mn ((rmin + rdelta * k + nmax) / (mx - mn))) s) s0) := by
      intro m
      induction m with
      | zero => exact hok0
      | succ m ih =>
        rw [List.range_succ, List.foldl_append]
        refine qkxStep_ok ih (fun i => qkxCodes_le ..) hw ?_
        intro i _ j _ h
        refine qkxCodes_mono hr nmax x mn ?_ h
        refine div_nonneg ?_ hd.le
        have : 0 ≤ rdelta * (m : ℝ) := mul_nonneg hrd (by positivity)
        linarith
    exact key _

end Verif.Quant
