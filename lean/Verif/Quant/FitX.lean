import Verif.Quant.PropsQuant
import Verif.Quant.Fit

/-! The scale search of q6_K (`make_qx_quants`). -/

namespace Verif.Quant

/-- Weighted squared error along a line. -/
theorem ls_err {n : Nat} {x w : Nat → ℝ} {l : Nat → Int} (s : ℝ) :
    ∑ i ∈ Finset.range n, w i * (s * l i - x i) ^ 2 =
      s ^ 2 * (∑ i ∈ Finset.range n, w i * (l i : ℝ) * (l i : ℝ)) - 2 * s * (∑ i ∈ Finset.range n, w i * x i * (l i : ℝ)) +
        ∑ i ∈ Finset.range n, w i * x i ^ 2 := by
  rw [Finset.mul_sum, Finset.mul_sum, ← Finset.sum_sub_distrib, ← Finset.sum_add_distrib]
  exact Finset.sum_congr rfl fun i _ => by ring

theorem qx_fit {rnd : ℝ → Int} (hr : Rounds rnd) {n nmax : Nat} (hn : 0 < n) (hm : 1 < nmax) (x : Nat → ℝ) :
    ∃ c : Nat → Int, (∀ i < n, -(nmax : Int) ≤ c i ∧ c i ≤ nmax - 1) ∧
      (∀ i < n, 0 ≤ (qx rnd n nmax x).2 i ∧ (qx rnd n nmax x).2 i ≤ 2 * nmax - 1) ∧
      ∃ a, IsAmax n x a ∧ ((a < 1e-30 ∧ (qx rnd n nmax x).1 = 0) ∨
        ∑ i ∈ Finset.range n, x i ^ 2 * ((qx rnd n nmax x).1 * c i - x i) ^ 2 ≤
          ∑ i ∈ Finset.range n, x i ^ 2 * (a / nmax) ^ 2) := by
  obtain ⟨ha, hmx⟩ := maxLoop_spec hn x
  obtain ⟨a, had⟩ : ∃ a, a = (maxLoop n x).1 := ⟨_, rfl⟩
  obtain ⟨m, hmd⟩ : ∃ m, m = (maxLoop n x).2 := ⟨_, rfl⟩
  rw [← hmd, ← had] at hmx
  rw [← had] at ha
  obtain ⟨cl, hcl⟩ : ∃ cl : ℝ → Nat → Int, cl = fun isc i => max (-(nmax : Int)) (min ((nmax : Int) - 1) (rnd (isc * x i))) := ⟨_, rfl⟩
  have hclr : ∀ isc i, -(nmax : Int) ≤ cl isc i ∧ cl isc i ≤ nmax - 1 := by intro isc i; rw [hcl]; simp only; omega
  obtain ⟨slx, hslx⟩ : ∃ f : ℝ → ℝ, f = fun isc => ∑ i ∈ Finset.range n, x i * x i * x i * (cl isc i : ℝ) := ⟨_, rfl⟩
  obtain ⟨sl2, hsl2⟩ : ∃ f : ℝ → ℝ, f = fun isc => ∑ i ∈ Finset.range n, x i * x i * (cl isc i : ℝ) * (cl isc i : ℝ) := ⟨_, rfl⟩
  obtain ⟨F, hF⟩ : ∃ F : (ℝ × ℝ × (Nat → Int)) → Nat → ℝ × ℝ × (Nat → Int), F = fun r (k : Nat) =>
      if (k : Int) - 9 = 0 then r
      else if sl2 (-((nmax : ℝ) + 0.1 * (((k : Int) - 9 : Int) : ℝ)) / m) > 0 ∧
          slx (-((nmax : ℝ) + 0.1 * (((k : Int) - 9 : Int) : ℝ)) / m) * slx (-((nmax : ℝ) + 0.1 * (((k : Int) - 9 : Int) : ℝ)) / m) >
            r.2.1 * sl2 (-((nmax : ℝ) + 0.1 * (((k : Int) - 9 : Int) : ℝ)) / m) then
          (slx (-((nmax : ℝ) + 0.1 * (((k : Int) - 9 : Int) : ℝ)) / m) / sl2 (-((nmax : ℝ) + 0.1 * (((k : Int) - 9 : Int) : ℝ)) / m),
            slx (-((nmax : ℝ) + 0.1 * (((k : Int) - 9 : Int) : ℝ)) / m) / sl2 (-((nmax : ℝ) + 0.1 * (((k : Int) - 9 : Int) : ℝ)) / m) *
              slx (-((nmax : ℝ) + 0.1 * (((k : Int) - 9 : Int) : ℝ)) / m),
            fun i => cl (-((nmax : ℝ) + 0.1 * (((k : Int) - 9 : Int) : ℝ)) / m) i + nmax)
        else r := ⟨_, rfl⟩
  obtain ⟨q, hq⟩ : ∃ q, q = qx rnd n nmax x := ⟨_, rfl⟩
  have hqx : q = if a < 1e-30 then (0, fun _ => 0) else
      (((List.range 19).foldl F (slx (-(nmax : ℝ) / m) / sl2 (-(nmax : ℝ) / m),
        slx (-(nmax : ℝ) / m) / sl2 (-(nmax : ℝ) / m) * slx (-(nmax : ℝ) / m), fun i => cl (-(nmax : ℝ) / m) i + nmax)).1,
       ((List.range 19).foldl F (slx (-(nmax : ℝ) / m) / sl2 (-(nmax : ℝ) / m),
        slx (-(nmax : ℝ) / m) / sl2 (-(nmax : ℝ) / m) * slx (-(nmax : ℝ) / m), fun i => cl (-(nmax : ℝ) / m) i + nmax)).2.2) := by
    rw [hq, hF, hslx, hsl2, hcl, hmd, had]; rfl
  rw [← hq]
  by_cases h0 : a < 1e-30
  · rw [if_pos h0] at hqx
    rw [hqx]
    exact ⟨fun _ => 0, fun i _ => by simp only; omega, fun i _ => by simp only; omega, a, ha, Or.inl ⟨h0, rfl⟩⟩
  rw [if_neg h0] at hqx
  have hap : 0 < a := lt_of_lt_of_le (by norm_num) (not_lt.mp h0)
  have hm0 : m ≠ 0 := by intro h; rw [h, abs_zero] at hmx; linarith
  obtain ⟨W, hW⟩ : ∃ W, W = ∑ i ∈ Finset.range n, x i ^ 2 * x i ^ 2 := ⟨_, rfl⟩
  have herr : ∀ isc s : ℝ, ∑ i ∈ Finset.range n, x i ^ 2 * (s * cl isc i - x i) ^ 2 = s ^ 2 * sl2 isc - 2 * s * slx isc + W := by
    intro isc s
    rw [ls_err (w := fun i => x i ^ 2) (l := cl isc), hsl2, hslx, hW]
    congr 2
    · congr 1; exact Finset.sum_congr rfl fun i _ => by ring
    · congr 1; exact Finset.sum_congr rfl fun i _ => by ring
  obtain ⟨E, hE⟩ : ∃ E, E = ∑ i ∈ Finset.range n, x i ^ 2 * (a / nmax) ^ 2 := ⟨_, rfl⟩
  have hnm : (0 : ℝ) < nmax := by exact_mod_cast (by omega : 0 < nmax)
  -- the first candidate with its own step
  have hyb : ∀ i < n, |-(nmax : ℝ) / m * x i| ≤ nmax := by
    intro i hi
    have : |-(nmax : ℝ) / m * x i| = |x i| * nmax / a := by rw [abs_mul, abs_div, abs_neg, hmx, abs_of_pos hnm]; ring
    rw [this, div_le_iff₀ hap]
    have := ha.1 i hi
    nlinarith
  have hclose : ∀ i < n, |(cl (-(nmax : ℝ) / m) i : ℝ) - -(nmax : ℝ) / m * x i| ≤ 1 := by
    intro i hi
    have c3 := hr (-(nmax : ℝ) / m * x i)
    have hb := hyb i hi
    obtain ⟨r1, r2⟩ := hr.range hb
    have hc : cl (-(nmax : ℝ) / m) i = max (-(nmax : Int)) (min ((nmax : Int) - 1) (rnd (-(nmax : ℝ) / m * x i))) := by rw [hcl]
    rw [hc]
    obtain ⟨z, hz⟩ : ∃ z : Int, z = rnd (-(nmax : ℝ) / m * x i) := ⟨_, rfl⟩
    rw [← hz] at c3 r1 r2 ⊢
    rw [abs_le] at c3 hb ⊢
    rcases le_or_gt z (nmax - 1) with h7 | h7
    · rw [show max (-(nmax : Int)) (min ((nmax : Int) - 1) z) = z by omega]; constructor <;> linarith
    · rw [show max (-(nmax : Int)) (min ((nmax : Int) - 1) z) = nmax - 1 by omega]
      have : ((nmax : Int) : ℝ) ≤ z := by exact_mod_cast (by omega : (nmax : Int) ≤ z)
      push_cast at this ⊢; constructor <;> linarith
  have hfirst : ∑ i ∈ Finset.range n, x i ^ 2 * (m / (-(nmax : ℝ)) * cl (-(nmax : ℝ) / m) i - x i) ^ 2 ≤ E := by
    rw [hE]
    refine Finset.sum_le_sum fun i hi => mul_le_mul_of_nonneg_left ?_ (sq_nonneg _)
    have hi := Finset.mem_range.mp hi
    have e : m / (-(nmax : ℝ)) * cl (-(nmax : ℝ) / m) i - x i = m / (-(nmax : ℝ)) * (cl (-(nmax : ℝ) / m) i - -(nmax : ℝ) / m * x i) := by
      field_simp; ring
    rw [e, ← sq_abs, abs_mul]
    have e3 : |m / (-(nmax : ℝ))| = a / nmax := by rw [abs_div, abs_neg, hmx, abs_of_pos hnm]
    rw [e3]
    refine pow_le_pow_left₀ (by positivity) ?_ 2
    calc _ ≤ a / nmax * 1 := mul_le_mul_of_nonneg_left (hclose i hi) (by positivity)
      _ = _ := by ring
  have hopt : ∀ isc, 0 < sl2 isc → (slx isc / sl2 isc) ^ 2 * sl2 isc - 2 * (slx isc / sl2 isc) * slx isc + W =
      W - slx isc / sl2 isc * slx isc := by
    intro isc h; field_simp; ring
  have hle : ∀ isc s, 0 < sl2 isc → W - slx isc / sl2 isc * slx isc ≤ s ^ 2 * sl2 isc - 2 * s * slx isc + W := by
    intro isc s h
    have h1 : s ^ 2 * sl2 isc - 2 * s * slx isc + slx isc / sl2 isc * slx isc = sl2 isc * (s - slx isc / sl2 isc) ^ 2 := by field_simp; ring
    have h2 := mul_nonneg h.le (sq_nonneg (s - slx isc / sl2 isc))
    linarith
  have hpos0 : 0 < sl2 (-(nmax : ℝ) / m) := by
    obtain ⟨j, hj, hja⟩ := ha.2
    have hcj : (cl (-(nmax : ℝ) / m) j : ℝ) ≠ 0 := by
      intro h
      have hbj := hclose j hj
      have habs : |-(nmax : ℝ) / m * x j| = nmax := by
        rw [abs_mul, abs_div, abs_neg, hmx, abs_of_pos hnm, hja]; field_simp
      rw [h, zero_sub, abs_neg, habs] at hbj
      have : (1 : ℝ) < nmax := by exact_mod_cast hm
      linarith
    rw [hsl2]
    refine Finset.sum_pos' (fun i _ => by have := mul_self_nonneg (x i * (cl (-(nmax : ℝ) / m) i : ℝ)); nlinarith) ⟨j, Finset.mem_range.mpr hj, ?_⟩
    have hxj : x j ≠ 0 := by intro h; rw [h, abs_zero] at hja; linarith
    have : x j * x j * (cl (-(nmax : ℝ) / m) j : ℝ) * (cl (-(nmax : ℝ) / m) j : ℝ) = (x j * (cl (-(nmax : ℝ) / m) j : ℝ)) ^ 2 := by ring
    rw [this]
    exact sq_pos_of_ne_zero (mul_ne_zero hxj hcj)
  -- the search never makes the fit worse
  have key : ∀ k : Nat, ∃ isc, 0 < sl2 isc ∧
      ((List.range k).foldl F (slx (-(nmax : ℝ) / m) / sl2 (-(nmax : ℝ) / m),
        slx (-(nmax : ℝ) / m) / sl2 (-(nmax : ℝ) / m) * slx (-(nmax : ℝ) / m), fun i => cl (-(nmax : ℝ) / m) i + nmax)) =
        (slx isc / sl2 isc, slx isc / sl2 isc * slx isc, fun i => cl isc i + nmax) ∧
      W - slx isc / sl2 isc * slx isc ≤ E := by
    intro k
    induction k with
    | zero =>
      refine ⟨-(nmax : ℝ) / m, hpos0, rfl, (hle _ (m / (-(nmax : ℝ))) hpos0).trans ?_⟩
      rw [← herr]; exact hfirst
    | succ k ih =>
      obtain ⟨isc, h1, h2, h3⟩ := ih
      rw [List.range_succ, List.foldl_append, h2, List.foldl_cons, List.foldl_nil, hF]
      simp only
      obtain ⟨jsc, hj⟩ : ∃ jsc, jsc = -((nmax : ℝ) + 0.1 * (((k : Int) - 9 : Int) : ℝ)) / m := ⟨_, rfl⟩
      rw [← hj]
      by_cases c1 : (k : Int) - 9 = 0
      · rw [if_pos c1]; exact ⟨isc, h1, rfl, h3⟩
      · rw [if_neg c1]
        by_cases c2 : sl2 jsc > 0 ∧ slx jsc * slx jsc > slx isc / sl2 isc * slx isc * sl2 jsc
        · rw [if_pos c2]
          refine ⟨jsc, c2.1, rfl, ?_⟩
          have : slx isc / sl2 isc * slx isc < slx jsc / sl2 jsc * slx jsc := by
            rw [div_mul_eq_mul_div (slx jsc), lt_div_iff₀ c2.1]; exact c2.2
          linarith
        · rw [if_neg c2]; exact ⟨isc, h1, rfl, h3⟩
  obtain ⟨isc, h1, h2, h3⟩ := key 19
  rw [h2] at hqx
  rw [hqx]
  refine ⟨cl isc, fun i _ => hclr isc i, fun i _ => by have := hclr isc i; simp only; omega, a, ha, Or.inr ?_⟩
  simp only
  rw [herr, hopt _ h1, ← hE]
  exact h3

end Verif.Quant
