import Verif.Kern.Softmax

/-!
C121: `softmax`.
-/

namespace Verif.Kern

open Verif.Tensor (numel InB lin lin_lt)

/-! ### Accuracy of the vectorised exponential -/

theorem exp_near_one {t : ℝ} (h : |t| ≤ 1) : |Real.exp t - 1| ≤ |t| + |t| ^ 2 := by
  have h1 := Real.abs_exp_sub_one_sub_id_le h
  have : Real.exp t - 1 = (Real.exp t - 1 - t) + t := by ring
  rw [this]
  refine (abs_add_le _ _).trans ?_
  rw [sq_abs]
  linarith

/-- Relative error from a bound on the drift. -/
theorem fastExp_acc {k : ExpConst} (hk : k.Ok) {d ε : ℝ} (hd : |k.drift| ≤ d)
    (hε : 127 * d + (127 * d) ^ 2 + 1.2e-7 * (1 + (127 * d + (127 * d) ^ 2)) ≤ ε) (hd1 : 127 * d ≤ 1)
    {x : ℝ} (h2 : x ≤ expHi) : |fastExp k x - Real.exp x| ≤ ε * Real.exp x + 1.2e-38 := by
  have hd0 : 0 ≤ d := (abs_nonneg _).trans hd
  have hε0 : 0 ≤ ε := le_trans (by positivity) hε
  have hzero : ∀ {y : ℝ}, -expHi ≤ y → y ≤ expHi → expN k y < -126 → fastExp k y = 0 := by
    intro y a b c
    rw [fastExp_eq a b]
    unfold pow2n
    rw [if_neg (by omega), mul_zero]
  have hsmall : fastExp k x = 0 → x ≤ -87.4 → |fastExp k x - Real.exp x| ≤ ε * Real.exp x + 1.2e-38 := by
    intro e hx
    rw [e, zero_sub, abs_neg, abs_of_pos (Real.exp_pos x)]
    have := exp_tiny hx
    have : 0 ≤ ε * Real.exp x := mul_nonneg hε0 (Real.exp_pos x).le
    linarith
  by_cases h1 : -expHi ≤ x
  · by_cases hn : -126 ≤ expN k x
    · have hr := expN_range hk h1 h2
      have hq : |(expN k x : ℝ) * k.drift| ≤ 127 * d := by
        rw [abs_mul]
        refine mul_le_mul ?_ hd (abs_nonneg _) (by norm_num)
        rw [abs_le]
        exact ⟨by exact_mod_cast hr.1, by exact_mod_cast hr.2⟩
      have hη : |Real.exp (expN k x * k.drift) - 1| ≤ 127 * d + (127 * d) ^ 2 := by
        refine (exp_near_one (hq.trans hd1)).trans ?_
        have : |(expN k x : ℝ) * k.drift| ^ 2 ≤ (127 * d) ^ 2 := pow_le_pow_left₀ (abs_nonneg _) hq 2
        linarith
      have hm := fastExp_drift hk h1 h2 hn
      generalize Real.exp (expN k x * k.drift) = q at *
      generalize 127 * d + (127 * d) ^ 2 = η at *
      have hpos := Real.exp_pos x
      generalize Real.exp x = e at *
      have hq1 : q ≤ 1 + η := by linarith [(abs_le.mp hη).2]
      have b1 : |e * q - e| ≤ e * η := by
        rw [show e * q - e = e * (q - 1) by ring, abs_mul, abs_of_pos hpos]
        exact mul_le_mul_of_nonneg_left hη hpos.le
      have b2 : e * q ≤ e * (1 + η) := mul_le_mul_of_nonneg_left hq1 hpos.le
      have b3 : e * (η + 1.2e-7 * (1 + η)) ≤ e * ε := mul_le_mul_of_nonneg_left hε hpos.le
      have b4 : |fastExp k x - e| ≤ |fastExp k x - e * q| + |e * q - e| := by
        rw [show fastExp k x - e = (fastExp k x - e * q) + (e * q - e) by ring]; exact abs_add_le _ _
      norm_num at *
      nlinarith
    · refine hsmall (hzero h1 h2 (by omega)) ?_
      by_contra hx
      exact hn (expN_normal hk (by norm_num at *; linarith))
  · have hle : -expHi ≤ expHi := by norm_num [expHi]
    have e : fastExp k x = fastExp k (-expHi) := by
      have c1 := clamp_id (le_refl (-expHi)) hle
      have c2 : max (min x expHi) (-expHi) = -expHi := by
        rw [min_eq_left h2]; exact max_eq_right (by linarith)
      unfold fastExp
      simp only [c1, c2]
    refine hsmall ?_ (by unfold expHi at h1; norm_num at *; linarith)
    rw [e]
    refine hzero (le_refl _) hle ?_
    unfold expN
    rw [Int.floor_lt]
    have := hk.lo
    unfold expHi
    push_cast
    norm_num at *
    linarith

/-- On arm the vectorised exponential has relative error `2e-7` (about one unit in the last place of a `float`), up to the
smallest normal `float`. -/
theorem C121_exp_arm {x : ℝ} (h : x ≤ 88.3762626647949) :
    |fastExp armExp x - Real.exp x| ≤ 2e-7 * Real.exp x + 1.2e-38 :=
  fastExp_acc armExp_ok (d := 5e-10) armExp_drift (by norm_num) (by norm_num) h

/-- On x86 the error is bounded by `2.8 %` only. -/
theorem C121_exp_x86_partial {x : ℝ} (h : x ≤ 88.3762626647949) :
    |fastExp x86Exp x - Real.exp x| ≤ 0.028 * Real.exp x + 1.2e-38 :=
  fastExp_acc x86Exp_ok (d := 2.122e-4) x86Exp_ok.drift (by norm_num) (by norm_num) h

/-- And it is never better than two parts in ten thousand, a thousand times the rounding error of a `float`: the low part
of `ln 2` for the other split is subtracted from an already complete `ln 2`. -/
theorem C121_exp_x86_violated {x : ℝ} (h1 : -87.68 ≤ x) (h2 : x ≤ -0.35) :
    fastExp x86Exp x ≤ (1 - 2e-4) * Real.exp x := by
  have hk := x86Exp_ok
  have a1 : -expHi ≤ x := by unfold expHi; norm_num at *; linarith
  have a2 : x ≤ expHi := by unfold expHi; norm_num at *; linarith
  have hm := fastExp_drift hk a1 a2 (expN_normal hk h1)
  have hn : expN x86Exp x ≤ -1 := by
    have : expN x86Exp x < 0 := by
      unfold expN
      rw [Int.floor_lt]
      have := hk.lo
      have : x * x86Exp.log2e ≤ -0.35 * x86Exp.log2e := mul_le_mul_of_nonneg_right h2 (by linarith)
      push_cast
      norm_num at *
      linarith
    omega
  have ht : (expN x86Exp x : ℝ) * x86Exp.drift ≤ -2.1219e-4 := by
    have hd := x86Exp_drift
    have hn' : (expN x86Exp x : ℝ) ≤ -1 := by exact_mod_cast hn
    nlinarith
  have hq : Real.exp (expN x86Exp x * x86Exp.drift) ≤ 1 - 2.12e-4 := by
    refine (Real.exp_le_exp.mpr ht).trans ?_
    have := (abs_le.mp (Real.abs_exp_sub_one_sub_id_le (x := -2.1219e-4) (by norm_num))).2
    norm_num at *
    linarith
  have hpos := Real.exp_pos x
  have h3 := (abs_le.mp hm).2
  generalize Real.exp (expN x86Exp x * x86Exp.drift) = q at *
  generalize Real.exp x = e at *
  have : e * q ≤ e * (1 - 2.12e-4) := mul_le_mul_of_nonneg_left hq hpos.le
  norm_num at *
  nlinarith

/-- At the largest element itself the result is exact. -/
theorem fastExp_zero (k : ExpConst) : fastExp k 0 = 1 := by
  have e : max (min (0 : ℝ) expHi) (-expHi) = 0 := clamp_id (by norm_num [expHi]) (by norm_num [expHi])
  unfold fastExp
  simp only [e]
  have hn : expN k 0 = 0 := by unfold expN; rw [Int.floor_eq_zero_iff]; constructor <;> norm_num
  rw [hn]
  unfold pow2n expPoly
  norm_num

/-! ### Rows -/

/-- Highway always has at least one lane. -/
def Simd.Ok : Simd → Prop
  | .arm => True
  | .x86 lanes => 0 < lanes

/-- Relative error of the exponentials. -/
noncomputable def Simd.eps : Simd → ℝ
  | .arm => 2e-7
  | .x86 _ => 0.028

theorem Simd.exp_ok : ∀ s : Simd, s.exp.Ok
  | .arm => armExp_ok
  | .x86 _ => x86Exp_ok

theorem Simd.exp_acc (s : Simd) {x : ℝ} (h : x ≤ 0) : |fastExp s.exp x - Real.exp x| ≤ s.eps * Real.exp x + 1.2e-38 := by
  have hx : x ≤ 88.3762626647949 := by norm_num; linarith
  cases s with
  | arm => exact C121_exp_arm hx
  | x86 l => exact C121_exp_x86_partial hx

/-- What one call of the kernel leaves in a row. -/
theorem softmaxRow_run (s : Simd) (hs : s.Ok) {len : Nat} (hlen : 0 < len) {X : Nat → ℝ} (hX : ∀ i < len, floatLowest ≤ X i)
    (c : Nat) : ∃ (M : ℝ) (E : Nat → ℝ), IsMax len X M ∧
      (∀ i < len, E i = if 16 < len ∧ i < s.vecEnd len then fastExp s.exp (X i - M) else Real.exp (X i - M)) ∧
      (∀ j < len, ∀ m, run (softmaxRow s len X c) m (c + j) = E j * (1 / ∑ i ∈ Finset.range len, E i)) ∧
      ∀ u ∈ softmaxRow s len X c, c ≤ u.addr ∧ u.addr < c + len := by
  have passes : ∀ (E : Nat → ℝ) (sum : ℝ), sum = ∑ i ∈ Finset.range len, E i →
      (∀ j < len, ∀ m, run (((List.range len).map fun i => (⟨c + i, fun _ => E i⟩ : Upd ℝ)) ++
        (List.range len).map fun i => (⟨c + i, fun y => y * (1 / sum)⟩ : Upd ℝ)) m (c + j) =
          E j * (1 / ∑ i ∈ Finset.range len, E i)) ∧
      ∀ u ∈ ((List.range len).map fun i => (⟨c + i, fun _ => E i⟩ : Upd ℝ)) ++
        (List.range len).map fun i => (⟨c + i, fun y => y * (1 / sum)⟩ : Upd ℝ), c ≤ u.addr ∧ u.addr < c + len := by
    intro E sum hsum
    subst hsum
    constructor
    · intro j hj m
      rw [run_append, run_pass (fn := fun _ y => y * (1 / ∑ i ∈ Finset.range len, E i)) hj,
        run_pass (fn := fun i _ => E i) hj]
    · intro u hu
      rcases List.mem_append.mp hu with h | h
      · exact mem_pass (fn := fun i _ => E i) h
      · exact mem_pass (fn := fun _ y => y * (1 / ∑ i ∈ Finset.range len, E i)) h
  by_cases h16 : len ≤ 16
  · refine ⟨maxOver floatLowest len X, fun i => Real.exp (X i - maxOver floatLowest len X), scalarMax_isMax hlen hX, ?_, ?_⟩
    · intro i _; rw [if_neg (by omega)]
    · unfold softmaxRow
      simp only [if_pos h16]
      exact passes _ _ (by rw [accum_eq, zero_add])
  · cases s with
    | arm =>
      refine ⟨armMax len X, fun i => if i < Simd.vecEnd .arm len then fastExp (Simd.exp .arm) (X i - armMax len X)
        else Real.exp (X i - armMax len X), armMax_isMax (by omega) X, ?_, ?_⟩
      · intro i _
        beta_reduce
        by_cases hv : i < Simd.vecEnd .arm len
        · rw [if_pos hv, if_pos ⟨by omega, hv⟩]
        · rw [if_neg hv, if_neg (by tauto)]
      · unfold softmaxRow
        simp only [if_neg h16]
        exact passes _ _ (armSum_eq _ _)
    | x86 l =>
      refine ⟨x86Max l len X, fun i => if i < Simd.vecEnd (.x86 l) len then fastExp (Simd.exp (.x86 l)) (X i - x86Max l len X)
        else Real.exp (X i - x86Max l len X), x86Max_isMax hs hlen hX, ?_, ?_⟩
      · intro i _
        beta_reduce
        by_cases hv : i < Simd.vecEnd (.x86 l) len
        · rw [if_pos hv, if_pos ⟨by omega, hv⟩]
        · rw [if_neg hv, if_neg (by tauto)]
      · unfold softmaxRow
        simp only [if_neg h16]
        exact passes _ _ (laneSum_eq _ _ _)

/-! ### Specification -/

/-- `softmax` of `f 0, …, f (D - 1)` at `j`. -/
noncomputable def softmaxAt (D : Nat) (f : Nat → ℝ) (j : Nat) : ℝ := Real.exp (f j) / ∑ l ∈ Finset.range D, Real.exp (f l)

/-- Distance between a row of results and the softmax. -/
structure SoftmaxRow (D : Nat) (f y : Nat → ℝ) (ε : ℝ) : Prop where
  nonneg : ∀ j < D, 0 ≤ y j
  sum_one : ∑ j ∈ Finset.range D, y j = 1
  close : ∀ j < D, |y j - softmaxAt D f j| ≤ ε * softmaxAt D f j + 3e-38
  exact_short : D ≤ 16 → ∀ j < D, y j = softmaxAt D f j

theorem softmaxAt_shift (D : Nat) (f : Nat → ℝ) (M : ℝ) (j : Nat) :
    softmaxAt D f j = Real.exp (f j - M) / ∑ l ∈ Finset.range D, Real.exp (f l - M) := by
  unfold softmaxAt
  have : ∀ l, Real.exp (f l - M) = Real.exp (f l) * Real.exp (-M) := fun l => by rw [← Real.exp_add]; rfl
  simp only [this]
  rw [← Finset.sum_mul, mul_div_mul_right _ _ (Real.exp_pos _).ne']

/-- From accurate exponentials to an accurate softmax. -/
theorem quotient_close {D : Nat} {e E : Nat → ℝ} {ε : ℝ} (hD : D ≤ 2 ^ 31) (hε0 : 0 ≤ ε) (hε : ε ≤ 0.028) (hε1 : 2e-7 ≤ ε)
    (he : ∀ i < D, 0 < e i) (hE : ∀ i < D, |E i - e i| ≤ ε * e i + 1.2e-38) (hT : 1 ≤ ∑ i ∈ Finset.range D, e i)
    {j : Nat} (hj : j < D) :
    0 < ∑ i ∈ Finset.range D, E i ∧
    |E j / (∑ i ∈ Finset.range D, E i) - e j / ∑ i ∈ Finset.range D, e i| ≤
      2.2 * ε * (e j / ∑ i ∈ Finset.range D, e i) + 3e-38 := by
  have hS : |∑ i ∈ Finset.range D, E i - ∑ i ∈ Finset.range D, e i| ≤ ε * (∑ i ∈ Finset.range D, e i) + 2 ^ 31 * 1.2e-38 := by
    rw [← Finset.sum_sub_distrib]
    refine (Finset.abs_sum_le_sum_abs _ _).trans ?_
    refine (Finset.sum_le_sum fun i hi => hE i (Finset.mem_range.mp hi)).trans ?_
    rw [Finset.sum_add_distrib, ← Finset.mul_sum, Finset.sum_const, Finset.card_range, nsmul_eq_mul]
    have : (D : ℝ) ≤ 2 ^ 31 := by exact_mod_cast hD
    have : (D : ℝ) * 1.2e-38 ≤ 2 ^ 31 * 1.2e-38 := mul_le_mul_of_nonneg_right this (by norm_num)
    linarith
  have hEj := hE j hj
  have hej := he j hj
  generalize (∑ i ∈ Finset.range D, E i) = S at *
  generalize (∑ i ∈ Finset.range D, e i) = T at *
  generalize E j = a at *
  generalize e j = b at *
  have hT0 : 0 < T := by linarith
  obtain ⟨s1, s2⟩ := abs_le.mp hS
  have hεT : ε * T ≤ 0.028 * T := mul_le_mul_of_nonneg_right hε hT0.le
  have hSlow : 0.971 * T ≤ S := by norm_num at *; linarith
  have hS0 : 0 < S := by norm_num at *; linarith
  refine ⟨hS0, ?_⟩
  have hid : a / S - b / T = ((a - b) * T + b * (T - S)) / (S * T) := by
    field_simp
    ring
  rw [hid, abs_div, abs_of_pos (mul_pos hS0 hT0), div_le_iff₀ (mul_pos hS0 hT0)]
  have h1 : |(a - b) * T + b * (T - S)| ≤ (ε * b + 1.2e-38) * T + b * (ε * T + 2 ^ 31 * 1.2e-38) := by
    refine (abs_add_le _ _).trans ?_
    rw [abs_mul, abs_mul, abs_of_pos hT0, abs_of_pos hej, abs_sub_comm T S]
    exact add_le_add (mul_le_mul_of_nonneg_right hEj hT0.le) (mul_le_mul_of_nonneg_left hS hej.le)
  refine h1.trans ?_
  have h2 : (2.2 * ε * (b / T) + 3e-38) * (S * T) = 2.2 * ε * b * S + 3e-38 * (S * T) := by
    field_simp
  rw [h2]
  have h3 : 2.2 * ε * b * (0.971 * T) ≤ 2.2 * ε * b * S := mul_le_mul_of_nonneg_left hSlow (by positivity)
  have h4 : 0.971 * T ≤ S * T := by nlinarith
  have h5 : b * (2 ^ 31 * 1.2e-38) ≤ b * (0.1 * ε * T) := by
    refine mul_le_mul_of_nonneg_left ?_ hej.le
    have : 2e-7 * 1 ≤ ε * T := mul_le_mul hε1 hT (by norm_num) hε0
    norm_num at *
    linarith
  have h6 : 0 ≤ ε * b * T := by positivity
  norm_num at *
  nlinarith

/-- C121 for one row. -/
theorem softmaxRow_ok (s : Simd) (hs : s.Ok) {D : Nat} (hD : 0 < D) (hD' : D ≤ 2 ^ 31) {X : Nat → ℝ}
    (hX : ∀ i < D, floatLowest ≤ X i) (c : Nat) : ∃ y : Nat → ℝ, SoftmaxRow D X y (2.2 * s.eps) ∧
      (∀ j < D, ∀ m, run (softmaxRow s D X c) m (c + j) = y j) ∧
      ∀ u ∈ softmaxRow s D X c, c ≤ u.addr ∧ u.addr < c + D := by
  obtain ⟨M, E, hM, hE, hrun, hin⟩ := softmaxRow_run s hs hD hX c
  refine ⟨fun j => E j * (1 / ∑ i ∈ Finset.range D, E i), ?_, hrun, hin⟩
  have hε : s.eps ≤ 0.028 ∧ 2e-7 ≤ s.eps := by cases s <;> norm_num [Simd.eps]
  have hε0 : 0 ≤ s.eps := by norm_num at *; linarith
  have he : ∀ i < D, |E i - Real.exp (X i - M)| ≤ s.eps * Real.exp (X i - M) + 1.2e-38 := by
    intro i hi
    have hle : X i - M ≤ 0 := by linarith [hM.1 i hi]
    rw [hE i hi]
    split
    · exact s.exp_acc hle
    · rw [sub_self, abs_zero]
      have := mul_nonneg hε0 (Real.exp_pos (X i - M)).le
      norm_num at *
      linarith
  have hE0 : ∀ i < D, 0 ≤ E i := by
    intro i hi
    rw [hE i hi]
    split
    · exact fastExp_nonneg s.exp_ok _
    · exact (Real.exp_pos _).le
  have hT : 1 ≤ ∑ i ∈ Finset.range D, Real.exp (X i - M) := by
    obtain ⟨k, hk, e⟩ := hM.2
    have h1 := Finset.single_le_sum (f := fun i => Real.exp (X i - M)) (fun i _ => (Real.exp_pos _).le) (Finset.mem_range.mpr hk)
    have : Real.exp (X k - M) = 1 := by rw [← e, sub_self, Real.exp_zero]
    linarith
  have hq := fun {j : Nat} (hj : j < D) => quotient_close hD' hε0 hε.1 hε.2 (fun i _ => Real.exp_pos (X i - M)) he hT hj
  have hS := (hq hD).1
  refine ⟨?_, ?_, ?_, ?_⟩
  · intro j hj; exact mul_nonneg (hE0 j hj) (by positivity)
  · rw [← Finset.sum_mul, mul_one_div, div_self hS.ne']
  · intro j hj
    rw [softmaxAt_shift D X M j, mul_one_div]
    exact (hq hj).2
  · intro h16 j hj
    have h : ∀ i < D, E i = Real.exp (X i - M) := fun i hi => by rw [hE i hi, if_neg (by omega)]
    rw [softmaxAt_shift D X M j, mul_one_div, h j hj]
    congr 1
    exact Finset.sum_congr rfl fun i hi => h i (Finset.mem_range.mp hi)

/-- Every schedule leaves a softmax in every row, up to the relative error `ε`, and writes nowhere else. -/
def SoftmaxOk (ss : List (List (List (Upd ℝ)))) (lead : List Nat) (D : Nat) (x : Ten ℝ) (ε : ℝ) : Prop :=
  ∀ m m' : Nat → ℝ, Exec ss m m' →
    (∀ ix, InB lead ix → SoftmaxRow D (fun j => x.get (ix ++ [j])) (fun j => (outRows (lead ++ [D]) m').get (ix ++ [j])) ε) ∧
    ∀ a, numel (lead ++ [D]) ≤ a → m' a = m a

theorem SoftmaxRow.congr {D : Nat} {f g y z : Nat → ℝ} {ε : ℝ} (h : SoftmaxRow D f y ε) (hf : ∀ j < D, g j = f j)
    (hy : ∀ j < D, z j = y j) : SoftmaxRow D g z ε := by
  have hs : ∀ j < D, softmaxAt D g j = softmaxAt D f j := by
    intro j hj
    unfold softmaxAt
    rw [hf j hj]
    congr 1
    exact Finset.sum_congr rfl fun l hl => by rw [hf l (Finset.mem_range.mp hl)]
  refine ⟨fun j hj => by rw [hy j hj]; exact h.nonneg j hj, ?_, ?_, ?_⟩
  · rw [← h.sum_one]; exact Finset.sum_congr rfl fun j hj => hy j (Finset.mem_range.mp hj)
  · intro j hj; rw [hy j hj, hs j hj]; exact h.close j hj
  · intro hD j hj; rw [hy j hj, hs j hj]; exact h.exact_short hD j hj

theorem softmaxForward_last (s : Simd) (axis : Int) (x : Ten ℝ) (lead : List Nat) (D : Nat) (h : x.shape = lead ++ [D])
    (ha : axis = -1 ∨ axis = lead.length) : softmaxForward s axis x =
      .ok [(List.range (numel lead)).map fun r => softmaxRow s D (fun i => x.data (r * D + i)) (r * D)] := by
  unfold softmaxForward
  rw [h]
  have e1 : back (lead ++ [D]) 1 = D := by simp [back]
  have e2 : (lead ++ [D]).take ((lead ++ [D]).length - 1) = lead := by simp
  simp only [e1, e2]
  rw [if_pos]
  rcases ha with rfl | rfl
  · simp
  · rw [if_neg (by omega)]; simp

/-- C121, the part that holds: along the last axis of a contiguous tensor of finite `float`s.  On arm the relative error is
below `5e-7`; rows of at most 16 elements are exact. -/
theorem C121_softmax_partial (s : Simd) (hs : s.Ok) (axis : Int) (x : Ten ℝ) (lead : List Nat) (D : Nat) (hx : x.Rows lead D)
    (hD : 0 < D) (hD' : D ≤ 2 ^ 31) (hlow : ∀ a < numel (lead ++ [D]), floatLowest ≤ x.data a)
    (ha : axis = -1 ∨ axis = lead.length) :
    ∃ ss, softmaxForward s axis x = .ok ss ∧
      SoftmaxOk ss lead D x (match s with | .arm => 5e-7 | .x86 _ => 0.062) := by
  refine ⟨_, softmaxForward_last s axis x lead D hx.1 ha, ?_⟩
  have hrow : ∀ r < numel lead, ∀ i < D, floatLowest ≤ x.data (r * D + i) := by
    intro r hr i hi
    apply hlow
    rw [numel_append1]
    have : (r + 1) * D ≤ numel lead * D := Nat.mul_le_mul_right _ hr
    rw [Nat.add_mul] at this
    omega
  have hch : ∀ r : Nat, ∃ y : Nat → ℝ, r < numel lead → SoftmaxRow D (fun i => x.data (r * D + i)) y (2.2 * s.eps) ∧
      (∀ j < D, ∀ m, run (softmaxRow s D (fun i => x.data (r * D + i)) (r * D)) m (r * D + j) = y j) ∧
      ∀ u ∈ softmaxRow s D (fun i => x.data (r * D + i)) (r * D), r * D ≤ u.addr ∧ u.addr < r * D + D := by
    intro r
    by_cases hr : r < numel lead
    · obtain ⟨y, h⟩ := softmaxRow_ok s hs hD hD' (hrow r hr) (r * D)
      exact ⟨y, fun _ => h⟩
    · exact ⟨fun _ => 0, fun h => absurd h hr⟩
  choose Y hY using hch
  have hrows : RowsAre [(List.range (numel lead)).map fun r => softmaxRow s D (fun i => x.data (r * D + i)) (r * D)] lead D
      fun ix j => Y (lin lead ix) j :=
    rows_are (fun r hr u hu => (hY r hr).2.2 u hu) fun ix hix j hj m => (hY _ (lin_lt hix)).2.1 j hj m
  intro m m' hex
  obtain ⟨h1, h2⟩ := hrows m m' hex
  refine ⟨fun ix hix => ?_, h2⟩
  have hr := ((hY _ (lin_lt hix)).1).congr (g := fun j => x.get (ix ++ [j]))
    (z := fun j => (outRows (lead ++ [D]) m').get (ix ++ [j])) (fun j hj => hx.get hix hj) (fun j hj => h1 ix hix j hj)
  refine ⟨hr.nonneg, hr.sum_one, fun j hj => (hr.close j hj).trans ?_, hr.exact_short⟩
  have hp : 0 ≤ softmaxAt D (fun j => x.get (ix ++ [j])) j :=
    div_nonneg (Real.exp_pos _).le (Finset.sum_nonneg fun _ _ => (Real.exp_pos _).le)
  cases s with
  | arm => norm_num [Simd.eps]; nlinarith
  | x86 l => norm_num [Simd.eps]; nlinarith

/-- The hypotheses are met by a batch of rows longer than a vector, with a tail, on both builds. -/
example : ∃ x : Ten ℝ, x.Rows [2, 3] 37 ∧ (∀ a < numel ([2, 3] ++ [37]), floatLowest ≤ x.data a) ∧ Simd.Ok (.x86 8) :=
  ⟨⟨[2, 3, 37], rowStr [2, 3, 37], fun _ => 1⟩, ⟨rfl, rfl⟩, fun _ _ => by norm_num [floatLowest],
    show 0 < 8 by omega⟩

/-- C121 fails on x86 for every row longer than 16: an element whose value is 0.35 or more below the largest gets too little
weight, by at least two parts in ten thousand of its ratio to the largest. -/
theorem C121_softmax_x86_violated (lanes : Nat) (hl : 0 < lanes) (axis : Int) (x : Ten ℝ) (lead : List Nat) (D : Nat)
    (hx : x.Rows lead D) (hD : 16 < D) (hlow : ∀ a < numel (lead ++ [D]), floatLowest ≤ x.data a)
    (ha : axis = -1 ∨ axis = lead.length) :
    ∃ ss, softmaxForward (.x86 lanes) axis x = .ok ss ∧ ∀ m m' : Nat → ℝ, Exec ss m m' →
      ∀ ix, InB lead ix → ∀ i j, i < D / lanes * lanes → j < D → (∀ l < D, x.get (ix ++ [l]) ≤ x.get (ix ++ [j])) →
        -87.68 ≤ x.get (ix ++ [i]) - x.get (ix ++ [j]) → x.get (ix ++ [i]) - x.get (ix ++ [j]) ≤ -0.35 →
        (outRows (lead ++ [D]) m').get (ix ++ [i]) ≤
          (1 - 2e-4) * (Real.exp (x.get (ix ++ [i]) - x.get (ix ++ [j])) * (outRows (lead ++ [D]) m').get (ix ++ [j])) := by
  refine ⟨_, softmaxForward_last (.x86 lanes) axis x lead D hx.1 ha, ?_⟩
  intro m m' hex ix hix i j hi hj hmax h1 h2
  have hsOk : Simd.Ok (.x86 lanes) := hl
  have hDl := Nat.div_mul_le_self D lanes
  have hrow : ∀ r < numel lead, ∀ i < D, floatLowest ≤ x.data (r * D + i) := by
    intro r hr i hi
    apply hlow
    rw [numel_append1]
    have : (r + 1) * D ≤ numel lead * D := Nat.mul_le_mul_right _ hr
    rw [Nat.add_mul] at this
    omega
  have hch : ∀ r : Nat, ∃ (M : ℝ) (E : Nat → ℝ), r < numel lead → IsMax D (fun i => x.data (r * D + i)) M ∧ _ :=
    fun r => by
      by_cases hr : r < numel lead
      · obtain ⟨M, E, h⟩ := softmaxRow_run (.x86 lanes) hsOk (by omega : 0 < D) (hrow r hr) (r * D)
        exact ⟨M, E, fun _ => h⟩
      · exact ⟨0, fun _ => 0, fun h => absurd h hr⟩
  choose M E hE using hch
  have hrows := rows_are (lead := lead) (D := D)
    (body := fun r => softmaxRow (.x86 lanes) D (fun i => x.data (r * D + i)) (r * D))
    (val := fun ix j => E (lin lead ix) j * (1 / ∑ i ∈ Finset.range D, E (lin lead ix) i))
    (fun r hr u hu => (hE r hr).2.2.2 u hu) (fun ix hix j hj m => (hE _ (lin_lt hix)).2.2.1 j hj m)
  obtain ⟨hv, -⟩ := hrows m m' hex
  have hiD : i < D := by omega
  rw [hv ix hix i hiD, hv ix hix j hj]
  obtain ⟨⟨hm1, km, hkm, hm2⟩, he, -, -⟩ := hE (lin lead ix) (lin_lt hix)
  have gi := hx.get hix hiD
  have gj := hx.get hix hj
  have hM : M (lin lead ix) = x.get (ix ++ [j]) := by
    apply le_antisymm
    · rw [hm2]; beta_reduce; rw [← hx.get hix hkm]; exact hmax km hkm
    · rw [gj]; exact hm1 j hj
  have ei : E (lin lead ix) i = fastExp x86Exp (x.get (ix ++ [i]) - x.get (ix ++ [j])) := by
    rw [he i hiD, if_pos ⟨hD, hi⟩, hM, gi]; rfl
  have ej : E (lin lead ix) j = 1 := by
    rw [he j hj]
    rw [← gj, hM, sub_self]
    split
    · exact fastExp_zero _
    · exact Real.exp_zero
  have hS : 0 ≤ 1 / ∑ i ∈ Finset.range D, E (lin lead ix) i := by
    refine one_div_nonneg.mpr (Finset.sum_nonneg fun l hl => ?_)
    rw [he l (Finset.mem_range.mp hl)]
    split
    · exact fastExp_nonneg x86Exp_ok _
    · exact (Real.exp_pos _).le
  beta_reduce
  rw [ei, ej, one_mul, ← mul_assoc]
  exact mul_le_mul_of_nonneg_right (C121_exp_x86_violated h1 h2) hS

/-- The row of the counterexample exists: 32 elements, one of them one below the others. -/
example : ∃ (x : Ten ℝ), x.Rows [] 32 ∧ (∀ l < 32, x.get ([] ++ [l]) ≤ x.get ([] ++ [0])) ∧
    -87.68 ≤ x.get ([] ++ [1]) - x.get ([] ++ [0]) ∧ x.get ([] ++ [1]) - x.get ([] ++ [0]) ≤ -0.35 := by
  refine ⟨⟨[32], [1], fun k => if k = 1 then -1 else 0⟩, ⟨rfl, rfl⟩, ?_, ?_, ?_⟩
  · intro l _
    simp only [Ten.get, pos, List.nil_append, Nat.mul_one, Nat.add_zero, Nat.zero_mul]
    split <;> norm_num
  · norm_num [Ten.get, pos]
  · norm_num [Ten.get, pos]

/-- C121 fails for every other axis: the operator refuses. -/
theorem C121_axis_refused (s : Simd) (axis : Int) (x : Ten ℝ) (h1 : axis ≠ -1) (h2 : axis ≠ (x.shape.length : Int) - 1)
    : softmaxForward s axis x = .error .assertion := by
  unfold softmaxForward
  have : ¬ ((if axis < 0 then axis + x.shape.length else axis) = (x.shape.length : Int) - 1) := by
    split <;> omega
  rw [if_neg this]
  split
  · rfl
  · rename_i h4
    push Not at h4
    rw [if_pos]
    rw [h4] at h2
    push Not
    exact ⟨h1, by simpa using h2⟩

/-- C121 fails for views: strides are ignored. -/
theorem C121_strides_ignored_violated (s : Simd) (axis : Int) (x : Ten ℝ) (st : List Nat) :
    softmaxForward s axis { x with stride := st } = softmaxForward s axis x := rfl

/-- Concretely: the softmax over the columns of `[[0, ln 2], [0, 0]]`, taken as the last axis of its transpose, comes out
as the softmax of the rows. -/
theorem C121_transposed_view_violated (s : Simd) (hs : s.Ok) : ∃ (x : Ten ℝ) (ss : _), x.shape = [2, 2] ∧ x.stride = [1, 2] ∧
    softmaxForward s (-1) x = .ok ss ∧ ∀ ε, ¬ SoftmaxOk ss [2] 2 x ε := by
  obtain ⟨x, hx⟩ : ∃ x : Ten ℝ, x = ⟨[2, 2], [2, 1], fun k => if k = 1 then Real.log 2 else 0⟩ := ⟨_, rfl⟩
  have hlog : 0 < Real.log 2 := Real.log_pos (by norm_num)
  obtain ⟨ss, h1, h2⟩ := C121_softmax_partial s hs (-1) x [2] 2 (by subst hx; exact ⟨rfl, rfl⟩) (by omega) (by norm_num)
    (by subst hx; intro a _; dsimp only; split <;> norm_num [floatLowest] <;> linarith) (Or.inl rfl)
  refine ⟨{ x with stride := [1, 2] }, ss, by subst hx; rfl, rfl, ?_, ?_⟩
  · rw [← h1]; exact C121_strides_ignored_violated s (-1) x [1, 2]
  · intro ε hc
    obtain ⟨m', hex⟩ := Exec.exists ss (fun _ => (0 : ℝ))
    have e1 := ((h2 _ m' hex).1 [0] ⟨by omega, trivial⟩).exact_short (by omega) 1 (by omega)
    have e2 := ((hc _ m' hex).1 [0] ⟨by omega, trivial⟩).exact_short (by omega) 1 (by omega)
    rw [e1] at e2
    subst hx
    simp [softmaxAt, Ten.get, pos, Finset.sum_range_succ, Real.exp_log] at e2
    norm_num at e2

end Verif.Kern
