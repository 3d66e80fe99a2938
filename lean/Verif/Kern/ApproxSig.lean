import Verif.Kern.Act
import Verif.Kern.ActSpec
import Verif.Kern.Approx

/-!
How close the rational approximation of the sigmoid (x86) is.
-/

namespace Verif.Kern

/-- `1.25e-4 D² - R` in `8 x`. -/
def sigUpP : List ℤ := [37653377076115009015261763552326387100968550400000000, 870924369014136512953567245789969638227968000000, -378663981263374639371560246244115112075427941646336, 26643697360179605430710514635220098383872000000, 1200366018022097282841300138319985149077471254016, 2362869162883761038857518046833146976000000, -743140118949491328730366178092337374644429399, -2307795134533512966629050649733325125000, 165610178895434569961739016107694993125000, -64637000357502371336479992187500000, -10996144170133412040309245777392578125]

theorem sigUpP_cert : cert sigUpP 92 0 [8, 4, 2, 16, 16, 16, 16, 8, 4, 2] = true := by decide +kernel

/-- `1.25e-4 D² + R` in `8 x`. -/
def sigLoP : List ℤ := [536260120287168265758800893993465025239449600000000, -869175377436271107571720586411458147909632000000, 507050306755237627734282427440537198950645658353664, -26638769535161234732422249406289214537728000000, -1078889857809339909969539746386985360644128745984, -2359216813771026685831277619602211744000000, 765955944085778665393580602704596935115570601, 2308148415121657748134696344431854875000, -164404087126725673370366231111124680625000, 64637000357502371336479992187500000, 10996144170133412040309245777392578125]

theorem sigLoP_cert : cert sigLoP 92 0 [16, 8, 8, 32, 16, 8, 4] = true := by decide +kernel

/-- `1.25e-4 D² - R` in `-8 x`. -/
def sigUpM : List ℤ := [37653377076115009015261763552326387100968550400000000, -870924369014136512953567245789969638227968000000, -378663981263374639371560246244115112075427941646336, -26643697360179605430710514635220098383872000000, 1200366018022097282841300138319985149077471254016, -2362869162883761038857518046833146976000000, -743140118949491328730366178092337374644429399, 2307795134533512966629050649733325125000, 165610178895434569961739016107694993125000, 64637000357502371336479992187500000, -10996144170133412040309245777392578125]

theorem sigUpM_cert : cert sigUpM 92 0 [8, 4, 2, 16, 16, 8, 32, 4, 2] = true := by decide +kernel

/-- `1.25e-4 D² + R` in `-8 x`. -/
def sigLoM : List ℤ := [536260120287168265758800893993465025239449600000000, 869175377436271107571720586411458147909632000000, 507050306755237627734282427440537198950645658353664, 26638769535161234732422249406289214537728000000, -1078889857809339909969539746386985360644128745984, 2359216813771026685831277619602211744000000, 765955944085778665393580602704596935115570601, -2308148415121657748134696344431854875000, -164404087126725673370366231111124680625000, -64637000357502371336479992187500000, 10996144170133412040309245777392578125]

theorem sigLoM_cert : cert sigLoM 92 0 [16, 8, 8, 32, 8, 8, 8, 4] = true := by decide +kernel

/-- `N - 0.81 D` in `8 x`. -/
def sigKP : List ℤ := [-8567366638184671297536000000, 863230122987803354611413504, -14401084007262975552000000, 331365267369933270071238, -1522511746734372375000, 7414898573188109375]

theorem sigKP_cert : cert sigKP 92 12 [64, 16] = true := by decide +kernel

/-- `0.19 D - N` in `-8 x`. -/
def sigKM : List ℤ := [-8567449694823976943616000000, 863230515354053138283664896, -14400919212341378112000000, 331365713340595141868562, -1522555332630874875000, 7414898573188109375]

theorem sigKM_cert : cert sigKM 92 12 [64, 16] = true := by decide +kernel

/-- `N - D / 2` in `8 x`. -/
def sigHP : List ℤ := [1661132786112921600000, 34529212766837129857901568, -3295898431948800000, 13254619614210568238796, 871717930050000, 296595942927524375]

theorem sigHP_cert : cert sigHP 92 0 [64, 16, 8, 4] = true := by decide +kernel

/-- `(0.5 + 1.6e-6) D - N` in `-8 x`. -/
def sigHM : List ℤ := [8408003770481614848000000, 2697594747405986526198691675392, 489766284508938336000000, 1035517157356604106060197199, -43545970709630062500, 23171558041212841796875]

theorem sigHM_cert : cert sigHM 92 0 [64, 16, 8, 4] = true := by decide +kernel

/-- Coefficients of `x86SigNum`. -/
noncomputable def sN : List ℝ := [0.0347082614898682, 0.2081478191539649, 0.5376698970794684, 0.7363685555756084, 0.5238871574401856, 0.15185712277889248]

/-- Coefficients of `x86SigDen`. -/
noncomputable def sD : List ℝ := [0.069416314363483, 0.000000152596641100903, 1.075343608856196, 0.000001598461153662356, 1.047765016555784]

theorem sigNum_eq (f : ℝ) : x86SigNum f = evR sN f := by unfold x86SigNum sN; simp only [evR]; ring

theorem sigDen_eq (f : ℝ) : x86SigDen f = evR sD f := by unfold x86SigDen sD; simp only [evR]; ring

/-- The quotient. -/
noncomputable def sigG (x : ℝ) : ℝ := evR sN (x / 12) / evR sD (x / 12)

/-- The defect of the approximation in `s' = s (1 - s)`, times `D²`. -/
noncomputable def sigR (f : ℝ) : ℝ :=
  (dR sN f * evR sD f - evR sN f * dR sD f) / 12 - evR sN f * (evR sD f - evR sN f)

theorem sigD_pos {f : ℝ} (h : -1 ≤ f) : 0.06 ≤ evR sD f := by
  unfold sD
  simp only [evR]
  have h2 := sq_nonneg f
  have h4 := sq_nonneg (f ^ 2)
  norm_num at *
  nlinarith [mul_nonneg h2 (by linarith : 0 ≤ f + 1)]

theorem sigR_small {x : ℝ} (h0 : -11.5 ≤ x) (h1 : x ≤ 11.5) : |sigR (x / 12)| ≤ 1.25e-4 * evR sD (x / 12) ^ 2 := by
  rcases le_total 0 x with hx | hx
  · have u := cert_sound sigUpP_cert (x := 8 * x) (by push_cast; linarith) (by push_cast; norm_num at *; linarith)
    have l := cert_sound sigLoP_cert (x := 8 * x) (by push_cast; linarith) (by push_cast; norm_num at *; linarith)
    have eu : ev sigUpP (8 * x) = 31701690482688000000000000000000000000000000000000000000000 *
        (1.25e-4 * evR sD (x / 12) ^ 2 - sigR (x / 12)) := by
      unfold sigR sigUpP sN sD
      simp only [ev, evR, dR]
      push_cast
      ring
    have el : ev sigLoP (8 * x) = 31701690482688000000000000000000000000000000000000000000000 *
        (1.25e-4 * evR sD (x / 12) ^ 2 + sigR (x / 12)) := by
      unfold sigR sigLoP sN sD
      simp only [ev, evR, dR]
      push_cast
      ring
    rw [eu] at u
    rw [el] at l
    have u' := nonneg_of_mul_nonneg_right u (by norm_num)
    have l' := nonneg_of_mul_nonneg_right l (by norm_num)
    rw [abs_le]
    constructor <;> linarith
  · have u := cert_sound sigUpM_cert (x := -(8 * x)) (by push_cast; linarith) (by push_cast; norm_num at *; linarith)
    have l := cert_sound sigLoM_cert (x := -(8 * x)) (by push_cast; linarith) (by push_cast; norm_num at *; linarith)
    have eu : ev sigUpM (-(8 * x)) = 31701690482688000000000000000000000000000000000000000000000 *
        (1.25e-4 * evR sD (x / 12) ^ 2 - sigR (x / 12)) := by
      unfold sigR sigUpM sN sD
      simp only [ev, evR, dR]
      push_cast
      ring
    have el : ev sigLoM (-(8 * x)) = 31701690482688000000000000000000000000000000000000000000000 *
        (1.25e-4 * evR sD (x / 12) ^ 2 + sigR (x / 12)) := by
      unfold sigR sigLoM sN sD
      simp only [ev, evR, dR]
      push_cast
      ring
    rw [eu] at u
    rw [el] at l
    have u' := nonneg_of_mul_nonneg_right u (by norm_num)
    have l' := nonneg_of_mul_nonneg_right l (by norm_num)
    rw [abs_le]
    constructor <;> linarith

theorem sigR_quot {x : ℝ} (h0 : -11.5 ≤ x) (h1 : x ≤ 11.5) : |sigR (x / 12) / evR sD (x / 12) ^ 2| ≤ 1.25e-4 := by
  have hD := sigD_pos (f := x / 12) (by norm_num at *; linarith)
  have hD' : 0 < evR sD (x / 12) := lt_of_lt_of_le (by norm_num) hD
  rw [abs_div, abs_of_pos (by positivity : 0 < evR sD (x / 12) ^ 2), div_le_iff₀ (by positivity)]
  exact sigR_small h0 h1

theorem sigG_half {x : ℝ} (h0 : 0 ≤ x) (h1 : x ≤ 11.5) : 0.5 ≤ sigG x := by
  have u := cert_sound sigHP_cert (x := 8 * x) (by push_cast; linarith) (by push_cast; norm_num at *; linarith)
  have hD := sigD_pos (f := x / 12) (by norm_num at *; linarith)
  have e : ev sigHP (8 * x) = 15925248000000000000000000000 * (evR sN (x / 12) - 0.5 * evR sD (x / 12)) := by
    unfold sigHP sN sD
    simp only [ev, evR]
    push_cast
    ring
  rw [e] at u
  have u' := nonneg_of_mul_nonneg_right u (by norm_num)
  unfold sigG
  rw [le_div_iff₀ (lt_of_lt_of_le (by norm_num) hD)]
  linarith

theorem sigG_half_neg {x : ℝ} (h0 : 0 ≤ x) (h1 : x ≤ 11.5) : sigG (-x) ≤ 0.5 + 1.6e-6 := by
  have u := cert_sound sigHM_cert (x := 8 * x) (by push_cast; linarith) (by push_cast; norm_num at *; linarith)
  have hD := sigD_pos (f := -x / 12) (by norm_num at *; linarith)
  have e : ev sigHM (8 * x) = 1244160000000000000000000000000000 * ((0.5 + 1.6e-6) * evR sD (-x / 12) - evR sN (-x / 12)) := by
    unfold sigHM sN sD
    simp only [ev, evR]
    push_cast
    ring
  rw [e] at u
  have u' := nonneg_of_mul_nonneg_right u (by norm_num)
  unfold sigG
  rw [div_le_iff₀ (lt_of_lt_of_le (by norm_num) hD)]
  linarith

theorem sigG_big {x : ℝ} (h0 : 1.5 ≤ x) (h1 : x ≤ 11.5) : 0.81 ≤ sigG x := by
  have u := cert_sound sigKP_cert (x := 8 * x) (by push_cast; norm_num at *; linarith) (by push_cast; norm_num at *; linarith)
  have hD := sigD_pos (f := x / 12) (by norm_num at *; linarith)
  have e : ev sigKP (8 * x) = 398131200000000000000000000000 * (evR sN (x / 12) - 0.81 * evR sD (x / 12)) := by
    unfold sigKP sN sD
    simp only [ev, evR]
    push_cast
    ring
  rw [e] at u
  have u' := nonneg_of_mul_nonneg_right u (by norm_num)
  unfold sigG
  rw [le_div_iff₀ (lt_of_lt_of_le (by norm_num) hD)]
  linarith

theorem sigG_small {x : ℝ} (h0 : 1.5 ≤ x) (h1 : x ≤ 11.5) : sigG (-x) ≤ 0.19 := by
  have u := cert_sound sigKM_cert (x := 8 * x) (by push_cast; norm_num at *; linarith) (by push_cast; norm_num at *; linarith)
  have hD := sigD_pos (f := -x / 12) (by norm_num at *; linarith)
  have e : ev sigKM (8 * x) = 398131200000000000000000000000 * (0.19 * evR sD (-x / 12) - evR sN (-x / 12)) := by
    unfold sigKM sN sD
    simp only [ev, evR]
    push_cast
    ring
  rw [e] at u
  have u' := nonneg_of_mul_nonneg_right u (by norm_num)
  unfold sigG
  rw [div_le_iff₀ (lt_of_lt_of_le (by norm_num) hD)]
  linarith

theorem sigG_deriv {x : ℝ} (h : -11.5 ≤ x) :
    HasDerivAt sigG (sigG x * (1 - sigG x) + sigR (x / 12) / evR sD (x / 12) ^ 2) x := by
  have hD := sigD_pos (f := x / 12) (by norm_num at *; linarith)
  have hD' : 0 < evR sD (x / 12) := lt_of_lt_of_le (by norm_num) hD
  have hsc : HasDerivAt (fun y : ℝ => y / 12) (1 / 12) x := (hasDerivAt_id x).div_const 12
  have hA := HasDerivAt.comp (h₂ := evR sN) (h := fun y : ℝ => y / 12) x (evR_deriv sN (x / 12)) hsc
  have hB := HasDerivAt.comp (h₂ := evR sD) (h := fun y : ℝ => y / 12) x (evR_deriv sD (x / 12)) hsc
  have h := hA.div hB (by exact hD'.ne')
  refine (h.congr_deriv ?_)
  unfold sigG sigR
  simp only [Function.comp]
  obtain ⟨b, hb⟩ : ∃ b, b = evR sD (x / 12) := ⟨_, rfl⟩
  obtain ⟨a, ha⟩ : ∃ a, a = evR sN (x / 12) := ⟨_, rfl⟩
  obtain ⟨c, hc⟩ : ∃ c, c = dR sN (x / 12) := ⟨_, rfl⟩
  obtain ⟨d, hd⟩ : ∃ d, d = dR sD (x / 12) := ⟨_, rfl⟩
  rw [← hb] at hD'
  rw [← ha, ← hb, ← hc, ← hd]
  have : b ≠ 0 := hD'.ne'
  field_simp
  ring

/-! ### The logistic function -/

theorem sigm_pos (x : ℝ) : 0 < sigm x := by unfold sigm; have := Real.exp_pos (-x); positivity

theorem sigm_lt_one (x : ℝ) : sigm x < 1 := by
  unfold sigm
  have := Real.exp_pos (-x)
  rw [div_lt_one (by positivity)]
  linarith

theorem sigm_neg (x : ℝ) : sigm (-x) = 1 - sigm x := by
  unfold sigm
  rw [neg_neg, Real.exp_neg]
  have := Real.exp_pos x
  field_simp
  ring

theorem sigm_mono {x y : ℝ} (h : x ≤ y) : sigm x ≤ sigm y := by
  unfold sigm
  have := Real.exp_pos (-y)
  refine one_div_le_one_div_of_le (by positivity) ?_
  have := Real.exp_le_exp.mpr (neg_le_neg h)
  linarith

theorem sigm_deriv (x : ℝ) : HasDerivAt sigm (sigm x * (1 - sigm x)) x := by
  have hp := Real.exp_pos (-x)
  have h1 : HasDerivAt (fun y : ℝ => 1 + Real.exp (-y)) (-Real.exp (-x)) x := by
    have := ((hasDerivAt_neg x).exp).const_add 1
    exact this.congr_deriv (by ring)
  have h2 := (hasDerivAt_const x (1 : ℝ)).div h1 (by positivity)
  refine (h2.congr_deriv ?_)
  unfold sigm
  field_simp
  ring

theorem sigm_zero : sigm 0 = 0.5 := by unfold sigm; norm_num

theorem sigm_three_halves : 0.81 ≤ sigm 1.5 := by
  unfold sigm
  have hp := Real.exp_pos (-1.5)
  have e : Real.exp (-1.5) ^ 2 = Real.exp (-1) ^ 3 := by
    rw [← Real.exp_nat_mul, ← Real.exp_nat_mul]; norm_num
  have h1 : Real.exp (-1) ≤ 0.3679 := by
    rw [Real.exp_neg, inv_le_comm₀ (Real.exp_pos _) (by norm_num)]
    have := Real.exp_one_gt_d9
    norm_num at *
    linarith
  have h2 : Real.exp (-1) ^ 3 ≤ 0.3679 ^ 3 := pow_le_pow_left₀ (Real.exp_pos _).le h1 3
  have h3 : Real.exp (-1.5) ≤ 0.2345 := by
    by_contra hc
    push Not at hc
    have : (0.2345 : ℝ) ^ 2 < Real.exp (-1.5) ^ 2 := pow_lt_pow_left₀ hc (by norm_num) (by norm_num)
    rw [e] at this
    norm_num at *
    linarith
  rw [le_div_iff₀ (by positivity)]
  norm_num at *
  linarith

theorem sigm_far : sigm (-11.5) ≤ 2e-5 := by
  unfold sigm
  have h : (2.7 : ℝ) ≤ Real.exp 1 := by have := Real.exp_one_gt_d9; norm_num at *; linarith
  have e : Real.exp 11 = Real.exp 1 ^ 11 := by rw [← Real.exp_nat_mul]; norm_num
  have h1 : (2.7 : ℝ) ^ 11 ≤ Real.exp 1 ^ 11 := pow_le_pow_left₀ (by norm_num) h 11
  have h2 : Real.exp 11 ≤ Real.exp (- -11.5) := Real.exp_le_exp.mpr (by norm_num)
  rw [div_le_iff₀ (by have := Real.exp_pos (- -11.5 : ℝ); positivity)]
  have h3 : (55000 : ℝ) ≤ Real.exp (- -11.5) := le_trans (le_trans (by norm_num) h1) (e ▸ h2)
  linarith

/-! ### The error -/

theorem sigG_close_pos {x : ℝ} (h0 : 0 ≤ x) (h1 : x ≤ 11.5) : |sigG x - sigm x| ≤ 2.02e-4 := by
  have hd : ∀ y, 0 ≤ y → y ≤ 11.5 → HasDerivAt (fun y => sigG y - sigm y)
      (sigR (y / 12) / evR sD (y / 12) ^ 2 - (sigG y - sigm y) * (sigG y + sigm y - 1)) y := by
    intro y a _
    exact ((sigG_deriv (by norm_num at *; linarith)).sub (sigm_deriv y)).congr_deriv (by ring)
  have s1 : ∀ y, 0 ≤ y → y ≤ 1.5 → |sigG y - sigm y| ≤ 1.6e-6 + 1.26e-4 * y := by
    intro y a b
    refine fence (e := fun y => sigG y - sigm y) (r := fun y => sigR (y / 12) / evR sD (y / 12) ^ 2)
      (k := fun y => sigG y + sigm y - 1) (b := 1.5) (c := 1.26e-4) (κ := 0) (e0 := 1.6e-6) ?_ ?_ (by norm_num) (le_refl _) ?_ ?_ a b
    · intro y a b
      exact hd y a (by norm_num at *; linarith)
    · rw [sigm_zero]
      unfold sigG sN sD
      simp only [evR]
      norm_num [abs_le]
    · intro y a b
      have := sigG_half a (by norm_num at *; linarith)
      have := sigm_mono a
      rw [sigm_zero] at this
      norm_num at *
      linarith
    · intro y a b
      have := sigR_quot (x := y) (by norm_num at *; linarith) (by norm_num at *; linarith)
      norm_num at *
      linarith
  rcases le_total x 1.5 with hx | hx
  · refine (s1 x h0 hx).trans ?_
    norm_num at *
    linarith
  · refine fence_const (e := fun y => sigG y - sigm y) (r := fun y => sigR (y / 12) / evR sD (y / 12) ^ 2)
      (k := fun y => sigG y + sigm y - 1) (a := 1.5) (b := 11.5) ?_ ?_ ?_ hx h1
    · intro y a b
      exact hd y (by norm_num at *; linarith) b
    · refine (s1 1.5 (by norm_num) (le_refl _)).trans ?_
      norm_num
    · intro y a b
      have h1 := sigR_quot (x := y) (by norm_num at *; linarith) (by norm_num at *; linarith)
      have h2 := sigG_big a b
      have h3 := sigm_three_halves.trans (sigm_mono a)
      norm_num at *
      linarith

theorem sigG_close_neg {x : ℝ} (h0 : 0 ≤ x) (h1 : x ≤ 11.5) : |sigG (-x) - sigm (-x)| ≤ 2.02e-4 := by
  have hd : ∀ y, 0 ≤ y → y ≤ 11.5 → HasDerivAt (fun y => sigG (-y) - sigm (-y))
      (-(sigR (-y / 12) / evR sD (-y / 12) ^ 2) - (sigG (-y) - sigm (-y)) * (1 - sigG (-y) - sigm (-y))) y := by
    intro y _ a
    have h := ((sigG_deriv (x := -y) (by linarith)).sub (sigm_deriv (-y)))
    have := HasDerivAt.comp (h₂ := fun y => sigG y - sigm y) (h := fun y : ℝ => -y) y h (hasDerivAt_neg y)
    exact this.congr_deriv (by ring)
  have s1 : ∀ y, 0 ≤ y → y ≤ 1.5 → |sigG (-y) - sigm (-y)| ≤ 1.6e-6 + 1.26e-4 * y := by
    intro y a b
    refine fence (e := fun y => sigG (-y) - sigm (-y)) (r := fun y => -(sigR (-y / 12) / evR sD (-y / 12) ^ 2))
      (k := fun y => 1 - sigG (-y) - sigm (-y)) (b := 1.5) (c := 1.26e-4) (κ := 1.6e-6) (e0 := 1.6e-6) ?_ ?_ (by norm_num)
      (by norm_num) ?_ ?_ a b
    · intro y a b
      exact hd y a (by norm_num at *; linarith)
    · simp only [neg_zero]
      rw [sigm_zero]
      unfold sigG sN sD
      simp only [evR]
      norm_num [abs_le]
    · intro y a b
      have := sigG_half_neg a (by norm_num at *; linarith)
      have := sigm_mono (neg_nonpos.mpr a)
      rw [sigm_zero] at this
      norm_num at *
      linarith
    · intro y a b
      have := sigR_quot (x := -y) (by norm_num at *; linarith) (by norm_num at *; linarith)
      rw [abs_neg]
      norm_num at *
      linarith
  rcases le_total x 1.5 with hx | hx
  · refine (s1 x h0 hx).trans ?_
    norm_num at *
    linarith
  · refine fence_const (e := fun y => sigG (-y) - sigm (-y)) (r := fun y => -(sigR (-y / 12) / evR sD (-y / 12) ^ 2))
      (k := fun y => 1 - sigG (-y) - sigm (-y)) (a := 1.5) (b := 11.5) ?_ ?_ ?_ hx h1
    · intro y a b
      exact hd y (by norm_num at *; linarith) b
    · refine (s1 1.5 (by norm_num) (le_refl _)).trans ?_
      norm_num
    · intro y a b
      have h1 := sigR_quot (x := -y) (by norm_num at *; linarith) (by norm_num at *; linarith)
      have h2 := sigG_small a b
      have h3 := sigm_three_halves.trans (sigm_mono a)
      rw [abs_neg]
      rw [sigm_neg]
      norm_num at *
      linarith

theorem sigG_close {x : ℝ} (h0 : -11.5 ≤ x) (h1 : x ≤ 11.5) : |sigG x - sigm x| ≤ 2.02e-4 := by
  rcases le_total 0 x with h | h
  · exact sigG_close_pos h h1
  · have := sigG_close_neg (x := -x) (by linarith) (by linarith)
    rwa [neg_neg] at this

theorem x86Sigmoid_eq (v : ℝ) : x86Sigmoid v = sigG (max (min v 11.5) (-11.5)) := by
  unfold x86Sigmoid sigG
  simp only [← sigNum_eq, ← sigDen_eq]
  rw [show max (min v 11.5) (-11.5) * (1 / 12) = max (min v 11.5) (-11.5) / 12 by ring]

/-- `__sigmoid_fp32_vector` against the logistic function. -/
theorem x86Sigmoid_close (v : ℝ) : |x86Sigmoid v - sigm v| ≤ 2.3e-4 := by
  rw [x86Sigmoid_eq]
  have far := sigm_far
  rcases le_total v (-11.5) with h | h
  · rw [min_eq_left (by norm_num at *; linarith), max_eq_right h]
    have h1 := sigG_close (x := -11.5) (le_refl _) (by norm_num)
    have h2 := sigm_mono h
    have h3 := sigm_pos v
    have h4 := sigm_pos (-11.5)
    rw [abs_le] at *
    constructor <;> norm_num at * <;> linarith
  · rcases le_total v 11.5 with h' | h'
    · rw [min_eq_left h', max_eq_left h]
      refine (sigG_close h h').trans (by norm_num)
    · rw [min_eq_right h', max_eq_left (by norm_num)]
      have h1 := sigG_close (x := 11.5) (by norm_num) (le_refl _)
      have h2 := sigm_mono h'
      have h3 := sigm_lt_one v
      have h4 : sigm (-11.5) = 1 - sigm 11.5 := sigm_neg 11.5
      rw [h4] at far
      rw [abs_le] at *
      constructor <;> norm_num at * <;> linarith

end Verif.Kern
