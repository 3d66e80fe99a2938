import Verif.Kern.Act
import Verif.Kern.Cert
import Mathlib.Analysis.SpecialFunctions.Trigonometric.DerivHyp

/-!
How close the rational approximations of `tanh` (arm) and of the sigmoid (x86) are.
-/

namespace Verif.Kern

/-- A polynomial with real coefficients, lowest first. -/
def evR : List ℝ → ℝ → ℝ
  | [], _ => 0
  | c :: p, x => c + x * evR p x

/-- Its derivative. -/
def dR : List ℝ → ℝ → ℝ
  | [], _ => 0
  | _ :: p, x => evR p x + x * dR p x

theorem evR_deriv (p : List ℝ) (x : ℝ) : HasDerivAt (evR p) (dR p x) x := by
  induction p with
  | nil => exact hasDerivAt_const x 0
  | cons c p ih =>
    have := ((hasDerivAt_id x).mul ih).const_add c
    exact this.congr_deriv (by simp [dR])

/-- `1.35e-7 B² - R` in `8 z`. -/
def tanhUp : List ℤ := [138520862888183678007982366168805070077952000000000000000000, -73976349396877482723428790183837491527680000000000000000000, 12826972072894961767272835433009002252861440000000000000000, -581904230775618245643161923732934745495961600000000000000, 11487507245077044057855488784592348066611200000000000000, -111488270921375004666581773741783909400576000000000000, 589330146095780654349644145087813590712320000000000, -1771523195599111756635871517704454144000000000000, 3040486029923406030592881762749644800000000000, -2846883818385068810207832841281536000000000, 1284195788499529035903307714826240000000, -224047432550079631496904972067840000, 35341156586010117195928456534400, -3048737034374218602418437841]

theorem tanhUp_cert : cert tanhUp 648 0 [1, 1, 1, 1, 16, 16, 32, 64, 64, 128, 128, 128, 64, 4] = true := by decide +kernel

/-- `1.35e-7 B² + R` in `8 z`. -/
def tanhLo : List ℤ := [3658722053110037585137619516092110077952000000000000000000, 90453484094141170674806540722323660472320000000000000000000, -12241965496835797795916360035954837747138560000000000000000, 588276503978893044499867166819813696104038400000000000000, -11459260099352847301652227702821149789388800000000000000, 111539742756571185756840599321789987815424000000000000, -589297625789673121222879776126923366727680000000000, 1771523195599111756635871517704454144000000000000, -3040486029923406030592881762749644800000000000, 2846883818385068810207832841281536000000000, -1284195788499529035903307714826240000000, 224047432550079631496904972067840000, -35341156586010117195928456534400, 3048737034374218602418437841]

theorem tanhLo_cert : cert tanhLo 648 0 [4, 4, 4, 4, 16, 32, 32, 128, 128, 128, 128, 32, 8] = true := by decide +kernel

/-! ### `tanh` -/

/-- Coefficients of `tanhA`. -/
noncomputable def tA : List ℝ := [4.89352455891786e-3, 6.37261928875436e-4, 1.48572235717979e-5, 5.12229709037114e-8,
  -8.60467152213735e-11, 2.00018790482477e-13, -2.76076847742355e-16]

/-- Coefficients of `tanhB`. -/
noncomputable def tB : List ℝ := [4.89352518554385e-3, 2.26843463243900e-3, 1.18534705686654e-4, 1.19825839466702e-6]

theorem tanhA_eq (z : ℝ) : tanhA z = evR tA z := by unfold tanhA tA; simp only [evR]; ring

theorem tanhB_eq (z : ℝ) : tanhB z = evR tB z := by unfold tanhB tB; simp only [evR]; ring

theorem tanhB_pos {z : ℝ} (h : 0 ≤ z) : 0 < tanhB z := by unfold tanhB; positivity

theorem tanhA_nonneg {z : ℝ} (h0 : 0 ≤ z) (h1 : z ≤ 81) : 0 ≤ tanhA z := by
  unfold tanhA
  have a : 0 ≤ 2.00018790482477e-13 + -2.76076847742355e-16 * z := by norm_num at *; linarith
  have b : 0 ≤ 5.12229709037114e-8 + (-8.60467152213735e-11 + (2.00018790482477e-13 + -2.76076847742355e-16 * z) * z) * z := by
    have : 0 ≤ (2.00018790482477e-13 + -2.76076847742355e-16 * z) * z := mul_nonneg a h0
    have : (-8.60467152213735e-11) * z ≤ (-8.60467152213735e-11 + (2.00018790482477e-13 + -2.76076847742355e-16 * z) * z) * z :=
      mul_le_mul_of_nonneg_right (by linarith) h0
    norm_num at *
    linarith
  have := mul_nonneg b h0
  positivity

/-- The defect of the approximation in `tanh' = 1 - tanh²`, times `B²`. -/
noncomputable def tanhR (z : ℝ) : ℝ :=
  (evR tA z + 2 * z * dR tA z) * evR tB z - 2 * z * evR tA z * dR tB z - evR tB z ^ 2 + z * evR tA z ^ 2

theorem tanhR_small {z : ℝ} (h0 : 0 ≤ z) (h1 : z ≤ 81) : |tanhR z| ≤ 1.35e-7 * tanhB z ^ 2 := by
  have u := cert_sound tanhUp_cert (x := 8 * z) (by push_cast; linarith) (by push_cast; linarith)
  have l := cert_sound tanhLo_cert (x := 8 * z) (by push_cast; linarith) (by push_cast; linarith)
  have eu : ev tanhUp (8 * z) = 21990232555520000000000000000000000000000000000000000000000000000000000 *
      (1.35e-7 * tanhB z ^ 2 - tanhR z) := by
    rw [tanhB_eq]
    unfold tanhR tanhUp tA tB
    simp only [ev, evR, dR]
    push_cast
    ring
  have el : ev tanhLo (8 * z) = 21990232555520000000000000000000000000000000000000000000000000000000000 *
      (1.35e-7 * tanhB z ^ 2 + tanhR z) := by
    rw [tanhB_eq]
    unfold tanhR tanhLo tA tB
    simp only [ev, evR, dR]
    push_cast
    ring
  rw [eu] at u
  rw [el] at l
  have u' := nonneg_of_mul_nonneg_right u (by norm_num)
  have l' := nonneg_of_mul_nonneg_right l (by norm_num)
  rw [abs_le]
  constructor <;> linarith

theorem hasDerivAt_tanh (x : ℝ) : HasDerivAt Real.tanh (1 - Real.tanh x ^ 2) x := by
  have hc := (Real.cosh_pos x).ne'
  have h := (Real.hasDerivAt_sinh x).div (Real.hasDerivAt_cosh x) hc
  have e : (Real.sinh / Real.cosh : ℝ → ℝ) = Real.tanh := by
    funext y
    rw [Real.tanh_eq_sinh_div_cosh]
    rfl
  rw [e] at h
  refine h.congr_deriv ?_
  rw [Real.tanh_eq_sinh_div_cosh]
  field_simp

theorem tanh_nonneg {x : ℝ} (h : 0 ≤ x) : 0 ≤ Real.tanh x := by
  rw [Real.tanh_eq_sinh_div_cosh]
  exact div_nonneg (Real.sinh_nonneg_iff.mpr h) (Real.cosh_pos x).le

/-- The quotient. -/
noncomputable def tanhG (x : ℝ) : ℝ := tanhA (x * x) * x / tanhB (x * x)

theorem tanhG_nonneg {x : ℝ} (h0 : 0 ≤ x) (h1 : x ≤ 9) : 0 ≤ tanhG x := by
  unfold tanhG
  have := tanhA_nonneg (z := x * x) (by positivity) (by nlinarith)
  have := tanhB_pos (z := x * x) (by positivity)
  positivity

theorem tanhG_deriv (x : ℝ) : HasDerivAt tanhG (1 - tanhG x ^ 2 + tanhR (x * x) / tanhB (x * x) ^ 2) x := by
  have hB := tanhB_pos (z := x * x) (mul_self_nonneg x)
  have hsq : HasDerivAt (fun y : ℝ => y * y) (2 * x) x :=
    ((hasDerivAt_id x).mul (hasDerivAt_id x)).congr_deriv (by simp; ring)
  have hA : HasDerivAt (fun y : ℝ => tanhA (y * y)) (dR tA (x * x) * (2 * x)) x := by
    have := HasDerivAt.comp (h₂ := evR tA) (h := fun y : ℝ => y * y) x (evR_deriv tA (x * x)) hsq
    refine this.congr_of_eventuallyEq (Filter.Eventually.of_forall fun y => ?_)
    exact tanhA_eq _
  have hB' : HasDerivAt (fun y : ℝ => tanhB (y * y)) (dR tB (x * x) * (2 * x)) x := by
    have := HasDerivAt.comp (h₂ := evR tB) (h := fun y : ℝ => y * y) x (evR_deriv tB (x * x)) hsq
    refine this.congr_of_eventuallyEq (Filter.Eventually.of_forall fun y => ?_)
    exact tanhB_eq _
  have h := (hA.mul (hasDerivAt_id x)).div hB' hB.ne'
  refine (h.congr_deriv ?_)
  unfold tanhG tanhR
  simp only [Pi.mul_apply, id, ← tanhA_eq, ← tanhB_eq]
  obtain ⟨b, hb⟩ : ∃ b, b = tanhB (x * x) := ⟨_, rfl⟩
  obtain ⟨a, ha⟩ : ∃ a, a = tanhA (x * x) := ⟨_, rfl⟩
  obtain ⟨c, hc⟩ : ∃ c, c = dR tA (x * x) := ⟨_, rfl⟩
  obtain ⟨d, hd⟩ : ∃ d, d = dR tB (x * x) := ⟨_, rfl⟩
  rw [← hb] at hB
  rw [← ha, ← hb, ← hc, ← hd]
  have : b ≠ 0 := hB.ne'
  field_simp
  ring

/-- The quotient against `tanh`. -/
theorem tanhG_close {x : ℝ} (h0 : 0 ≤ x) (h1 : x ≤ 9) : |tanhG x - Real.tanh x| ≤ 1.36e-7 * x := by
  have := fence (e := fun y => tanhG y - Real.tanh y) (r := fun y => tanhR (y * y) / tanhB (y * y) ^ 2)
    (k := fun y => tanhG y + Real.tanh y) (b := 9) (c := 1.36e-7) (κ := 0) (e0 := 0) ?_ ?_ (by norm_num) (le_refl _) ?_ ?_ h0 h1
  · simpa using this
  · intro y _ _
    exact ((tanhG_deriv y).sub (hasDerivAt_tanh y)).congr_deriv (by ring)
  · simp [tanhG]
  · intro y a b
    have := tanhG_nonneg a b
    have := tanh_nonneg a
    linarith
  · intro y a b
    have hB := tanhB_pos (z := y * y) (mul_self_nonneg y)
    have hs := tanhR_small (z := y * y) (mul_self_nonneg y) (by nlinarith)
    have : |tanhR (y * y) / tanhB (y * y) ^ 2| ≤ 1.35e-7 := by
      rw [abs_div, abs_of_pos (by positivity : 0 < tanhB (y * y) ^ 2), div_le_iff₀ (by positivity)]
      exact hs
    norm_num at *
    linarith

theorem tanh_le_one (x : ℝ) : Real.tanh x ≤ 1 := by
  rw [Real.tanh_eq_sinh_div_cosh, div_le_one (Real.cosh_pos x)]
  exact (Real.sinh_lt_cosh x).le

theorem tanh_mono {x y : ℝ} (h : x ≤ y) : Real.tanh x ≤ Real.tanh y := by
  refine monotone_of_deriv_nonneg (fun x => (hasDerivAt_tanh x).differentiableAt) (fun x => ?_) h
  rw [(hasDerivAt_tanh x).deriv]
  have h1 := tanh_le_one x
  have h2 := tanh_le_one (-x)
  rw [Real.tanh_neg] at h2
  nlinarith

/-- `tanh` is within `2 exp(-2x)` of one. -/
theorem tanh_large (x : ℝ) : 1 - 2 * Real.exp (-(2 * x)) ≤ Real.tanh x := by
  rw [Real.tanh_eq_sinh_div_cosh, Real.sinh_eq, Real.cosh_eq]
  have h1 := Real.exp_pos x
  have h2 := Real.exp_pos (-x)
  have e : Real.exp (-(2 * x)) = Real.exp (-x) * Real.exp (-x) := by rw [← Real.exp_add]; ring_nf
  have p : Real.exp x * Real.exp (-x) = 1 := by rw [← Real.exp_add]; simp
  rw [e, le_div_iff₀ (by positivity)]
  obtain ⟨a, ha⟩ : ∃ a, a = Real.exp x := ⟨_, rfl⟩
  obtain ⟨b, hb⟩ : ∃ b, b = Real.exp (-x) := ⟨_, rfl⟩
  rw [← hb] at h2
  rw [← ha, ← hb] at p
  rw [← ha, ← hb]
  have : b * b * a = b := by rw [mul_assoc, mul_comm b a, p, mul_one]
  nlinarith [mul_pos (mul_pos h2 h2) h2]

theorem exp_neg18 : Real.exp (-18) ≤ 2e-8 := by
  rw [Real.exp_neg, inv_le_comm₀ (Real.exp_pos _) (by norm_num)]
  have h : (2.7 : ℝ) ≤ Real.exp 1 := by have := Real.exp_one_gt_d9; norm_num at *; linarith
  have e : Real.exp 18 = Real.exp 1 ^ 18 := by rw [← Real.exp_nat_mul]; norm_num
  rw [e]
  have : (2.7 : ℝ) ^ 18 ≤ Real.exp 1 ^ 18 := pow_le_pow_left₀ (by norm_num) h 18
  refine le_trans ?_ this
  norm_num

theorem tanh_le_self {x : ℝ} (h : 0 ≤ x) : Real.tanh x ≤ x := by
  have hd : ∀ y, 0 ≤ deriv (fun y => y - Real.tanh y) y := by
    intro y
    have : HasDerivAt (fun y => y - Real.tanh y) (1 - (1 - Real.tanh y ^ 2)) y := (hasDerivAt_id y).sub (hasDerivAt_tanh y)
    rw [this.deriv]
    nlinarith [sq_nonneg (Real.tanh y)]
  have m := monotone_of_deriv_nonneg (f := fun y => y - Real.tanh y)
    (fun y => ((hasDerivAt_id y).sub (hasDerivAt_tanh y)).differentiableAt) hd h
  simp at m
  linarith

theorem tanh_tiny {x : ℝ} (h : 0 ≤ x) (h1 : x ≤ 1e-4) : |x - Real.tanh x| ≤ 1.1e-8 * x := by
  have := fence (e := fun y => y - Real.tanh y) (r := fun y => Real.tanh y ^ 2) (k := fun _ => 0) (b := 1e-4) (c := 1.1e-8)
    (κ := 0) (e0 := 0) ?_ (by simp) (by norm_num) (le_refl _) (by simp) ?_ h h1
  · simpa using this
  · intro y _ _
    exact ((hasDerivAt_id y).sub (hasDerivAt_tanh y)).congr_deriv (by simp)
  · intro y a b
    have h1 := tanh_le_self a
    have h2 := tanh_nonneg a
    have : Real.tanh y ^ 2 ≤ (1e-4) ^ 2 := pow_le_pow_left₀ h2 (h1.trans b) 2
    rw [abs_of_nonneg (by positivity)]
    norm_num at *
    linarith

theorem armTanh_nonneg_arg {x : ℝ} (h : 0 ≤ x) : |armTanh x - Real.tanh x| ≤ 1.4e-6 := by
  unfold armTanh
  simp only [abs_of_nonneg h, if_neg (not_lt.mpr h)]
  by_cases ht : 1e-4 ≤ x
  · rw [if_pos ht]
    by_cases h9 : x ≤ 9
    · rw [if_pos h9]
      have hn := tanhG_nonneg h h9
      have hc := tanhG_close h h9
      unfold tanhG at hn hc
      rw [abs_of_nonneg hn]
      norm_num at *
      linarith
    · rw [if_neg h9]
      have hn := tanhG_nonneg (x := 9) (by norm_num) (le_refl _)
      have hc := tanhG_close (x := 9) (by norm_num) (le_refl _)
      unfold tanhG at hn hc
      rw [abs_of_nonneg hn]
      have h1 := tanh_le_one x
      have h2 := tanh_mono (not_le.mp h9).le
      have h3 := tanh_large 9
      have h4 := exp_neg18
      have h5 : Real.exp (-(2 * 9)) = Real.exp (-18) := by norm_num
      rw [h5] at h3
      have h6 := tanh_le_one 9
      rw [abs_le] at *
      constructor <;> norm_num at * <;> linarith
  · rw [if_neg ht]
    have hx : x < 1e-4 := not_le.mp ht
    exact (tanh_tiny h hx.le).trans (by norm_num at *; linarith)

theorem armTanh_neg (x : ℝ) (h : x < 0) : armTanh x = -armTanh (-x) := by
  unfold armTanh
  simp only [abs_neg, if_pos h, if_neg (not_lt.mpr (by linarith : (0 : ℝ) ≤ -x))]
  split <;> simp

/-- `vtanh_fp32` against `tanh`. -/
theorem armTanh_close (x : ℝ) : |armTanh x - Real.tanh x| ≤ 1.4e-6 := by
  rcases le_or_gt 0 x with h | h
  · exact armTanh_nonneg_arg h
  · have := armTanh_nonneg_arg (x := -x) (by linarith)
    rw [Real.tanh_neg] at this
    rw [armTanh_neg x h, ← abs_neg]
    convert this using 2
    ring

end Verif.Kern
