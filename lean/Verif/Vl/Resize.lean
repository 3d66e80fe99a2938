import Verif.Prelude
import Mathlib.Analysis.SpecialFunctions.Pow.Real
/-
C113: the size an image is resized to before it is cut into patches.
Source: mllm/models/qwen2vl/image_preprocessor_qwen2vl.hpp L32-61 (mllm/models/qwen2_5vl: the same).

Assumptions: `double` arithmetic is exact (real numbers); `int` products do not overflow, which the image
decoder guarantees (it refuses images of more than 2^31 - 1 bytes, so `h * w ≤ 2^31 / 3`).
-/
namespace Verif.Vl

/-- `smartResize(height, width, factor, min_pixels, max_pixels)`, image_preprocessor_qwen2vl.hpp L32-61.
`none`: the error exit. `std::round` of a non-negative number is `⌊x + 1/2⌋`. -/
noncomputable def smartResize (height width factor minP maxP : ℤ) : Option (ℤ × ℤ) :=
  if ((max height width : ℤ) : ℝ) / ((min height width : ℤ) : ℝ) > 200 then none
  else
    let hBar := ⌊(height : ℝ) / factor + 1 / 2⌋ * factor
    let wBar := ⌊(width : ℝ) / factor + 1 / 2⌋ * factor
    let current := hBar * wBar
    if current > maxP then
      let beta := Real.sqrt ((height : ℝ) * width / maxP)
      let newH := max 1 ⌊(height : ℝ) / beta⌋
      let newW := max 1 ⌊(width : ℝ) / beta⌋
      some (max factor (newH / factor * factor), max factor (newW / factor * factor))
    else if current < minP then
      let beta := Real.sqrt ((minP : ℝ) / ((height * width : ℤ) : ℝ))
      let newH := ⌈(height : ℝ) * beta⌉
      let newW := ⌈(width : ℝ) * beta⌉
      some ((newH + factor - 1) / factor * factor, (newW + factor - 1) / factor * factor)
    else some (hBar, wBar)

/-- `⌊x⌋ / f * f` is the largest multiple of `f` not above `x`. -/
theorem down_mult (x : ℝ) (f : ℤ) (hf : 0 < f) :
    ((⌊x⌋ / f * f : ℤ) : ℝ) ≤ x ∧ x < ((⌊x⌋ / f * f : ℤ) : ℝ) + f := by
  have h1 : ⌊x⌋ / f * f ≤ ⌊x⌋ := Int.ediv_mul_le _ (by omega)
  have h2 : ⌊x⌋ + 1 ≤ ⌊x⌋ / f * f + f := by
    have := Int.lt_ediv_add_one_mul_self ⌊x⌋ hf
    rw [add_mul] at this; omega
  constructor
  · exact le_trans (by exact_mod_cast h1) (Int.floor_le x)
  · have h3 := Int.lt_floor_add_one x
    have : ((⌊x⌋ + 1 : ℤ) : ℝ) ≤ ((⌊x⌋ / f * f + f : ℤ) : ℝ) := by exact_mod_cast h2
    push_cast at this
    push_cast
    linarith

/-- `(⌈x⌉ + f - 1) / f * f` is the smallest multiple of `f` not below `x`. -/
theorem up_mult (x : ℝ) (f : ℤ) (hf : 0 < f) :
    x ≤ (((⌈x⌉ + f - 1) / f * f : ℤ) : ℝ) ∧ (((⌈x⌉ + f - 1) / f * f : ℤ) : ℝ) < x + f := by
  have h1 : (⌈x⌉ + f - 1) / f * f ≤ ⌈x⌉ + f - 1 := Int.ediv_mul_le _ (by omega)
  have h2 : ⌈x⌉ ≤ (⌈x⌉ + f - 1) / f * f := by
    have := Int.lt_ediv_add_one_mul_self (⌈x⌉ + f - 1) hf
    rw [add_mul] at this; omega
  constructor
  · exact le_trans (Int.le_ceil x) (by exact_mod_cast h2)
  · have h3 := Int.ceil_lt_add_one x
    have : (((⌈x⌉ + f - 1) / f * f : ℤ) : ℝ) ≤ ((⌈x⌉ + f - 1 : ℤ) : ℝ) := by exact_mod_cast h1
    push_cast at this
    push_cast
    linarith

/-- C113. For every image whose sides differ by a factor of at most 200, and every pixel budget that is not
absurdly small (`K` is any bound on `√(200 min)`): both sides of the target are positive multiples of the patch
block, the number of pixels lies within the budget, and the target is the image scaled by one common factor, up
to less than one block per side. -/
theorem C113_smart_resize_partial (h w f minP maxP K : ℤ) (hh : 0 < h) (hw : 0 < w) (hf : 0 < f)
    (h200 : h ≤ 200 * w) (w200 : w ≤ 200 * h) (hmin : 0 < minP) (hK0 : 0 ≤ K) (hK : 200 * minP ≤ K ^ 2)
    (hup : minP + f ^ 2 + 2 * f * K ≤ maxP) (hmax : 200 * f ^ 2 ≤ maxP) (h4 : 4 * minP ≤ maxP) :
    ∃ h' w', smartResize h w f minP maxP = some (h', w') ∧ f ∣ h' ∧ f ∣ w' ∧ f ≤ h' ∧ f ≤ w' ∧
      minP ≤ h' * w' ∧ h' * w' ≤ maxP ∧
      ∃ s : ℝ, 0 < s ∧ |(h' : ℝ) - s * h| < f ∧ |(w' : ℝ) - s * w| < f := by
  have hhR : (0 : ℝ) < h := by exact_mod_cast hh
  have hwR : (0 : ℝ) < w := by exact_mod_cast hw
  have hfR : (0 : ℝ) < f := by exact_mod_cast hf
  have hminR : (0 : ℝ) < minP := by exact_mod_cast hmin
  have hmaxP : 0 < maxP := by nlinarith
  have hmaxR : (0 : ℝ) < maxP := by exact_mod_cast hmaxP
  have h200R : (h : ℝ) ≤ 200 * w := by exact_mod_cast h200
  have w200R : (w : ℝ) ≤ 200 * h := by exact_mod_cast w200
  have hasp : ¬ ((max h w : ℤ) : ℝ) / ((min h w : ℤ) : ℝ) > 200 := by
    have hm : 0 < min h w := lt_min hh hw
    have hmR : (0 : ℝ) < ((min h w : ℤ) : ℝ) := by exact_mod_cast hm
    rw [gt_iff_lt, not_lt, div_le_iff₀ hmR]
    have : max h w ≤ 200 * min h w := by
      rcases le_total h w with hl | hl
      · rw [max_eq_right hl, min_eq_left hl]; exact w200
      · rw [max_eq_left hl, min_eq_right hl]; exact h200
    exact_mod_cast this
  unfold smartResize
  rw [if_neg hasp]
  simp only []
  set hB := ⌊(h : ℝ) / f + 1 / 2⌋ * f with hhB
  set wB := ⌊(w : ℝ) / f + 1 / 2⌋ * f with hwB
  split_ifs with hc1 hc2
  · -- shrink
    set β := Real.sqrt ((h : ℝ) * w / maxP) with hβ
    have hq : (0 : ℝ) < (h : ℝ) * w / maxP := by positivity
    have hβ0 : 0 < β := Real.sqrt_pos.mpr hq
    have hβ2 : β ^ 2 = (h : ℝ) * w / maxP := Real.sq_sqrt hq.le
    have hprod : (h / β : ℝ) * (w / β) = maxP := by
      rw [div_mul_div_comm, ← sq, hβ2]; field_simp
    set x := (h : ℝ) / β
    set y := (w : ℝ) / β
    have hx0 : 0 < x := by positivity
    have hy0 : 0 < y := by positivity
    have hxy : x ≤ 200 * y := by
      show (h : ℝ) / β ≤ 200 * (w / β)
      rw [← mul_div_assoc]; gcongr
    have hyx : y ≤ 200 * x := by
      show (w : ℝ) / β ≤ 200 * (h / β)
      rw [← mul_div_assoc]; gcongr
    have hmaxR2 : 200 * (f : ℝ) ^ 2 ≤ maxP := by exact_mod_cast hmax
    have hfx : (f : ℝ) ≤ x := by
      by_contra hlt
      rw [not_le] at hlt
      nlinarith
    have hfy : (f : ℝ) ≤ y := by
      by_contra hlt
      rw [not_le] at hlt
      nlinarith
    have e1 : f ≤ ⌊x⌋ := Int.le_floor.mpr hfx
    have e2 : f ≤ ⌊y⌋ := Int.le_floor.mpr hfy
    have m1 : max 1 ⌊x⌋ = ⌊x⌋ := max_eq_right (by omega)
    have m2 : max 1 ⌊y⌋ = ⌊y⌋ := max_eq_right (by omega)
    have g1 : f ≤ ⌊x⌋ / f * f := by
      have : 1 ≤ ⌊x⌋ / f := (Int.le_ediv_iff_mul_le hf).mpr (by omega)
      nlinarith
    have g2 : f ≤ ⌊y⌋ / f * f := by
      have : 1 ≤ ⌊y⌋ / f := (Int.le_ediv_iff_mul_le hf).mpr (by omega)
      nlinarith
    rw [m1, m2, max_eq_right g1, max_eq_right g2]
    obtain ⟨d1, d2⟩ := down_mult x f hf
    obtain ⟨d3, d4⟩ := down_mult y f hf
    have g1R : (f : ℝ) ≤ ((⌊x⌋ / f * f : ℤ) : ℝ) := by exact_mod_cast g1
    have g2R : (f : ℝ) ≤ ((⌊y⌋ / f * f : ℤ) : ℝ) := by exact_mod_cast g2
    have v1 : f ∣ ⌊x⌋ / f * f := Dvd.intro_left _ rfl
    have v2 : f ∣ ⌊y⌋ / f * f := Dvd.intro_left _ rfl
    generalize ⌊x⌋ / f * f = P at *
    generalize ⌊y⌋ / f * f = Q at *
    refine ⟨P, Q, rfl, v1, v2, g1, g2, ?_, ?_, 1 / β, by positivity, ?_, ?_⟩
    · have h4R : 4 * (minP : ℝ) ≤ maxP := by exact_mod_cast h4
      have : (minP : ℝ) ≤ (P : ℝ) * Q := by
        have a1 : x / 2 ≤ P := by linarith
        have a2 : y / 2 ≤ Q := by linarith
        have : x / 2 * (y / 2) ≤ P * Q := mul_le_mul a1 a2 (by positivity) (by linarith)
        linarith [hprod]
      exact_mod_cast this
    · have : (P : ℝ) * Q ≤ maxP := by
        rw [← hprod]; exact mul_le_mul d1 d3 (by linarith) hx0.le
      exact_mod_cast this
    · have : 1 / β * h = x := by show 1 / β * h = h / β; ring
      rw [this, abs_lt]; constructor <;> linarith
    · have : 1 / β * w = y := by show 1 / β * w = w / β; ring
      rw [this, abs_lt]; constructor <;> linarith
  · -- grow
    set β := Real.sqrt ((minP : ℝ) / ((h * w : ℤ) : ℝ)) with hβ
    have hhw : (0 : ℝ) < ((h * w : ℤ) : ℝ) := by push_cast; positivity
    have hq : (0 : ℝ) < (minP : ℝ) / ((h * w : ℤ) : ℝ) := div_pos hminR hhw
    have hβ0 : 0 < β := Real.sqrt_pos.mpr hq
    have hβ2 : β ^ 2 = (minP : ℝ) / ((h * w : ℤ) : ℝ) := Real.sq_sqrt hq.le
    have hprod : (h * β : ℝ) * (w * β) = minP := by
      have : (h * β : ℝ) * (w * β) = h * w * β ^ 2 := by ring
      rw [this, hβ2]; push_cast; field_simp
    have hxs : 1 * β * h = (h : ℝ) * β := by ring
    have hys : 1 * β * w = (w : ℝ) * β := by ring
    have hxy : (h : ℝ) * β ≤ 200 * (w * β) := by nlinarith
    have hyx : (w : ℝ) * β ≤ 200 * (h * β) := by nlinarith
    have hx0 : 0 < (h : ℝ) * β := by positivity
    have hy0 : 0 < (w : ℝ) * β := by positivity
    generalize (h : ℝ) * β = x at *
    generalize (w : ℝ) * β = y at *
    obtain ⟨d1, d2⟩ := up_mult x f hf
    obtain ⟨d3, d4⟩ := up_mult y f hf
    have v1 : f ∣ (⌈x⌉ + f - 1) / f * f := Dvd.intro_left _ rfl
    have v2 : f ∣ (⌈y⌉ + f - 1) / f * f := Dvd.intro_left _ rfl
    generalize (⌈x⌉ + f - 1) / f * f = P at *
    generalize (⌈y⌉ + f - 1) / f * f = Q at *
    have hKR : 200 * (minP : ℝ) ≤ (K : ℝ) ^ 2 := by exact_mod_cast hK
    have hK0R : (0 : ℝ) ≤ K := by exact_mod_cast hK0
    have hxK : x ≤ K := by
      by_contra hlt; rw [not_le] at hlt; nlinarith
    have hyK : y ≤ K := by
      by_contra hlt; rw [not_le] at hlt; nlinarith
    have hP0 : 0 < P := by
      have : (0 : ℝ) < P := by linarith
      exact_mod_cast this
    have hQ0 : 0 < Q := by
      have : (0 : ℝ) < Q := by linarith
      exact_mod_cast this
    refine ⟨P, Q, rfl, v1, v2, Int.le_of_dvd hP0 v1, Int.le_of_dvd hQ0 v2, ?_, ?_, 1 * β, by linarith, ?_, ?_⟩
    · have : (minP : ℝ) ≤ (P : ℝ) * Q := by
        rw [← hprod]; exact mul_le_mul d1 d3 hy0.le (by linarith)
      exact_mod_cast this
    · have hupR : (minP : ℝ) + f ^ 2 + 2 * f * K ≤ maxP := by exact_mod_cast hup
      have : (P : ℝ) * Q ≤ maxP := by
        have a1 : (P : ℝ) * Q ≤ (x + f) * (y + f) := mul_le_mul d2.le d4.le (by linarith) (by linarith)
        nlinarith
      exact_mod_cast this
    · rw [hxs, abs_lt]; constructor <;> linarith
    · rw [hys, abs_lt]; constructor <;> linarith
  · -- keep
    have v1 : f ∣ hB := Dvd.intro_left _ rfl
    have v2 : f ∣ wB := Dvd.intro_left _ rfl
    have n1 : 0 ≤ hB := by
      have : (0 : ℤ) ≤ ⌊(h : ℝ) / f + 1 / 2⌋ := Int.floor_nonneg.mpr (by positivity)
      rw [hhB]; positivity
    have n2 : 0 ≤ wB := by
      have : (0 : ℤ) ≤ ⌊(w : ℝ) / f + 1 / 2⌋ := Int.floor_nonneg.mpr (by positivity)
      rw [hwB]; positivity
    have hp : 0 < hB * wB := by omega
    have p1 : 0 < hB := by
      rcases n1.lt_or_eq with hl | hl
      · exact hl
      · rw [← hl] at hp; simp at hp
    have p2 : 0 < wB := by
      rcases n2.lt_or_eq with hl | hl
      · exact hl
      · rw [← hl] at hp; simp at hp
    have near : ∀ z : ℝ, |((⌊z / f + 1 / 2⌋ * f : ℤ) : ℝ) - 1 * z| < f := by
      intro z
      have a1 := Int.floor_le (z / f + 1 / 2)
      have a2 := Int.lt_floor_add_one (z / f + 1 / 2)
      generalize ((⌊z / f + 1 / 2⌋ : ℤ)) = m at *
      have a3 : (m : ℝ) * f ≤ (z / f + 1 / 2) * f := mul_le_mul_of_nonneg_right a1 hfR.le
      have a4 : (z / f + 1 / 2) * f < ((m : ℝ) + 1) * f := mul_lt_mul_of_pos_right a2 hfR
      have a5 : (z / f + 1 / 2) * f = z + f / 2 := by field_simp
      rw [a5] at a3 a4
      push_cast
      rw [abs_lt]; constructor <;> linarith
    refine ⟨hB, wB, rfl, v1, v2, Int.le_of_dvd p1 v1, Int.le_of_dvd p2 v2, by omega, by omega, 1, one_pos, near h, near w⟩

/-- C113 for the default budgets of the preprocessor and of the tokenizers. -/
theorem C113_defaults (h w maxP : ℤ) (hh : 0 < h) (hw : 0 < w) (h200 : h ≤ 200 * w) (w200 : w ≤ 200 * h)
    (hm : maxP = 14 * 14 * 4 * 1280 ∨ maxP = 28 * 28 * 256) :
    ∃ h' w', smartResize h w 28 (56 * 56) maxP = some (h', w') ∧ 28 ∣ h' ∧ 28 ∣ w' ∧ 28 ≤ h' ∧ 28 ≤ w' ∧
      56 * 56 ≤ h' * w' ∧ h' * w' ≤ maxP ∧
      ∃ s : ℝ, 0 < s ∧ |(h' : ℝ) - s * h| < 28 ∧ |(w' : ℝ) - s * w| < 28 := by
  have := C113_smart_resize_partial h w 28 (56 * 56) maxP 792 hh hw (by norm_num) h200 w200 (by norm_num)
    (by norm_num) (by norm_num) (by rcases hm with rfl | rfl <;> norm_num)
    (by rcases hm with rfl | rfl <;> norm_num) (by rcases hm with rfl | rfl <;> norm_num)
  simpa using this

/-- C113. An image with sides further apart is refused. -/
theorem C113_refuses (h w f minP maxP : ℤ) (hh : 0 < h) (hw : 0 < w) (hr : 200 * w < h ∨ 200 * h < w) :
    smartResize h w f minP maxP = none := by
  unfold smartResize
  rw [if_pos]
  have hm : 0 < min h w := lt_min hh hw
  have hmR : (0 : ℝ) < ((min h w : ℤ) : ℝ) := by exact_mod_cast hm
  rw [gt_iff_lt, lt_div_iff₀ hmR]
  have : 200 * min h w < max h w := by
    rcases le_total h w with hl | hl
    · rw [max_eq_right hl, min_eq_left hl]; omega
    · rw [max_eq_left hl, min_eq_right hl]; omega
  exact_mod_cast this

/-- C113 is violated for small custom budgets: the clamp to one block per side can exceed `max_pixels`. -/
theorem C113_small_budget_violated : smartResize 28 2800 28 784 784 = some (28, 280) ∧ ¬ (28 * 280 : ℤ) ≤ 784 := by
  refine ⟨?_, by norm_num⟩
  unfold smartResize
  rw [if_neg (by norm_num)]
  have e1 : ⌊((28 : ℤ) : ℝ) / ((28 : ℤ) : ℝ) + 1 / 2⌋ = 1 := by rw [Int.floor_eq_iff]; norm_num
  have e2 : ⌊((2800 : ℤ) : ℝ) / ((28 : ℤ) : ℝ) + 1 / 2⌋ = 100 := by rw [Int.floor_eq_iff]; norm_num
  have e3 : Real.sqrt (((28 : ℤ) : ℝ) * ((2800 : ℤ) : ℝ) / ((784 : ℤ) : ℝ)) = 10 := by
    rw [show ((28 : ℤ) : ℝ) * ((2800 : ℤ) : ℝ) / ((784 : ℤ) : ℝ) = 10 ^ 2 by norm_num]
    exact Real.sqrt_sq (by norm_num)
  have e4 : ⌊((28 : ℤ) : ℝ) / 10⌋ = 2 := by rw [Int.floor_eq_iff]; norm_num
  have e5 : ⌊((2800 : ℤ) : ℝ) / 10⌋ = 280 := by rw [Int.floor_eq_iff]; norm_num
  simp only [e1, e2, e3, e4, e5]
  norm_num

/-- Hypotheses are met: a photograph of 3000 × 4000 pixels. -/
example : ∃ h' w', smartResize 3000 4000 28 (56 * 56) (28 * 28 * 256) = some (h', w') ∧ 28 ∣ h' ∧ 28 ≤ w' := by
  obtain ⟨a, b, h1, h2, -, -, h5, -⟩ := C113_defaults 3000 4000 (28 * 28 * 256) (by norm_num) (by norm_num) (by norm_num)
    (by norm_num) (.inr rfl)
  exact ⟨a, b, h1, h2, h5⟩

end Verif.Vl
