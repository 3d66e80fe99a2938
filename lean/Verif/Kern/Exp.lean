import Verif.Prelude
import Mathlib.Analysis.SpecialFunctions.Pow.Real
import Mathlib.Analysis.Complex.ExponentialBounds

/-!
The vectorised exponential: `backends/cpu/kernels/arm/math.hpp` L62-119, `backends/cpu/kernels/x86/math.hpp` L18-71.

Real arithmetic: the rounding of each `float` operation is not modelled; the constants are the ones written (on x86 the
`float` values of `log2e_v` and `ln2_v`).
-/

namespace Verif.Kern

/-- The constants in which the two builds differ. -/
structure ExpConst where
  log2e : ℝ
  c1 : ℝ
  c2 : ℝ

/-- arm `math.hpp` L64-67. -/
noncomputable def armExp : ExpConst := ⟨1.44269504088896341, 0.693359375, -2.12194440e-4⟩

/-- x86 `math.hpp` L23-25: `std::numbers::log2e_v<float>`, `std::numbers::ln2_v<float>`. -/
noncomputable def x86Exp : ExpConst := ⟨1.44269502162933349609375, 0.693147182464599609375, -2.12194440e-4⟩

/-- `c_exp_hi`, arm `math.hpp` L62-63, x86 L21-22. -/
noncomputable def expHi : ℝ := 88.3762626647949

/-- The polynomial, arm `math.hpp` L97-107, x86 L54-63: `vmlaq_f32(a, b, c) = a + b * c`. -/
noncomputable def expPoly (x : ℝ) : ℝ :=
  let y := 1.9875691500E-4
  let y := 1.3981999507E-3 + y * x
  let y := 8.3334519073E-3 + y * x
  let y := 4.1665795894E-2 + y * x
  let y := 1.6666665459E-1 + y * x
  let y := 5.0000001201E-1 + y * x
  let y := x + y * (x * x)
  y + 1

/-- The `float` with the bits `(n + 127) << 23`, arm `math.hpp` L110-115, x86 L65-70, for `-127 ≤ n ≤ 127`: an exponent
field of zero is the number zero. -/
noncomputable def pow2n (n : ℤ) : ℝ := if -126 ≤ n then 2 ^ n else 0

/-- The exponent, arm `math.hpp` L80-91 (truncate, then subtract one if that went up), x86 L39-49. -/
noncomputable def expN (k : ExpConst) (x : ℝ) : ℤ := ⌊0.5 + x * k.log2e⌋

/-- `vexpq_fast_f32`, one lane. -/
noncomputable def fastExp (k : ExpConst) (x : ℝ) : ℝ :=
  let x := max (min x expHi) (-expHi)
  let n := expN k x
  let r := x - n * k.c1 - n * k.c2
  expPoly r * pow2n n

/-! ### Proofs -/

theorem log_two_lo : 0.6931471803 < Real.log 2 := Real.log_two_gt_d9
theorem log_two_hi : Real.log 2 < 0.6931471808 := Real.log_two_lt_d9

/-- The polynomial is close to `exp` on the reduced range. -/
theorem expPoly_close {r : ℝ} (h : |r| ≤ 0.375) : |expPoly r - Real.exp r| ≤ 7e-8 := by
  have hb := Real.exp_bound (x := r) (by norm_num at h ⊢; linarith) (n := 8) (by norm_num)
  have hp : ∀ k : ℕ, |r ^ k| ≤ 0.375 ^ k := fun k => by
    rw [abs_pow]; exact pow_le_pow_left₀ (abs_nonneg _) h k
  have h8 : |r| ^ 8 ≤ 0.375 ^ 8 := pow_le_pow_left₀ (abs_nonneg _) h 8
  have h2 := abs_le.mp (hp 2)
  have h3 := abs_le.mp (hp 3)
  have h4 := abs_le.mp (hp 4)
  have h5 := abs_le.mp (hp 5)
  have h6 := abs_le.mp (hp 6)
  have h7 := abs_le.mp (hp 7)
  simp only [Finset.sum_range_succ, Finset.sum_range_zero, Nat.factorial] at hb
  have hb' := abs_le.mp hb
  have e : expPoly r = 1 + r + 5.0000001201E-1 * r ^ 2 + 1.6666665459E-1 * r ^ 3 + 4.1665795894E-2 * r ^ 4 +
      8.3334519073E-3 * r ^ 5 + 1.3981999507E-3 * r ^ 6 + 1.9875691500E-4 * r ^ 7 := by
    unfold expPoly; ring
  rw [e]
  norm_num at hb' h2 h3 h4 h5 h6 h7 h8 ⊢
  rw [abs_le]
  constructor <;> linarith [hb'.1, hb'.2, h2.1, h2.2, h3.1, h3.2, h4.1, h4.2, h5.1, h5.2, h6.1, h6.2, h7.1, h7.2]

theorem exp_low {r : ℝ} (h : |r| ≤ 0.375) : 0.625 ≤ Real.exp r := by
  have := Real.add_one_le_exp r
  have := (abs_le.mp h).1
  linarith

theorem expPoly_rel {r : ℝ} (h : |r| ≤ 0.375) : |expPoly r - Real.exp r| ≤ 1.2e-7 * Real.exp r := by
  have h1 := expPoly_close h
  have h2 := exp_low h
  norm_num at h1 h2 ⊢
  linarith

/-- What the range reduction loses per power of two. -/
noncomputable def ExpConst.drift (k : ExpConst) : ℝ := Real.log 2 - k.c1 - k.c2

/-- The constants are good enough for the range reduction. -/
structure ExpConst.Ok (k : ExpConst) : Prop where
  log2e : |1 - k.log2e * Real.log 2| ≤ 2e-8
  lo : 1.442695 ≤ k.log2e
  hi : k.log2e ≤ 1.44269505
  drift : |k.drift| ≤ 2.122e-4

theorem armExp_ok : armExp.Ok := by
  have h1 := log_two_lo
  have h2 := log_two_hi
  constructor
  · unfold armExp; rw [abs_le]; constructor <;> norm_num at * <;> linarith
  · norm_num [armExp]
  · norm_num [armExp]
  · unfold ExpConst.drift armExp; rw [abs_le]; constructor <;> norm_num at * <;> linarith

theorem armExp_drift : |armExp.drift| ≤ 5e-10 := by
  have h1 := log_two_lo
  have h2 := log_two_hi
  unfold ExpConst.drift armExp; rw [abs_le]; constructor <;> norm_num at * <;> linarith

theorem x86Exp_ok : x86Exp.Ok := by
  have h1 := log_two_lo
  have h2 := log_two_hi
  constructor
  · unfold x86Exp; rw [abs_le]; constructor <;> norm_num at * <;> linarith
  · norm_num [x86Exp]
  · norm_num [x86Exp]
  · unfold ExpConst.drift x86Exp; rw [abs_le]; constructor <;> norm_num at * <;> linarith

theorem x86Exp_drift : 2.1219e-4 ≤ x86Exp.drift := by
  have h1 := log_two_lo
  unfold ExpConst.drift x86Exp; norm_num at *; linarith

theorem expN_range {k : ExpConst} (hk : k.Ok) {x : ℝ} (h1 : -expHi ≤ x) (h2 : x ≤ expHi) : -127 ≤ expN k x ∧ expN k x ≤ 127 := by
  have hh := hk.hi
  have hl := hk.lo
  unfold expHi at h1 h2
  have a1 : x * k.log2e ≤ 88.3762626647949 * k.log2e := mul_le_mul_of_nonneg_right h2 (by linarith)
  have a2 : -88.3762626647949 * k.log2e ≤ x * k.log2e := mul_le_mul_of_nonneg_right (by linarith) (by linarith)
  unfold expN
  constructor
  · rw [Int.le_floor]; push_cast; norm_num at *; linarith
  · rw [← Int.lt_add_one_iff, Int.floor_lt]; push_cast; norm_num at *; linarith

theorem clamp_range (x : ℝ) : -expHi ≤ max (min x expHi) (-expHi) ∧ max (min x expHi) (-expHi) ≤ expHi := by
  have : -expHi ≤ expHi := by norm_num [expHi]
  exact ⟨le_max_right _ _, max_le (min_le_right _ _) this⟩

theorem clamp_id {x : ℝ} (h1 : -expHi ≤ x) (h2 : x ≤ expHi) : max (min x expHi) (-expHi) = x := by
  rw [min_eq_left h2, max_eq_left h1]

/-- The reduced argument. -/
noncomputable def expR (k : ExpConst) (x : ℝ) : ℝ := x - expN k x * k.c1 - expN k x * k.c2

theorem expR_eq (k : ExpConst) (x : ℝ) : expR k x = x - expN k x * Real.log 2 + expN k x * k.drift := by
  unfold expR ExpConst.drift; ring

theorem expR_small {k : ExpConst} (hk : k.Ok) {x : ℝ} (h1 : -expHi ≤ x) (h2 : x ≤ expHi) : |expR k x| ≤ 0.375 := by
  obtain ⟨n1, n2⟩ := expN_range hk h1 h2
  have f1 : (expN k x : ℝ) ≤ 0.5 + x * k.log2e := Int.floor_le _
  have f2 : 0.5 + x * k.log2e < expN k x + 1 := Int.lt_floor_add_one _
  have n1' : (-127 : ℝ) ≤ expN k x := by exact_mod_cast n1
  have n2' : (expN k x : ℝ) ≤ 127 := by exact_mod_cast n2
  generalize (expN k x : ℝ) = n at *
  have hd := hk.drift
  have hq := hk.log2e
  have l1 := log_two_lo
  have l2 := log_two_hi
  have e : expR k x = (x * k.log2e - expN k x) * Real.log 2 + x * (1 - k.log2e * Real.log 2) + expN k x * k.drift := by
    rw [expR_eq]; ring
  have b1 : |(x * k.log2e - expN k x) * Real.log 2| ≤ 0.5 * 0.6931471808 := by
    rw [abs_mul]
    refine mul_le_mul ?_ ?_ (abs_nonneg _) (by norm_num)
    · have g1 : (expN k x : ℝ) ≤ 0.5 + x * k.log2e := Int.floor_le _
      have g2 : 0.5 + x * k.log2e < expN k x + 1 := Int.lt_floor_add_one _
      rw [abs_le]; constructor <;> norm_num at * <;> linarith
    · rw [abs_of_pos (by linarith)]; exact l2.le
  have b2 : |x * (1 - k.log2e * Real.log 2)| ≤ 88.4 * 2e-8 := by
    rw [abs_mul]
    refine mul_le_mul ?_ hq (abs_nonneg _) (by norm_num)
    unfold expHi at h1 h2
    rw [abs_le]; constructor <;> norm_num at * <;> linarith
  have b3 : |(expN k x : ℝ) * k.drift| ≤ 127 * 2.122e-4 := by
    rw [abs_mul]
    refine mul_le_mul ?_ hd (abs_nonneg _) (by norm_num)
    rw [abs_le]
    constructor
    · have : (-127 : ℝ) ≤ expN k x := by exact_mod_cast n1
      linarith
    · exact_mod_cast n2
  rw [e]
  refine (abs_add_three _ _ _).trans ?_
  norm_num at *
  linarith

theorem fastExp_eq {k : ExpConst} {x : ℝ} (h1 : -expHi ≤ x) (h2 : x ≤ expHi) :
    fastExp k x = expPoly (expR k x) * pow2n (expN k x) := by
  unfold fastExp
  simp only [clamp_id h1 h2]
  rfl

theorem two_zpow_eq (n : ℤ) : (2 : ℝ) ^ n = Real.exp (n * Real.log 2) := by
  rw [mul_comm, Real.exp_mul, Real.exp_log (by norm_num), Real.rpow_intCast]

/-- Up to the drift, the result has relative error `1.2e-7`. -/
theorem fastExp_drift {k : ExpConst} (hk : k.Ok) {x : ℝ} (h1 : -expHi ≤ x) (h2 : x ≤ expHi) (hn : -126 ≤ expN k x) :
    |fastExp k x - Real.exp x * Real.exp (expN k x * k.drift)| ≤ 1.2e-7 * (Real.exp x * Real.exp (expN k x * k.drift)) := by
  rw [fastExp_eq h1 h2]
  unfold pow2n
  rw [if_pos hn, two_zpow_eq]
  have he : Real.exp x * Real.exp (expN k x * k.drift) = Real.exp (expR k x) * Real.exp (expN k x * Real.log 2) := by
    rw [← Real.exp_add, ← Real.exp_add, expR_eq]; congr 1; ring
  rw [he, ← sub_mul, abs_mul, abs_of_pos (Real.exp_pos (expN k x * Real.log 2)), ← mul_assoc]
  exact mul_le_mul_of_nonneg_right (expPoly_rel (expR_small hk h1 h2)) (Real.exp_pos _).le

theorem fastExp_nonneg {k : ExpConst} (hk : k.Ok) (x : ℝ) : 0 ≤ fastExp k x := by
  obtain ⟨h1, h2⟩ := clamp_range x
  have e : fastExp k x = fastExp k (max (min x expHi) (-expHi)) := by
    unfold fastExp; simp only [clamp_id h1 h2]
  rw [e, fastExp_eq h1 h2]
  have hr := expR_small hk h1 h2
  have hp := (abs_le.mp (expPoly_close hr)).1
  have hl := exp_low hr
  refine mul_nonneg (by norm_num at *; linarith) ?_
  unfold pow2n
  split
  · positivity
  · exact le_refl _

/-- The exponent is in the normal range unless `exp x` is (almost) below the smallest normal `float`. -/
theorem expN_normal {k : ExpConst} (hk : k.Ok) {x : ℝ} (h : -87.68 ≤ x) : -126 ≤ expN k x := by
  have hh := hk.hi
  have hl := hk.lo
  unfold expN
  rw [Int.le_floor]
  have : -87.68 * k.log2e ≤ x * k.log2e := mul_le_mul_of_nonneg_right h (by linarith)
  push_cast
  norm_num at *
  linarith

theorem exp_tiny {x : ℝ} (h : x ≤ -87.4) : Real.exp x ≤ 1.2e-38 := by
  have e : Real.exp x ≤ Real.exp ((-126 : ℤ) * Real.log 2) := by
    apply Real.exp_le_exp.mpr
    have := log_two_hi
    push_cast
    norm_num at *
    linarith
  rw [← two_zpow_eq] at e
  refine e.trans ?_
  norm_num

end Verif.Kern
