import Verif.Quant.Bytes
import Mathlib.Data.Int.Log
import Mathlib.Algebra.Order.Archimedean.Real.Basic
import Mathlib.Algebra.Order.Floor.Ring
import Mathlib.Algebra.Order.Round
import Mathlib.Tactic.FieldSimp
import Mathlib.Tactic.Positivity

/-!
Half precision scales.

`mllm/core/DataTypes.hpp` L21-26: on Arm `mllm_fp16_t` is the hardware type, elsewhere it is `half_float::half`.
`quantize/quantize.hpp` L70-76 (Arm) and L103-131 (others) define the two conversions used by every kernel.
-/

namespace Verif.Quant

/-- IEEE 754 binary16, finite patterns: the value of the bit pattern `b` (the meaning of `_cvtsh_ss` and of
the hardware type; infinities and NaNs are not modelled). -/
noncomputable def halfVal (b : Nat) : ℝ :=
  (if b / 32768 % 2 = 1 then -1 else 1) *
    (if b / 1024 % 32 = 0 then ((b % 1024 : Nat) : ℝ) * 2 ^ (-24 : Int)
     else ((1024 + b % 1024 : Nat) : ℝ) * 2 ^ ((b / 1024 % 32 : Nat) - 25 : Int))

/-- A finite pattern. -/
def HalfFin (b : Nat) : Prop := b < 65536 ∧ b / 1024 % 32 ≠ 31

/-- A conversion from real (float) to binary16: some pattern, the nearest one when there is no overflow. -/
structure HalfEnc where
  enc : ℝ → Nat
  fin : ∀ x, |x| ≤ 65504 → HalfFin (enc x)
  near : ∀ x, |x| ≤ 65504 → ∀ b, HalfFin b → |x - halfVal (enc x)| ≤ |x - halfVal b|

/-- How a kernel stores a float scale in a block and reads it back. -/
structure Plat where
  store : ℝ → Nat
  load : Nat → ℝ

/-- `quantize.hpp` L72-76: on Arm the two macros are the hardware conversions. -/
noncomputable def arm (h : HalfEnc) : Plat where
  store := h.enc
  load := halfVal

/-- C's conversion of a float to an integer type: truncation. -/
noncomputable def trunc (r : ℝ) : Int := if 0 ≤ r then ⌊r⌋ else ⌈r⌉

/-- `quantize.hpp` L103-131 with `DataTypes.hpp` L25.  `_cvtss_sh` returns the pattern as an `unsigned short`; the
assignment `y.d = …` goes through `half::operator=(float)` (`half.hpp` L2079), so the pattern is converted *as a
number*.  `lookup_fp16_to_fp32(uint16_t)` receives `x.d` through `half::operator float` (`half.hpp` L2073) and the
float-to-`uint16_t` conversion.  Simplification: a negative truncated value, undefined in C++, reads entry 0. -/
noncomputable def x86 (h : HalfEnc) : Plat where
  store := fun d => h.enc (h.enc d : ℝ)
  load := fun b => halfVal (trunc (halfVal b)).toNat

theorem halfVal_zero : halfVal 0 = 0 := by simp [halfVal]

/-- The pattern of a positive normal number. -/
theorem halfVal_normal {e m : Nat} (he : 1 ≤ e) (he2 : e ≤ 30) (hm : m < 1024) :
    halfVal (1024 * e + m) = ((1024 + m : Nat) : ℝ) * 2 ^ ((e : Int) - 25) := by
  unfold halfVal
  have h1 : (1024 * e + m) / 32768 % 2 = 0 := by omega
  have h2 : (1024 * e + m) / 1024 % 32 = e := by omega
  have h3 : (1024 * e + m) % 1024 = m := by omega
  rw [h1, h2, h3, if_neg (by omega), if_neg (by omega), one_mul]

theorem halfFin_normal {e m : Nat} (he2 : e ≤ 30) (hm : m < 1024) : HalfFin (1024 * e + m) := by
  constructor
  · omega
  · omega

theorem halfVal_neg {b : Nat} (hb : b < 32768) : halfVal (b + 32768) = - halfVal b := by
  unfold halfVal
  have h1 : (b + 32768) / 32768 % 2 = 1 := by omega
  have h2 : (b + 32768) / 1024 % 32 = b / 1024 % 32 := by omega
  have h3 : (b + 32768) % 1024 = b % 1024 := by omega
  have h4 : b / 32768 % 2 = 0 := by omega
  rw [h1, h2, h3, h4, if_pos rfl, if_neg (show ¬ (0 : Nat) = 1 by omega)]
  ring

theorem halfFin_neg {b : Nat} (hb : b < 32768) (hf : HalfFin b) : HalfFin (b + 32768) := by
  refine ⟨by omega, ?_⟩
  have := hf.2
  omega

/-- Some pattern is within a relative `2^-11` of every number in the normal range. -/
theorem exists_half {x : ℝ} (h1 : (2 : ℝ) ^ (-14 : Int) ≤ x) (h2 : x ≤ 65504) :
    ∃ b, b < 32768 ∧ HalfFin b ∧ |x - halfVal b| ≤ x * 2 ^ (-11 : Int) := by
  have hx0 : 0 < x := lt_of_lt_of_le (by positivity) h1
  obtain ⟨k, hk⟩ : ∃ k, k = Int.log 2 x := ⟨_, rfl⟩
  have hlo : (2 : ℝ) ^ k ≤ x := by rw [hk]; exact_mod_cast Int.zpow_log_le_self (b := 2) (by norm_num) hx0
  have hhi : x < (2 : ℝ) ^ (k + 1) := by rw [hk]; exact_mod_cast Int.lt_zpow_succ_log_self (b := 2) (by norm_num) x
  have hk1 : -14 ≤ k := by
    by_contra c
    have : (2 : ℝ) ^ (k + 1) ≤ 2 ^ (-14 : Int) := zpow_le_zpow_right₀ (by norm_num) (by omega)
    linarith
  have hk2 : k ≤ 15 := by
    by_contra c
    have : (2 : ℝ) ^ (16 : Int) ≤ 2 ^ k := zpow_le_zpow_right₀ (by norm_num) (by omega)
    norm_num at this
    linarith
  have hu : (0 : ℝ) < 2 ^ (k - 10) := zpow_pos (by norm_num) _
  obtain ⟨r, hr⟩ : ∃ r, r = round (x / 2 ^ (k - 10)) := ⟨_, rfl⟩
  have hrd : |x / 2 ^ (k - 10) - r| ≤ 1 / 2 := by rw [hr]; exact abs_sub_round _
  have hsc : (2 : ℝ) ^ k = 1024 * 2 ^ (k - 10) := by
    rw [show k = (10 : Int) + (k - 10) by ring, zpow_add₀ (by norm_num)]; norm_num
  have hsc2 : (2 : ℝ) ^ (k + 1) = 2048 * 2 ^ (k - 10) := by
    rw [show k + 1 = (11 : Int) + (k - 10) by ring, zpow_add₀ (by norm_num)]; norm_num
  have hq1 : 1024 ≤ x / 2 ^ (k - 10) := by rw [le_div_iff₀ hu, ← hsc]; exact hlo
  have hq2 : x / 2 ^ (k - 10) < 2048 := by rw [div_lt_iff₀ hu, ← hsc2]; exact hhi
  have hr1 : 1024 ≤ r := by
    by_contra c
    have : (r : ℝ) ≤ 1023 := by exact_mod_cast (by omega : r ≤ 1023)
    rw [abs_le] at hrd; linarith
  have hr2 : r ≤ 2048 := by
    by_contra c
    have : (2049 : ℝ) ≤ r := by exact_mod_cast (by omega : 2049 ≤ r)
    rw [abs_le] at hrd; linarith
  have herr : |x - r * 2 ^ (k - 10)| ≤ x * 2 ^ (-11 : Int) := by
    have e : x - r * 2 ^ (k - 10) = (x / 2 ^ (k - 10) - r) * 2 ^ (k - 10) := by field_simp
    rw [e, abs_mul, abs_of_pos hu]
    calc _ ≤ 1 / 2 * 2 ^ (k - 10) := mul_le_mul_of_nonneg_right hrd hu.le
      _ = 2 ^ k * 2 ^ (-11 : Int) := by rw [hsc]; norm_num; ring
      _ ≤ _ := mul_le_mul_of_nonneg_right hlo (by positivity)
  by_cases hlt : r < 2048
  · refine ⟨1024 * (k + 15).toNat + (r - 1024).toNat, by omega, halfFin_normal (by omega) (by omega), ?_⟩
    rw [halfVal_normal (by omega) (by omega) (by omega)]
    have e1 : (((k + 15).toNat : Int)) - 25 = k - 10 := by omega
    have e2 : (((1024 + (r - 1024).toNat : Nat)) : ℝ) = r := by
      have : ((1024 + (r - 1024).toNat : Nat) : Int) = r := by push_cast; omega
      exact_mod_cast this
    rw [e1, e2]; exact herr
  · have hr3 : r = 2048 := by omega
    by_cases hk3 : k = 15
    · exfalso
      rw [hr3, hk3] at hrd
      rw [hk3] at hu hq1
      norm_num at hrd
      rw [abs_le] at hrd
      linarith
    refine ⟨1024 * (k + 16).toNat + 0, by omega, halfFin_normal (by omega) (by omega), ?_⟩
    rw [halfVal_normal (by omega) (by omega) (by omega)]
    have e1 : (((k + 16).toNat : Int)) - 25 = k - 9 := by omega
    rw [e1]
    have e3 : ((1024 + 0 : Nat) : ℝ) * 2 ^ (k - 9) = r * 2 ^ (k - 10) := by
      rw [hr3, show k - 9 = 1 + (k - 10) by ring, zpow_add₀ (by norm_num)]; push_cast; ring
    rw [e3]; exact herr

/-- Storing a scale of normal size in half precision and reading it back loses at most one part in 2048. -/
theorem arm_scale (h : HalfEnc) {d : ℝ} (h1 : (2 : ℝ) ^ (-14 : Int) ≤ |d|) (h2 : |d| ≤ 65504) :
    |(arm h).load ((arm h).store d) - d| ≤ |d| * 2 ^ (-11 : Int) := by
  rw [abs_sub_comm]
  obtain ⟨b, hb, hf, he⟩ := exists_half h1 h2
  rcases le_or_gt 0 d with hd | hd
  · rw [abs_of_nonneg hd] at he ⊢
    exact (h.near d h2 b hf).trans he
  · rw [abs_of_neg hd] at he ⊢
    refine (h.near d h2 _ (halfFin_neg hb hf)).trans ?_
    rw [halfVal_neg hb]
    have e : d - -halfVal b = -(-d - halfVal b) := by ring
    rw [e, abs_neg]
    exact he

theorem arm_zero (h : HalfEnc) : (arm h).load ((arm h).store 0) = 0 := by
  have := h.near 0 (by norm_num) 0 ⟨by norm_num, by norm_num⟩
  rw [halfVal_zero] at this
  have e : halfVal (h.enc 0) = 0 := by simpa using this
  exact e

/-- On x86 a scale smaller than one reads as zero. -/
theorem x86_small (h : HalfEnc) {b : Nat} (hb : |halfVal b| < 1) : (x86 h).load b = 0 := by
  have : trunc (halfVal b) = 0 := by
    rw [abs_lt] at hb
    unfold trunc
    split
    · rw [Int.floor_eq_iff]; constructor <;> push_cast <;> linarith
    · rw [Int.ceil_eq_iff]; constructor <;> push_cast <;> linarith
  show halfVal (trunc (halfVal b)).toNat = 0
  rw [this]; exact halfVal_zero

/-- Such a conversion exists. -/
theorem halfEnc_exists : Nonempty HalfEnc := by
  classical
  have key : ∀ x : ℝ, ∃ b, HalfFin b ∧ ∀ c, HalfFin c → |x - halfVal b| ≤ |x - halfVal c| := by
    intro x
    have hne : ((Finset.range 65536).filter HalfFin).Nonempty :=
      ⟨0, by simp [HalfFin]⟩
    obtain ⟨b, hb, hmin⟩ := Finset.exists_min_image _ (fun b => |x - halfVal b|) hne
    refine ⟨b, (Finset.mem_filter.mp hb).2, fun c hc => hmin c ?_⟩
    exact Finset.mem_filter.mpr ⟨Finset.mem_range.mpr hc.1, hc⟩
  exact ⟨⟨fun x => Classical.choose (key x), fun x _ => (Classical.choose_spec (key x)).1,
    fun x _ b hb => (Classical.choose_spec (key x)).2 b hb⟩⟩

end Verif.Quant
