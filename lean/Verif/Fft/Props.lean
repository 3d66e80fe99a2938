import Verif.Fft.StftLemmas

/-!
# C172: the fast transforms compute the discrete Fourier transform

`dft` (Radix.lean) is the specification: the sum of `x i * exp(∓ 2 π I i k / n)`.
-/

namespace Verif.Fft

open Complex Finset

/-- Radix-2, complex input in place: forward and inverse, every power of two up to 2^32. -/
theorem C172_radix2_complex (x : Nat → ℂ) {m : Nat} (hm : m ≤ 32) {k : Nat} (hk : k < 2 ^ m) :
    fftRadix2Complex x (2 ^ m) false k = ∑ i ∈ range (2 ^ m), x i * exp (-(2 * Real.pi * I * i * k / (2 ^ m : Nat))) ∧
    fftRadix2Complex x (2 ^ m) true k = (∑ i ∈ range (2 ^ m), x i * exp (2 * Real.pi * I * i * k / (2 ^ m : Nat))) / (2 ^ m : Nat) := by
  rw [radix_complex false hm x hk, radix_complex true hm x hk]
  simp only [dft, if_true, if_false, Bool.false_eq_true]
  constructor
  · apply sum_congr rfl
    intro i _
    congr 2
    ring
  · congr 1
    apply sum_congr rfl
    intro i _
    congr 2
    ring

/-- Radix-2, real input of `size` values; missing values count as zero. -/
theorem C172_radix2_real (x : Nat → ℝ) (size : Nat) (out : Nat → ℂ) {m : Nat} (hm : m ≤ 32) {k : Nat} (hk : k < 2 ^ m) :
    fftRadix2 x size (2 ^ m) out false k =
      ∑ i ∈ range (2 ^ m), (if i < size then (x i : ℂ) else 0) * exp (-(2 * Real.pi * I * i * k / (2 ^ m : Nat))) ∧
    fftRadix2 x size (2 ^ m) out true k =
      (∑ i ∈ range (2 ^ m), (if i < size then (x i : ℂ) else 0) * exp (2 * Real.pi * I * i * k / (2 ^ m : Nat))) / (2 ^ m : Nat) := by
  rw [radix_real false hm x size out hk, radix_real true hm x size out hk]
  simp only [dft, if_true, if_false, Bool.false_eq_true]
  constructor
  · apply sum_congr rfl
    intro i _
    congr 2
    ring
  · congr 1
    apply sum_congr rfl
    intro i _
    congr 2
    ring

/-- Any other length: Bluestein's transform, forward and inverse. -/
theorem C172_bluestein (x : Nat → ℂ) (size : Nat) {n : Nat} (hn : 0 < n) (h30 : n ≤ 2 ^ 30) {k : Nat} (hk : k < n) :
    fftBluestein x size n false k = ∑ i ∈ range n, (if i < size then x i else 0) * exp (-(2 * Real.pi * I * i * k / n)) ∧
    fftBluestein x size n true k = (∑ i ∈ range n, (if i < size then x i else 0) * exp (2 * Real.pi * I * i * k / n)) / n := by
  rw [bluestein false x size hn h30 hk, bluestein true x size hn h30 hk]
  simp only [dft, if_true, if_false, Bool.false_eq_true]
  constructor
  · apply sum_congr rfl
    intro i _
    congr 2
    ring
  · congr 1
    apply sum_congr rfl
    intro i _
    congr 2
    ring

/-- The dispatch: `is_power_of_2` accepts exactly the powers of two. -/
theorem C172_power_of_two (n : Nat) : isPow2 n = true ↔ ∃ m, n = 2 ^ m := isPow2_iff

/-- The inverse undoes the transform, in both implementations. -/
theorem C172_inverse (x : Nat → ℂ) {n : Nat} (hn : 0 < n) (h30 : n ≤ 2 ^ 30) {i : Nat} (hi : i < n) :
    fftBluestein (fftBluestein x n n false) n n true i = x i ∧
    ∀ m, n = 2 ^ m → fftRadix2Complex (fftRadix2Complex x n false) n true i = x i := by
  constructor
  · have h : ∀ k, k < n → (if k < n then fftBluestein x n n false k else 0) = dft false n x k := by
      intro k hk
      rw [if_pos hk, bluestein false x n hn h30 hk]
      simp only [Bool.false_eq_true, if_false]
      exact dft_congr false (fun i hi => if_pos hi) k
    rw [bluestein true _ n hn h30 hi, if_pos rfl, dft_congr true h]
    exact dft_inverse hn x hi
  · rintro m rfl
    have hm : m ≤ 32 := by
      by_contra hc
      have : 2 ^ 33 ≤ 2 ^ m := Nat.pow_le_pow_right (by decide) (by omega)
      omega
    have h : ∀ k, k < 2 ^ m → fftRadix2Complex x (2 ^ m) false k = dft false (2 ^ m) x k := by
      intro k hk
      rw [radix_complex false hm x hk]
      simp
    rw [radix_complex true hm _ hi, if_pos rfl, dft_congr true h]
    exact dft_inverse hn x hi

/-- The two implementations agree where both apply. -/
theorem C172_agree (x : Nat → ℂ) (inverse : Bool) {m : Nat} (hm : m ≤ 30) {k : Nat} (hk : k < 2 ^ m) :
    fftRadix2Complex x (2 ^ m) inverse k = fftBluestein x (2 ^ m) (2 ^ m) inverse k := by
  have h30 : 2 ^ m ≤ 2 ^ 30 := Nat.pow_le_pow_right (by decide) hm
  rw [radix_complex inverse (by omega) x hk, bluestein inverse x _ (by positivity) h30 hk]
  rw [dft_congr true (fun i hi => if_pos hi), dft_congr false (fun i hi => if_pos hi)]

/-- Four points of a square wave: only the odd frequencies. -/
example : fftRadix2Complex (fun i => if i < 2 then 1 else -1) (2 ^ 2) false 2 = 0 := by
  rw [(C172_radix2_complex _ (by decide) (by decide)).1]
  have h1 : exp (-(2 * Real.pi * I * (1 : Nat) * (2 : Nat) / (2 ^ 2 : Nat))) = -1 := by
    rw [show (-(2 * (Real.pi : ℂ) * I * (1 : Nat) * (2 : Nat) / (2 ^ 2 : Nat))) = -(Real.pi * I) by push_cast; ring, exp_neg, exp_pi_mul_I]
    norm_num
  have h2 : exp (-(2 * Real.pi * I * (2 : Nat) * (2 : Nat) / (2 ^ 2 : Nat))) = 1 := by
    rw [show (-(2 * (Real.pi : ℂ) * I * (2 : Nat) * (2 : Nat) / (2 ^ 2 : Nat))) = -(2 * Real.pi * I) by push_cast; ring, exp_neg, exp_two_pi_mul_I]
    norm_num
  have h3 : exp (-(2 * Real.pi * I * (3 : Nat) * (2 : Nat) / (2 ^ 2 : Nat))) = -1 := by
    rw [show (-(2 * (Real.pi : ℂ) * I * (3 : Nat) * (2 : Nat) / (2 ^ 2 : Nat))) = -(2 * Real.pi * I) + -(Real.pi * I) by push_cast; ring,
      exp_add, exp_neg, exp_neg, exp_two_pi_mul_I, exp_pi_mul_I]
    norm_num
  rw [show (2 ^ 2 : Nat) = 3 + 1 from rfl, sum_range_succ, sum_range_succ, sum_range_succ, sum_range_one]
  rw [show (3 + 1 : Nat) = 2 ^ 2 from rfl, h1, h2, h3]
  norm_num

/-- Three points, where the convolution has length eight. -/
example : nextPowerOf2 (2 * 3 - 1) = 8 ∧ isPow2 3 = false ∧ isPow2 400 = false ∧ isPow2 512 = true := by decide +kernel

/-- The constant term is the sum. -/
example (x : Nat → ℂ) : fftBluestein x 3 3 false 0 = x 0 + x 1 + x 2 := by
  rw [(C172_bluestein x 3 (by decide) (by decide) (by decide)).1]
  simp [sum_range_succ]

end Verif.Fft
