import Verif.Fft.Radix
import Mathlib.RingTheory.RootsOfUnity.Complex
import Mathlib.Algebra.Ring.GeomSum

/-!
# Bluestein's transform
-/

namespace Verif.Fft

open Complex Finset

/-! ## The length -/

theorem nextPow_spec : ∀ (fuel y a : Nat), y < 2 ^ (a + fuel) → ∃ b, nextPow fuel y (2 ^ a) = 2 ^ b ∧ y < 2 ^ b ∧ (b = a ∨ 2 ^ b ≤ 2 * y)
  | 0, y, a, h => ⟨a, rfl, h, Or.inl rfl⟩
  | fuel + 1, y, a, h => by
    rw [nextPow]
    split_ifs with hc
    · rw [← Nat.pow_succ']
      obtain ⟨b, e, h1, h2⟩ := nextPow_spec fuel y (a + 1) (by rwa [show a + 1 + fuel = a + (fuel + 1) by omega])
      refine ⟨b, e, h1, Or.inr ?_⟩
      rcases h2 with rfl | h2
      · rw [Nat.pow_succ']; omega
      · exact h2
    · exact ⟨a, rfl, by omega, Or.inl rfl⟩

theorem nextPowerOf2_spec {x : Nat} (hx : 0 < x) : ∃ b, nextPowerOf2 x = 2 ^ b ∧ x ≤ 2 ^ b ∧ (b = 0 ∨ 2 ^ b ≤ 2 * x) := by
  have : x - 1 < 2 ^ (0 + x) := by
    have := Nat.lt_two_pow_self (n := x)
    rw [Nat.zero_add]; omega
  obtain ⟨b, e, h1, h2⟩ := nextPow_spec x (x - 1) 0 this
  exact ⟨b, e, by omega, by omega⟩

/-! ## Circular convolution -/

theorem root_inv (n : Nat) : root false n * root true n = 1 := by
  rw [root, root, ← exp_add]
  have : (((if false = true then 1 else -1) * (2 * Real.pi * I) / n + (if true = true then 1 else -1) * (2 * Real.pi * I) / n) : ℂ) = 0 := by
    simp
    ring
  rw [this, exp_zero]

theorem root_primitive {M : Nat} (hM : 0 < M) : IsPrimitiveRoot (root true M) M := by
  have := Complex.isPrimitiveRoot_exp M hM.ne'
  unfold root
  simpa using this

/-- Sums of powers of a root of unity. -/
theorem geom {M : Nat} (hM : 0 < M) (s n : Nat) (hn : n < M) :
    ∑ k ∈ range M, root false M ^ (s * k) * root true M ^ (n * k) = if s % M = n then (M : ℂ) else 0 := by
  have hp := root_primitive hM
  have hinv := root_inv M
  have hf : root false M ^ M = 1 := root_one false hM
  have ht : root true M ^ M = 1 := root_one true hM
  obtain ⟨z, hz⟩ : ∃ z, z = root false M ^ s * root true M ^ n := ⟨_, rfl⟩
  have e : ∀ k, root false M ^ (s * k) * root true M ^ (n * k) = z ^ k := by
    intro k
    rw [pow_mul, pow_mul, ← mul_pow, hz]
  simp only [e]
  have hs : root false M ^ s = root false M ^ (s % M) := by
    conv_lhs => rw [← Nat.div_add_mod s M, pow_add, pow_mul, hf, one_pow, one_mul]
  split_ifs with h
  · have : z = 1 := by rw [hz, hs, h, ← mul_pow, hinv, one_pow]
    simp [this]
  · have hz1 : z ≠ 1 := by
      intro h1
      have hlt := Nat.mod_lt s hM
      -- multiply by the power of the inverse
      have h2 : root true M ^ n = root true M ^ (s % M) := by
        have : root true M ^ (s % M) * z = root true M ^ (s % M) := by rw [h1, mul_one]
        rw [hz, hs, ← mul_assoc, ← mul_pow, mul_comm (root true M), hinv, one_pow, one_mul] at this
        exact this
      exact h (hp.pow_inj hlt hn h2.symm)
    have hzM : z ^ M = 1 := by
      rw [hz, mul_pow, ← pow_mul, ← pow_mul, Nat.mul_comm s, Nat.mul_comm n, pow_mul, pow_mul, hf, ht, one_pow, one_pow, one_mul]
    have := geom_sum_mul z M
    rw [hzM, sub_self] at this
    rcases mul_eq_zero.mp this with h0 | h0
    · exact h0
    · exact absurd (sub_eq_zero.mp h0) hz1

/-- The inverse transform of the product of two transforms is the circular convolution. -/
theorem circular {M : Nat} (hM : 0 < M) (a b : Nat → ℂ) {n : Nat} (hn : n < M) :
    dft true M (fun k => dft false M a k * dft false M b k) n / M = ∑ i ∈ range M, a i * b ((n + M - i) % M) := by
  have hMc : (M : ℂ) ≠ 0 := by exact_mod_cast hM.ne'
  rw [div_eq_iff hMc, dft_root]
  have e1 : ∀ k, dft false M a k * dft false M b k * root true M ^ (k * n) =
      ∑ i ∈ range M, ∑ l ∈ range M, a i * b l * (root false M ^ ((i + l) * k) * root true M ^ (n * k)) := by
    intro k
    rw [dft_root, dft_root, sum_mul_sum, sum_mul]
    apply sum_congr rfl
    intro i _
    rw [sum_mul]
    apply sum_congr rfl
    intro l _
    rw [Nat.add_mul, pow_add, Nat.mul_comm k n]
    ring
  simp only [e1]
  rw [sum_comm, sum_mul]
  apply sum_congr rfl
  intro i hi
  rw [sum_comm]
  have hi' := mem_range.mp hi
  have e2 : ∀ l, ∑ k ∈ range M, a i * b l * (root false M ^ ((i + l) * k) * root true M ^ (n * k)) =
      if (i + l) % M = n then a i * b l * M else 0 := by
    intro l
    rw [← mul_sum, geom hM _ _ hn]
    split_ifs <;> simp
  simp only [e2]
  have hl : (n + M - i) % M < M := Nat.mod_lt _ hM
  rw [sum_eq_single_of_mem ((n + M - i) % M) (mem_range.mpr hl)]
  · rw [if_pos]
    rw [Nat.add_mod_mod, show i + (n + M - i) = n + M by omega, Nat.add_mod_right, Nat.mod_eq_of_lt hn]
  · intro l hlM hne
    rw [if_neg]
    intro heq
    apply hne
    have hl' := mem_range.mp hlM
    rcases Nat.lt_or_ge (i + l) M with h | h
    · rw [Nat.mod_eq_of_lt h] at heq
      rw [show n + M - i = l + M by omega, Nat.add_mod_right, Nat.mod_eq_of_lt hl']
    · rw [Nat.mod_eq_sub_mod h, Nat.mod_eq_of_lt (by omega)] at heq
      rw [show n + M - i = l by omega, Nat.mod_eq_of_lt hl']

/-- The transform and its inverse. -/
theorem dft_inverse {M : Nat} (hM : 0 < M) (x : Nat → ℂ) {n : Nat} (hn : n < M) : dft true M (dft false M x) n / M = x n := by
  have hMc : (M : ℂ) ≠ 0 := by exact_mod_cast hM.ne'
  rw [div_eq_iff hMc, dft_root]
  have e1 : ∀ k, dft false M x k * root true M ^ (k * n) = ∑ i ∈ range M, x i * (root false M ^ (i * k) * root true M ^ (n * k)) := by
    intro k
    rw [dft_root, sum_mul, Nat.mul_comm k n]
    apply sum_congr rfl
    intro i _
    ring
  simp only [e1]
  rw [sum_comm]
  have e2 : ∀ i, ∑ k ∈ range M, x i * (root false M ^ (i * k) * root true M ^ (n * k)) = if i % M = n then x i * M else 0 := by
    intro i
    rw [← mul_sum, geom hM _ _ hn]
    split_ifs <;> simp
  simp only [e2]
  rw [sum_eq_single_of_mem n (mem_range.mpr hn)]
  · rw [if_pos (Nat.mod_eq_of_lt hn)]
  · intro i hi hne
    rw [if_neg]
    rw [Nat.mod_eq_of_lt (mem_range.mp hi)]
    exact hne

/-! ## The kernel -/

theorem kernel_loop (N M : Nat) (hM : 2 * N - 1 ≤ M) (b : Nat → ℂ) : ∀ K, K < N → ∀ p,
    (List.range' 1 K).foldl (fun b n => Function.update b (M - n) (b n)) b p = if M - K ≤ p ∧ p < M then b (M - p) else b p := by
  intro K
  induction K with
  | zero =>
    intro _ p
    rw [if_neg (by omega)]
    rfl
  | succ K ih =>
    intro hK p
    have ih' := ih (by omega)
    rw [List.range'_concat, List.foldl_append, List.foldl_cons, List.foldl_nil, Nat.one_mul, Function.update_apply, ih', ih']
    by_cases hp : p = M - (1 + K)
    · rw [if_pos hp, if_neg (by omega), if_pos (by omega)]
      congr 1
      omega
    · rw [if_neg hp]
      split_ifs <;> first | rfl | (exfalso; omega)

theorem kernel_eq (dir : ℝ) {N M : Nat} (hN : 0 < N) (hM : 2 * N - 1 ≤ M) {p : Nat} :
    kernel dir N M p = if p < N then chirp (-dir) N p else if M < p + N ∧ p < M then chirp (-dir) N (M - p) else 0 := by
  unfold kernel
  rw [kernel_loop N M hM _ (N - 1) (by omega)]
  split_ifs <;> first | rfl | (exfalso; omega)

/-- The kernel at a difference of two indices below `N`. -/
theorem kernel_diff (dir : ℝ) {N M : Nat} (hM : 2 * N - 1 ≤ M) {n i : Nat} (hn : n < N) (hi : i < N) :
    kernel dir N M ((n + M - i) % M) = chirp (-dir) N (if i ≤ n then n - i else i - n) := by
  rw [kernel_eq dir (by omega) hM]
  by_cases h : i ≤ n
  · rw [show n + M - i = (n - i) + M by omega, Nat.add_mod_right, Nat.mod_eq_of_lt (by omega), if_pos (by omega), if_pos h]
  · rw [Nat.mod_eq_of_lt (by omega), if_neg (by omega), if_pos (by omega), if_neg h, show M - (n + M - i) = i - n by omega]

theorem chirp_exp (s : ℝ) (N n : Nat) : chirp s N n = exp (s * Real.pi * n * n / N * I) := by
  unfold chirp
  simp only
  rw [cis]
  push_cast
  rfl

/-- `2 i n = i² + n² - (n - i)²` in the exponents. -/
theorem chirp_product (dir : ℝ) (N n i : Nat) :
    chirp dir N i * chirp (-dir) N (if i ≤ n then n - i else i - n) * chirp dir N n = exp (dir * (2 * Real.pi * I) * i * n / N) := by
  rw [chirp_exp, chirp_exp, chirp_exp, ← exp_add, ← exp_add]
  congr 1
  split_ifs with h
  · obtain ⟨r, rfl⟩ := Nat.exists_eq_add_of_le h
    rw [Nat.add_sub_cancel_left]
    push_cast
    ring
  · obtain ⟨r, rfl⟩ := Nat.exists_eq_add_of_le (Nat.le_of_not_le h)
    rw [Nat.add_sub_cancel_left]
    push_cast
    ring

theorem bluestein (inverse : Bool) (x : Nat → ℂ) (size : Nat) {N : Nat} (hN : 0 < N) (hN30 : N ≤ 2 ^ 30) {k : Nat} (hk : k < N) :
    fftBluestein x size N inverse k =
      if inverse then dft true N (fun i => if i < size then x i else 0) k / N
      else dft false N (fun i => if i < size then x i else 0) k := by
  obtain ⟨m, hm, h1, h2⟩ := nextPowerOf2_spec (x := 2 * N - 1) (by omega)
  have hm32 : m ≤ 32 := by
    rcases h2 with rfl | h2
    · omega
    · by_contra hc
      have : 2 ^ 33 ≤ 2 ^ m := Nat.pow_le_pow_right (by decide) (by omega)
      omega
  have hpos : 0 < 2 ^ m := by positivity
  unfold fftBluestein
  simp only [hm]
  obtain ⟨dir, hdir⟩ : ∃ d : ℝ, d = if inverse then 1 else -1 := ⟨_, rfl⟩
  rw [← hdir]
  obtain ⟨a, ha⟩ : ∃ a : Nat → ℂ, a = fun n => if n < N ∧ n < size then x n * chirp dir N n else 0 := ⟨_, rfl⟩
  rw [← ha]
  have hconv : fftRadix2Complex (fun i => fftRadix2Complex a (2 ^ m) false i * fftRadix2Complex (kernel dir N (2 ^ m)) (2 ^ m) false i) (2 ^ m) true k =
      ∑ i ∈ range (2 ^ m), a i * kernel dir N (2 ^ m) ((k + 2 ^ m - i) % 2 ^ m) := by
    rw [radix_complex true hm32 _ (by omega), if_pos rfl, ← circular hpos a (kernel dir N (2 ^ m)) (n := k) (by omega)]
    congr 1
    unfold dft
    apply sum_congr rfl
    intro i hi
    dsimp only
    rw [radix_complex false hm32 _ (mem_range.mp hi), radix_complex false hm32 _ (mem_range.mp hi)]
    simp [dft]
  rw [hconv]
  have hsum : (∑ i ∈ range (2 ^ m), a i * kernel dir N (2 ^ m) ((k + 2 ^ m - i) % 2 ^ m)) * chirp dir N k =
      dft inverse N (fun i => if i < size then x i else 0) k := by
    unfold dft
    rw [← sum_subset (range_subset_range.mpr (show N ≤ 2 ^ m by omega)), sum_mul]
    · apply sum_congr rfl
      intro i hi
      have hi' := mem_range.mp hi
      rw [kernel_diff dir h1 hk hi', ha]
      simp only [hi', true_and]
      have := chirp_product dir N k i
      have hd : ((dir : ℝ) : ℂ) = if inverse then 1 else -1 := by rw [hdir]; cases inverse <;> simp
      rw [hd] at this
      rw [← this]
      split_ifs <;> ring
    · intro i _ hi
      rw [mem_range] at hi
      rw [ha]
      simp [hi]
  rw [hsum]
  cases inverse <;> simp

end Verif.Fft
