import Verif.Fft.Rev

/-!
# The radix-2 transform computes the discrete Fourier transform
-/

namespace Verif.Fft

open Complex Finset

/-- The discrete Fourier transform of `n` values: `∑ x i * exp (∓ 2 π √-1 i k / n)`. -/
noncomputable def dft (inverse : Bool) (n : Nat) (x : Nat → ℂ) (k : Nat) : ℂ :=
  ∑ i ∈ range n, x i * exp ((if inverse then 1 else -1) * (2 * Real.pi * I) * i * k / n)

/-! ## Roots of unity -/

/-- The generator of the factors. -/
noncomputable def root (inverse : Bool) (n : Nat) : ℂ := exp ((if inverse then 1 else -1) * (2 * Real.pi * I) / n)

theorem root_pow (inverse : Bool) (n a : Nat) : root inverse n ^ a = exp ((if inverse then 1 else -1) * (2 * Real.pi * I) * a / n) := by
  rw [root, ← exp_nat_mul]
  congr 1
  ring

theorem dft_root (inverse : Bool) (n : Nat) (x : Nat → ℂ) (k : Nat) : dft inverse n x k = ∑ i ∈ range n, x i * root inverse n ^ (i * k) := by
  unfold dft
  apply sum_congr rfl
  intro i _
  rw [root_pow]
  congr 2
  push_cast
  ring

theorem root_sq (inverse : Bool) {n : Nat} : root inverse (2 * n) ^ 2 = root inverse n := by
  rw [root_pow, root]
  congr 1
  rcases Nat.eq_zero_or_pos n with rfl | hn
  · simp
  · have : (n : ℂ) ≠ 0 := by exact_mod_cast hn.ne'
    push_cast
    field_simp

theorem root_half (inverse : Bool) {n : Nat} (hn : 0 < n) : root inverse (2 * n) ^ n = -1 := by
  have : (n : ℂ) ≠ 0 := by exact_mod_cast hn.ne'
  rw [root_pow]
  have e : ((if inverse then 1 else -1) * (2 * Real.pi * I) * n / (2 * n : Nat) : ℂ) = (if inverse then 1 else -1) * (Real.pi * I) := by
    push_cast
    field_simp
  rw [e]
  cases inverse
  · simp [exp_neg, exp_pi_mul_I]
  · simp [exp_pi_mul_I]

theorem root_one (inverse : Bool) {n : Nat} (hn : 0 < n) : root inverse n ^ n = 1 := by
  have : (n : ℂ) ≠ 0 := by exact_mod_cast hn.ne'
  rw [root_pow]
  have e : ((if inverse then 1 else -1) * (2 * Real.pi * I) * n / n : ℂ) = (if inverse then 1 else -1) * (2 * Real.pi * I) := by
    field_simp
  rw [e]
  cases inverse
  · simp [exp_neg, exp_two_pi_mul_I]
  · simp [exp_two_pi_mul_I]

theorem cis (θ : ℝ) : (⟨Real.cos θ, Real.sin θ⟩ : ℂ) = exp (θ * I) := by
  apply Complex.ext
  · rw [exp_ofReal_mul_I_re]
  · rw [exp_ofReal_mul_I_im]

theorem stage_root (inverse : Bool) {n st : Nat} (hn : 0 < n) (hd : st ∣ n) :
    (⟨Real.cos (velocity n inverse * ((n / st : Nat) : ℝ)), Real.sin (velocity n inverse * ((n / st : Nat) : ℝ))⟩ : ℂ) = root inverse st := by
  rw [cis, root]
  congr 1
  obtain ⟨q, rfl⟩ := hd
  have hst : 0 < st := Nat.pos_of_mul_pos_right hn
  have hq : 0 < q := Nat.pos_of_mul_pos_left hn
  have h1 : (st : ℂ) ≠ 0 := by exact_mod_cast hst.ne'
  have h2 : (q : ℂ) ≠ 0 := by exact_mod_cast hq.ne'
  rw [Nat.mul_div_cancel_left _ hst, velocity]
  cases inverse <;> push_cast <;> simp <;> field_simp

/-! ## One block -/

theorem block_loop (wm : ℂ) (mid j : Nat) (d : Nat → ℂ) : ∀ K, K ≤ mid →
    (List.range K).foldl (fun (s : (Nat → ℂ) × ℂ) k => (butterfly s.2 (j + k) (j + k + mid) s.1, s.2 * wm)) (d, 1) =
      (fun p => if j ≤ p ∧ p < j + K then d p + wm ^ (p - j) * d (p + mid)
        else if j + mid ≤ p ∧ p < j + mid + K then d (p - mid) - wm ^ (p - mid - j) * d p else d p, wm ^ K) := by
  intro K
  induction K with
  | zero =>
    intro _
    simp only [List.range_zero, List.foldl_nil, pow_zero, Prod.mk.injEq, and_true]
    funext p
    rw [if_neg (by omega), if_neg (by omega)]
  | succ K ih =>
    intro hK
    rw [List.range_succ, List.foldl_append, ih (by omega)]
    simp only [List.foldl_cons, List.foldl_nil, Prod.mk.injEq, pow_succ, and_true]
    funext p
    have e1 : ¬ (j ≤ j + K ∧ j + K < j + K) := by omega
    have e2 : ¬ (j + mid ≤ j + K ∧ j + K < j + mid + K) := by omega
    have e3 : ¬ (j ≤ j + K + mid ∧ j + K + mid < j + K) := by omega
    have e4 : ¬ (j + mid ≤ j + K + mid ∧ j + K + mid < j + mid + K) := by omega
    simp only [butterfly, if_neg e1, if_neg e2, if_neg e3, if_neg e4, Function.update_apply]
    by_cases hq : p = j + K + mid
    · subst hq
      rw [if_pos rfl, if_neg (by omega), if_pos (by omega), show j + K + mid - mid = j + K by omega, show j + K - j = K by omega]
    · rw [if_neg hq]
      by_cases hp : p = j + K
      · subst hp
        rw [if_pos rfl, if_pos (by omega), show j + K - j = K by omega]
      · rw [if_neg hp]
        split_ifs <;> first | rfl | (exfalso; omega)

theorem block_eq (wm : ℂ) (mid j : Nat) (d : Nat → ℂ) (p : Nat) :
    block wm mid j d p = if j ≤ p ∧ p < j + mid then d p + wm ^ (p - j) * d (p + mid)
      else if j + mid ≤ p ∧ p < j + mid + mid then d (p - mid) - wm ^ (p - mid - j) * d p else d p := by
  rw [block, block_loop wm mid j d mid (le_refl _)]

/-! ## One stage -/

theorem blocks_loop (wm : ℂ) {mid : Nat} (hm : 0 < mid) (d : Nat → ℂ) : ∀ B p,
    (List.range B).foldl (fun d b => block wm mid (b * (2 * mid)) d) d p =
      if p < B * (2 * mid) then block wm mid (p / (2 * mid) * (2 * mid)) d p else d p := by
  intro B
  induction B with
  | zero => intro p; simp
  | succ B ih =>
    intro p
    rw [List.range_succ, List.foldl_append, List.foldl_cons, List.foldl_nil, block_eq]
    have hstep : (B + 1) * (2 * mid) = B * (2 * mid) + 2 * mid := Nat.succ_mul _ _
    generalize hJ : B * (2 * mid) = J at *
    have hdiv : J ≤ p → p < J + 2 * mid → p / (2 * mid) * (2 * mid) = J := by
      intro h1 h2
      have : p / (2 * mid) = B := by
        apply Nat.div_eq_of_lt_le
        · omega
        · rw [Nat.succ_mul]; omega
      rw [this, hJ]
    by_cases h1 : J ≤ p ∧ p < J + mid
    · rw [if_pos h1, if_pos (by omega), hdiv h1.1 (by omega), block_eq, if_pos h1, ih, ih, if_neg (by omega), if_neg (by omega)]
    · rw [if_neg h1]
      by_cases h2 : J + mid ≤ p ∧ p < J + mid + mid
      · rw [if_pos h2, if_pos (by omega), hdiv (by omega) (by omega), block_eq, if_neg h1, if_pos h2, ih, ih, if_neg (by omega), if_neg (by omega)]
      · rw [if_neg h2, ih]
        by_cases h3 : p < J
        · rw [if_pos h3, if_pos (by omega)]
        · rw [if_neg h3, if_neg (by omega)]

theorem stage_eq (inverse : Bool) {n s m : Nat} (hn : n = 2 ^ m) (hs : s < m) (d : Nat → ℂ) {j k : Nat} (hj : j < 2 ^ (m - (s + 1)))
    (hk : k < 2 ^ (s + 1)) :
    stage n inverse (2 ^ (s + 1)) d (j * 2 ^ (s + 1) + k) =
      if k < 2 ^ s then d (2 * j * 2 ^ s + k) + root inverse (2 ^ (s + 1)) ^ k * d ((2 * j + 1) * 2 ^ s + k)
      else d (2 * j * 2 ^ s + (k - 2 ^ s)) - root inverse (2 ^ (s + 1)) ^ (k - 2 ^ s) * d ((2 * j + 1) * 2 ^ s + (k - 2 ^ s)) := by
  have hdvd : 2 ^ (s + 1) ∣ n := by rw [hn]; exact pow_dvd_pow 2 hs
  have hnpos : 0 < n := by rw [hn]; positivity
  have hB : n / 2 ^ (s + 1) = 2 ^ (m - (s + 1)) := by rw [hn, Nat.pow_div hs (by decide)]
  have h2 : 2 ^ (s + 1) = 2 * 2 ^ s := by rw [pow_succ, Nat.mul_comm]
  have hpos : 0 < 2 ^ s := by positivity
  unfold stage
  simp only [stage_root inverse hnpos hdvd]
  rw [hB]
  have hmid : 2 ^ (s + 1) / 2 = 2 ^ s := by omega
  rw [hmid]
  have := blocks_loop (root inverse (2 ^ (s + 1))) hpos d (2 ^ (m - (s + 1))) (j * 2 ^ (s + 1) + k)
  rw [h2] at this ⊢
  rw [this, if_pos]
  · have hq : (j * (2 * 2 ^ s) + k) / (2 * 2 ^ s) = j := by
      apply Nat.div_eq_of_lt_le
      · omega
      · rw [Nat.succ_mul j]; omega
    rw [hq, block_eq]
    have e1 : 2 * j * 2 ^ s = j * (2 * 2 ^ s) := by ring
    have e2 : (2 * j + 1) * 2 ^ s = j * (2 * 2 ^ s) + 2 ^ s := by ring
    rw [e1, e2]
    generalize j * (2 * 2 ^ s) = J
    by_cases hlt : k < 2 ^ s
    · rw [if_pos (by omega), if_pos hlt, show J + k - J = k by omega, show J + k + 2 ^ s = J + 2 ^ s + k by omega]
    · rw [if_neg (by omega), if_pos (by omega), if_neg hlt, show J + k - 2 ^ s - J = k - 2 ^ s by omega,
        show J + k - 2 ^ s = J + (k - 2 ^ s) by omega, show J + 2 ^ s + (k - 2 ^ s) = J + k by omega]
  · have : (j + 1) * (2 * 2 ^ s) ≤ 2 ^ (m - (s + 1)) * (2 * 2 ^ s) := Nat.mul_le_mul_right _ hj
    rw [Nat.succ_mul j] at this
    omega

/-! ## All stages -/

theorem sum_even_odd (f : Nat → ℂ) : ∀ n, ∑ i ∈ range (2 * n), f i = ∑ i ∈ range n, f (2 * i) + ∑ i ∈ range n, f (2 * i + 1)
  | 0 => by simp
  | n + 1 => by
    rw [show 2 * (n + 1) = 2 * n + 1 + 1 by ring, sum_range_succ, sum_range_succ, sum_even_odd f n, sum_range_succ, sum_range_succ]
    ring

theorem stages_loop (inverse : Bool) {n m : Nat} (hn : n = 2 ^ m) (x d : Nat → ℂ) (h0 : ∀ j, j < 2 ^ m → d j = x (rev m j)) :
    ∀ s, s ≤ m → ∀ j k, j < 2 ^ (m - s) → k < 2 ^ s →
      (List.range s).foldl (fun d s => stage n inverse (2 ^ (s + 1)) d) d (j * 2 ^ s + k) =
        ∑ i ∈ range (2 ^ s), x (rev (m - s) j + 2 ^ (m - s) * i) * root inverse (2 ^ s) ^ (i * k) := by
  intro s
  induction s with
  | zero =>
    intro _ j k hj hk
    obtain rfl : k = 0 := by simpa using hk
    simp [h0 j (by simpa using hj)]
  | succ s ih =>
    intro hs j k hj hk
    rw [List.range_succ, List.foldl_append, List.foldl_cons, List.foldl_nil, stage_eq inverse hn (by omega) _ hj hk]
    obtain ⟨b, hb⟩ : ∃ b, m - s = b + 1 := ⟨m - s - 1, by omega⟩
    have hb' : m - (s + 1) = b := by omega
    rw [hb'] at hj ⊢
    have hj1 : 2 * j < 2 ^ (b + 1) := by rw [pow_succ]; omega
    have hj2 : 2 * j + 1 < 2 ^ (b + 1) := by rw [pow_succ]; omega
    have ih' := ih (by omega)
    rw [hb] at ih'
    have hsq : root inverse (2 ^ (s + 1)) ^ 2 = root inverse (2 ^ s) := by
      rw [show 2 ^ (s + 1) = 2 * 2 ^ s by rw [pow_succ, Nat.mul_comm]]
      exact root_sq inverse
    have hhalf : root inverse (2 ^ (s + 1)) ^ 2 ^ s = -1 := by
      have := root_half inverse (n := 2 ^ s) (by positivity)
      rwa [← Nat.pow_succ'] at this
    -- even and odd halves, for any `k` below the half
    have even : ∀ k, k < 2 ^ s → (List.range s).foldl (fun d s => stage n inverse (2 ^ (s + 1)) d) d (2 * j * 2 ^ s + k) =
        ∑ i ∈ range (2 ^ s), x (rev b j + 2 ^ b * (2 * i)) * root inverse (2 ^ (s + 1)) ^ (2 * i * k) := by
      intro k hk
      rw [ih' _ _ hj1 hk, rev_even]
      apply sum_congr rfl
      intro i _
      rw [← hsq, ← pow_mul, show 2 * (i * k) = 2 * i * k by ring, pow_succ, Nat.mul_assoc]
    have odd : ∀ k, k < 2 ^ s → root inverse (2 ^ (s + 1)) ^ k *
        (List.range s).foldl (fun d s => stage n inverse (2 ^ (s + 1)) d) d ((2 * j + 1) * 2 ^ s + k) =
        ∑ i ∈ range (2 ^ s), x (rev b j + 2 ^ b * (2 * i + 1)) * root inverse (2 ^ (s + 1)) ^ ((2 * i + 1) * k) := by
      intro k hk
      rw [ih' _ _ hj2 hk, rev_odd, mul_sum]
      apply sum_congr rfl
      intro i _
      rw [← hsq, ← pow_mul, show (2 * i + 1) * k = k + 2 * (i * k) by ring, pow_add (root inverse (2 ^ (s + 1))) k,
        show 2 ^ b + rev b j + 2 ^ (b + 1) * i = rev b j + 2 ^ b * (2 * i + 1) by rw [pow_succ]; ring]
      ring
    rw [show 2 ^ (s + 1) = 2 * 2 ^ s by rw [pow_succ, Nat.mul_comm], sum_even_odd, show 2 * 2 ^ s = 2 ^ (s + 1) by rw [pow_succ, Nat.mul_comm]]
    split_ifs with hlt
    · rw [even k hlt, odd k hlt]
    · have hk' : k - 2 ^ s < 2 ^ s := by rw [pow_succ] at hk; omega
      rw [even _ hk', odd _ hk', sub_eq_add_neg, ← sum_neg_distrib]
      obtain ⟨r, rfl⟩ : ∃ r, k = 2 ^ s + r := ⟨k - 2 ^ s, by omega⟩
      rw [Nat.add_sub_cancel_left]
      congr 1
      · apply sum_congr rfl
        intro i _
        rw [show 2 * i * (2 ^ s + r) = 2 ^ s * (2 * i) + 2 * i * r by ring, pow_add (root inverse (2 ^ (s + 1))), pow_mul _ (2 ^ s), hhalf]
        simp
      · apply sum_congr rfl
        intro i _
        rw [show (2 * i + 1) * (2 ^ s + r) = 2 ^ s * (2 * i + 1) + (2 * i + 1) * r by ring, pow_add (root inverse (2 ^ (s + 1))),
          pow_mul _ (2 ^ s), hhalf, pow_succ (-1 : ℂ)]
        simp

theorem stages_eq (inverse : Bool) {n m : Nat} (hn : n = 2 ^ m) (x d : Nat → ℂ) (h0 : ∀ j, j < 2 ^ m → d j = x (rev m j)) {k : Nat} (hk : k < n) :
    stages n m inverse d k = dft inverse n x k := by
  have := stages_loop inverse hn x d h0 m (le_refl _) 0 k (by simp) (by omega)
  rw [Nat.zero_mul, Nat.zero_add] at this
  rw [stages, this, dft_root, hn]
  apply sum_congr rfl
  intro i _
  simp [rev]

/-! ## The swaps -/

theorem swaps_loop {m : Nat} (hm : m ≤ 32) (d : Nat → ℂ) : ∀ K, K ≤ 2 ^ m → ∀ p, p < 2 ^ m →
    (List.range K).foldl (fun d i => let r := bitReverse i m
      if r < 2 ^ m ∧ i < r then Function.update (Function.update d i (d r)) r (d i) else d) d p =
      if p < K ∨ rev m p < K then d (rev m p) else d p := by
  intro K
  induction K with
  | zero => intro _ p _; simp
  | succ K ih =>
    intro hK p hp
    have ih' := ih (by omega)
    rw [List.range_succ, List.foldl_append, List.foldl_cons, List.foldl_nil]
    have hr := bitReverse_eq hm (show K < 2 ^ m by omega)
    have hrlt := rev_lt m K
    have hrr := rev_rev (show K < 2 ^ m by omega)
    have hpp := rev_rev hp
    have hprlt := rev_lt m p
    simp only [hr]
    split_ifs with hc h1 h1
    · -- swapped
      rw [Function.update_apply, Function.update_apply, ih' _ hrlt, ih' K (by omega), hrr]
      by_cases e1 : p = rev m K
      · rw [if_pos e1, if_neg (by omega), e1, hrr]
      · rw [if_neg e1]
        by_cases e2 : p = K
        · rw [if_pos e2, if_neg (by omega), e2]
        · rw [if_neg e2, ih' p hp, if_pos]
          by_contra hcon
          have : rev m p = K := by omega
          apply e1
          rw [← this, hpp]
    · rw [Function.update_apply, Function.update_apply, ih' p hp]
      have e1 : p ≠ rev m K := by rintro rfl; rw [hrr] at h1; omega
      have e2 : p ≠ K := by omega
      rw [if_neg e1, if_neg e2, if_neg (by omega)]
    · rw [ih' p hp]
      by_cases h2 : p < K ∨ rev m p < K
      · rw [if_pos h2]
      · rw [if_neg h2]
        -- `p` or its image is `K`, which is a fixed point or was swapped before
        by_cases e2 : p = K
        · subst e2
          have : rev m p = p := by omega
          rw [this]
        · have e3 : rev m p = K := by omega
          have : p = rev m K := by rw [← e3, hpp]
          omega
    · rw [ih' p hp, if_neg (by omega)]

theorem swaps_eq {m : Nat} (hm : m ≤ 32) (d : Nat → ℂ) {p : Nat} (hp : p < 2 ^ m) : swaps (2 ^ m) m d p = d (rev m p) := by
  have := swaps_loop hm d (2 ^ m) (le_refl _) p hp
  rw [if_pos (Or.inl hp)] at this
  exact this

/-! ## The transforms -/

theorem scaled_apply (inverse : Bool) {n k : Nat} (hk : k < n) (d : Nat → ℂ) : scaled n inverse d k = if inverse then d k / n else d k := by
  unfold scaled
  cases inverse <;> simp [hk]

theorem radix_complex (inverse : Bool) {m : Nat} (hm : m ≤ 32) (x : Nat → ℂ) {k : Nat} (hk : k < 2 ^ m) :
    fftRadix2Complex x (2 ^ m) inverse k = if inverse then dft true (2 ^ m) x k / (2 ^ m : Nat) else dft false (2 ^ m) x k := by
  have hne : 2 ^ m ≠ 0 := by positivity
  unfold fftRadix2Complex
  rw [if_neg hne]
  simp only [Nat.log2_two_pow]
  rw [scaled_apply inverse hk, stages_eq inverse rfl x _ (fun j hj => swaps_eq hm x hj) hk]
  cases inverse <;> simp

theorem radix_real (inverse : Bool) {m : Nat} (hm : m ≤ 32) (x : Nat → ℝ) (size : Nat) (out : Nat → ℂ) {k : Nat} (hk : k < 2 ^ m) :
    fftRadix2 x size (2 ^ m) out inverse k =
      if inverse then dft true (2 ^ m) (fun i => if i < size then (x i : ℂ) else 0) k / (2 ^ m : Nat)
      else dft false (2 ^ m) (fun i => if i < size then (x i : ℂ) else 0) k := by
  unfold fftRadix2
  simp only [Nat.log2_two_pow]
  rw [scaled_apply inverse hk, stages_eq inverse rfl (fun i => if i < size then (x i : ℂ) else 0) _ ?_ hk]
  · cases inverse <;> simp
  · intro j hj
    simp only [if_pos hj, bitReverse_eq hm hj]

end Verif.Fft
