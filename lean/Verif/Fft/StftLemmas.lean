import Verif.Fft.Stft

/-! Facts about the transform of a frame, its inverse, and overlap-add. -/

namespace Verif.Fft

open Complex Finset

theorem isPow2_iff {n : Nat} : isPow2 n = true ↔ ∃ m, n = 2 ^ m := by
  unfold isPow2
  rw [beq_iff_eq]
  constructor
  · intro h
    obtain ⟨a, ha⟩ := List.length_eq_one_iff.mp h
    refine ⟨a, Nat.eq_of_testBit_eq fun i => ?_⟩
    rw [Nat.testBit_two_pow]
    have hmem : ∀ i, (i ∈ (List.range (n.log2 + 1)).filter fun i => n.testBit i) ↔ i = a := by
      intro i
      rw [ha]
      simp
    have hi := hmem i
    rw [List.mem_filter, List.mem_range] at hi
    by_cases hl : i < n.log2 + 1
    · by_cases hb : n.testBit i = true
      · rw [hb, decide_eq_true (hi.mp ⟨hl, hb⟩).symm]
      · have : a ≠ i := fun e => hb (hi.mpr e.symm).2
        rw [decide_eq_false this]
        simpa using hb
    · have hne : a ≠ i := fun e => hl (hi.mpr e.symm).1
      rw [decide_eq_false hne]
      apply Nat.testBit_lt_two_pow
      rcases Nat.eq_zero_or_pos n with rfl | hn
      · positivity
      · exact (Nat.log2_lt (by omega)).mp (by omega)
  · rintro ⟨m, rfl⟩
    rw [Nat.log2_two_pow, ← List.countP_eq_length_filter]
    have : (List.range (m + 1)).countP (fun i => (2 ^ m).testBit i) = (List.range (m + 1)).count m := by
      unfold List.count
      apply List.countP_congr
      intro i _
      rw [Nat.testBit_two_pow, decide_eq_true_iff, beq_iff_eq]
      exact eq_comm
    rw [this]
    exact List.count_eq_one_of_mem List.nodup_range (List.mem_range.mpr (by omega))

theorem dft_congr (inverse : Bool) {n : Nat} {x y : Nat → ℂ} (h : ∀ i, i < n → x i = y i) (k : Nat) : dft inverse n x k = dft inverse n y k := by
  unfold dft
  apply sum_congr rfl
  intro i hi
  rw [h i (mem_range.mp hi)]

theorem frameFft_eq (x : Nat → ℝ) {n : Nat} (hn : 0 < n) (h30 : n ≤ 2 ^ 30) {k : Nat} (hk : k < n) :
    frameFft x n k = dft false n (fun i => (x i : ℂ)) k := by
  have hc : dft false n (fun i => if i < n then (x i : ℂ) else 0) k = dft false n (fun i => (x i : ℂ)) k :=
    dft_congr false (fun i hi => if_pos hi) k
  unfold frameFft
  split_ifs with h
  · obtain ⟨m, rfl⟩ := isPow2_iff.mp h
    have hm : m ≤ 32 := by
      by_contra hc
      have : 2 ^ 33 ≤ 2 ^ m := Nat.pow_le_pow_right (by decide) (by omega)
      omega
    rw [radix_real false hm x _ _ hk]
    simpa using hc
  · rw [bluestein false _ n hn h30 hk]
    simpa using hc

theorem conj_root (n : Nat) : (starRingEnd ℂ) (root false n) = root true n := by
  rw [root, root, ← Complex.exp_conj]
  congr 1
  simp [map_div₀, Complex.conj_ofNat]

theorem dft_conj (x : Nat → ℝ) {n k : Nat} (hn : 0 < n) (hk : k ≤ n) :
    dft false n (fun i => (x i : ℂ)) (n - k) = (starRingEnd ℂ) (dft false n (fun i => (x i : ℂ)) k) := by
  rw [dft_root, dft_root, map_sum]
  apply sum_congr rfl
  intro i _
  rw [map_mul, map_pow, conj_root, Complex.conj_ofReal]
  congr 1
  have h1 : root false n ^ (i * (n - k)) * root false n ^ (i * k) = 1 := by
    rw [← pow_add, ← Nat.mul_add, Nat.sub_add_cancel hk, Nat.mul_comm, pow_mul, root_one false hn, one_pow]
  have h2 : root false n ^ (i * k) * root true n ^ (i * k) = 1 := by
    rw [← mul_pow, root_inv, one_pow]
  calc root false n ^ (i * (n - k)) = root false n ^ (i * (n - k)) * (root false n ^ (i * k) * root true n ^ (i * k)) := by rw [h2, mul_one]
    _ = _ := by rw [← mul_assoc, h1, one_mul]

theorem twoSided_loop (s : Nat → ℂ) (n : Nat) : ∀ K, n / 2 + 1 + K ≤ n → ∀ p,
    (List.range' (n / 2 + 1) K).foldl (fun d q => Function.update d q ((starRingEnd ℂ) (d (n - q)))) (fun k => if k < n / 2 + 1 then s k else 0) p =
      if p < n / 2 + 1 then s p else if p < n / 2 + 1 + K then (starRingEnd ℂ) (s (n - p)) else 0 := by
  intro K
  induction K with
  | zero =>
    intro _ p
    show (if p < n / 2 + 1 then s p else 0) = _
    split_ifs <;> first | rfl | (exfalso; omega)
  | succ K ih =>
    intro hK p
    have ih' := ih (by omega)
    rw [List.range'_concat, List.foldl_append, List.foldl_cons, List.foldl_nil, Nat.one_mul, Function.update_apply, ih', ih']
    by_cases hp : p = n / 2 + 1 + K
    · rw [if_pos hp, if_pos (by omega), if_neg (by omega), if_pos (by omega), hp]
    · rw [if_neg hp]
      split_ifs <;> first | rfl | (exfalso; omega)

theorem twoSided_eq (x : Nat → ℝ) (s : Nat → ℂ) {n : Nat} (hn : 0 < n) (hs : ∀ k, k < n / 2 + 1 → s k = dft false n (fun i => (x i : ℂ)) k)
    {k : Nat} (hk : k < n) : twoSided s (n / 2 + 1) n k = dft false n (fun i => (x i : ℂ)) k := by
  unfold twoSided
  by_cases h1 : n / 2 + 1 ≤ n
  · rw [twoSided_loop s n _ (by omega)]
    split_ifs with h h
    · exact hs k h
    · rw [hs _ (by omega), ← dft_conj x hn (by omega), show n - (n - k) = k by omega]
    · omega
  · have : n - (n / 2 + 1) = 0 := by omega
    rw [this]
    show (if k < n / 2 + 1 then s k else 0) = _
    rw [if_pos (by omega)]
    exact hs k (by omega)

theorem frameInv_eq (x : Nat → ℝ) (s : Nat → ℂ) (normalized : Bool) {n : Nat} (hn : 0 < n) (h30 : n ≤ 2 ^ 30)
    (hs : ∀ k, k < n / 2 + 1 → s k = dft false n (fun i => (x i : ℂ)) k) {i : Nat} (hi : i < n) :
    frameInv s (n / 2 + 1) n normalized i = if normalized then x i / n else x i := by
  unfold frameInv
  have key : (if isPow2 n = true then fftRadix2Complex (twoSided s (n / 2 + 1) n) n true
      else fftBluestein (twoSided s (n / 2 + 1) n) n n true) i = (x i : ℂ) := by
    have hinv : dft true n (twoSided s (n / 2 + 1) n) i / n = (x i : ℂ) := by
      rw [dft_congr true (fun k hk => twoSided_eq x s hn hs hk), dft_inverse hn (fun i => (x i : ℂ)) hi]
    split_ifs with h
    · obtain ⟨m, rfl⟩ := isPow2_iff.mp h
      have hm : m ≤ 32 := by
        by_contra hc
        have : 2 ^ 33 ≤ 2 ^ m := Nat.pow_le_pow_right (by decide) (by omega)
        omega
      rw [radix_complex true hm _ hi, if_pos rfl]
      exact hinv
    · rw [bluestein true _ n hn h30 hi, if_pos rfl, dft_congr true (fun i hi => if_pos hi)]
      exact hinv
  dsimp only
  rw [key, Complex.ofReal_re]

/-! ## Overlap-add -/

/-- The sum of the contributions `v f (q - f * hop)` of the frames that cover `q`. -/
noncomputable def covered (v : Nat → Nat → ℝ) (hop win F q : Nat) : ℝ :=
  ∑ f ∈ range F, if f * hop ≤ q ∧ q < f * hop + win then v f (q - f * hop) else 0

theorem inner_loop (y : Nat → Nat → ℝ) (w : Nat → ℝ) (hop len f : Nat) (st : (Nat → ℝ) × (Nat → ℝ)) : ∀ K q, q < len →
    ((List.range K).foldl (fun (st : (Nat → ℝ) × (Nat → ℝ)) i =>
      let q := f * hop + i
      if q < len then
        (Function.update st.1 q (st.1 q + y f i * w i), Function.update st.2 q (st.2 q + w i * w i))
      else st) st).1 q = st.1 q + (if f * hop ≤ q ∧ q < f * hop + K then y f (q - f * hop) * w (q - f * hop) else 0) ∧
    ((List.range K).foldl (fun (st : (Nat → ℝ) × (Nat → ℝ)) i =>
      let q := f * hop + i
      if q < len then
        (Function.update st.1 q (st.1 q + y f i * w i), Function.update st.2 q (st.2 q + w i * w i))
      else st) st).2 q = st.2 q + (if f * hop ≤ q ∧ q < f * hop + K then w (q - f * hop) * w (q - f * hop) else 0) := by
  intro K
  generalize f * hop = b
  induction K with
  | zero =>
    intro q _
    rw [if_neg (by omega), if_neg (by omega)]
    simp
  | succ K ih =>
    intro q hq
    rw [List.range_succ, List.foldl_append, List.foldl_cons, List.foldl_nil]
    obtain ⟨h1, h2⟩ := ih q hq
    by_cases hl : b + K < len
    · rw [if_pos hl]
      dsimp only
      rw [Function.update_apply, Function.update_apply]
      by_cases he : q = b + K
      · obtain ⟨h1', h2'⟩ := ih (b + K) hl
        rw [if_pos he, if_pos he, h1', h2', he, Nat.add_sub_cancel_left]
        have c1 : ¬ (b ≤ b + K ∧ b + K < b + K) := by omega
        have c2 : b ≤ b + K ∧ b + K < b + (K + 1) := by omega
        simp only [if_neg c1, if_pos c2, add_zero, and_self]
      · rw [if_neg he, if_neg he, h1, h2]
        constructor <;> (congr 1; split_ifs <;> first | rfl | (exfalso; omega))
    · rw [if_neg hl, h1, h2]
      constructor <;> (congr 1; split_ifs <;> first | rfl | (exfalso; omega))

theorem overlap_eq (y : Nat → Nat → ℝ) (w : Nat → ℝ) (hop win len F : Nat) {q : Nat} (hq : q < len) :
    (overlap y w hop win len F).1 q = covered (fun f i => y f i * w i) hop win F q ∧
    (overlap y w hop win len F).2 q = covered (fun _ i => w i * w i) hop win F q := by
  unfold overlap covered
  induction F with
  | zero => exact ⟨rfl, rfl⟩
  | succ F ih =>
    rw [List.range_succ, List.foldl_append, List.foldl_cons, List.foldl_nil]
    obtain ⟨h1, h2⟩ := inner_loop y w hop len F (List.foldl (fun st f =>
      (List.range win).foldl (fun (st : (Nat → ℝ) × (Nat → ℝ)) i =>
      let q := f * hop + i
      if q < len then
        (Function.update st.1 q (st.1 q + y f i * w i), Function.update st.2 q (st.2 q + w i * w i))
      else st) st) ((fun _ => 0), (fun _ => 0)) (List.range F)) win q hq
    rw [sum_range_succ, sum_range_succ, ← ih.1, ← ih.2]
    exact ⟨h1, h2⟩

/-- If every frame holds the windowed samples of one signal, the normalised overlap-add gives the signal wherever the
squared windows do not vanish. -/
theorem overlap_signal (y : Nat → Nat → ℝ) (w : Nat → ℝ) (z : Nat → ℝ) (hop win len F : Nat)
    (hy : ∀ f i, f < F → i < win → y f i = z (f * hop + i) * w i) {q : Nat} (hq : q < len)
    (henv : (1 / 10 ^ 10 : ℝ) < covered (fun _ i => w i * w i) hop win F q) :
    normalised (overlap y w hop win len F) q = z q := by
  obtain ⟨h1, h2⟩ := overlap_eq y w hop win len F hq
  unfold normalised
  rw [h1, h2, if_pos henv]
  have hne : covered (fun _ i => w i * w i) hop win F q ≠ 0 := by
    have : (0 : ℝ) < 1 / 10 ^ 10 := by positivity
    exact ne_of_gt (this.trans henv)
  rw [div_eq_iff hne]
  unfold covered
  rw [mul_sum]
  apply sum_congr rfl
  intro f hf
  split_ifs with h
  · dsimp only
    rw [hy f (q - f * hop) (mem_range.mp hf) (by omega), show f * hop + (q - f * hop) = q by omega]
    ring
  · simp

end Verif.Fft
