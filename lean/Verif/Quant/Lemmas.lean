import Verif.Quant.Spec

/-! Lemmas about rounding, packing and the loops over blocks. -/

namespace Verif.Quant

open Verif.Kern (run Upd)

/-! ### Bits -/

theorem and15 (a : Nat) : a &&& 0xF = a % 16 := Nat.and_two_pow_sub_one_eq_mod a 4
theorem and63 (a : Nat) : a &&& 63 = a % 64 := Nat.and_two_pow_sub_one_eq_mod a 6
theorem and3 (a : Nat) : a &&& 3 = a % 4 := Nat.and_two_pow_sub_one_eq_mod a 2
theorem shr4 (a : Nat) : a >>> 4 = a / 16 := Nat.shiftRight_eq_div_pow a 4
theorem shr6 (a : Nat) : a >>> 6 = a / 64 := Nat.shiftRight_eq_div_pow a 6
theorem shr2 (a : Nat) : a >>> 2 = a / 4 := Nat.shiftRight_eq_div_pow a 2

theorem or_shl {a : Nat} (k b : Nat) (h : a < 2 ^ k) : a ||| (b <<< k) = a + 2 ^ k * b := by
  rw [Nat.or_comm, Nat.shiftLeft_eq, Nat.mul_comm b, ← Nat.two_pow_add_eq_or_of_lt h, Nat.add_comm]

theorem or_shl4 {a : Nat} (b : Nat) (h : a < 16) : a ||| (b <<< 4) = a + 16 * b := or_shl 4 b h
theorem or_shl6 {a : Nat} (b : Nat) (h : a < 64) : a ||| (b <<< 6) = a + 64 * b := or_shl 6 b h
theorem or_shl2 {a : Nat} (b : Nat) (h : a < 4) : a ||| (b <<< 2) = a + 4 * b := or_shl 2 b h

/-! ### Rounding -/

theorem best_clamp {y : ℝ} {r lo hi : Int} (hr : |y - r| ≤ 1 / 2) (hlh : lo ≤ hi) {c : Int} (h1 : lo ≤ c) (h2 : c ≤ hi) :
    |y - ((max lo (min hi r) : Int) : ℝ)| ≤ |y - c| := by
  rw [abs_le] at hr
  rcases lt_trichotomy r lo with h | h | h
  · have e : max lo (min hi r) = lo := by omega
    rw [e]
    have a1 : (r : ℝ) + 1 ≤ lo := by exact_mod_cast h
    have a2 : (lo : ℝ) ≤ c := by exact_mod_cast h1
    rw [abs_of_nonpos (by linarith), abs_of_nonpos (by linarith)]; linarith
  all_goals
    rcases le_or_gt r hi with h' | h'
    · have e : max lo (min hi r) = r := by omega
      rw [e]
      rcases lt_trichotomy c r with hc | hc | hc
      · have : (c : ℝ) + 1 ≤ r := by exact_mod_cast hc
        refine le_trans (abs_le.mpr hr) ?_
        refine le_trans ?_ (le_abs_self _); linarith
      · rw [hc]
      · have : (r : ℝ) + 1 ≤ c := by exact_mod_cast hc
        refine le_trans (abs_le.mpr hr) ?_
        refine le_trans ?_ (neg_le_abs _); linarith
    · have e : max lo (min hi r) = hi := by omega
      rw [e]
      have a1 : (hi : ℝ) + 1 ≤ r := by exact_mod_cast h'
      have a2 : (c : ℝ) ≤ hi := by exact_mod_cast h2
      rw [abs_of_nonneg (by linarith), abs_of_nonneg (by linarith)]; linarith

/-- Clamped rounding of `(x + m)/d` gives a best code on the grid `d·c − m`. -/
theorem best_of {x d m : ℝ} {r lo hi : Int} (hd : d ≠ 0) (hr : |(x + m) / d - r| ≤ 1 / 2) (hlh : lo ≤ hi) :
    Best x (fun c => d * c - m) lo hi (max lo (min hi r)) := by
  refine ⟨by omega, by omega, ?_⟩
  intro c h1 h2
  have e : ∀ t : ℝ, x - (d * t - m) = d * ((x + m) / d - t) := by intro t; field_simp; ring
  simp only [e, abs_mul]
  exact mul_le_mul_of_nonneg_left (best_clamp hr hlh h1 h2) (abs_nonneg _)

theorem Best.congr {x : ℝ} {g h : Int → ℝ} {lo hi q : Int} (hb : Best x g lo hi q) (e : ∀ c, g c = h c) : Best x h lo hi q := by
  have : g = h := funext e
  rw [← this]; exact hb

/-! ### Maxima -/

theorem isAmax_loop {n : Nat} (hn : 0 < n) (x : Nat → ℝ) : IsAmax n x (amaxLoop n x) := by
  have key : ∀ m, (∀ j < m, |x j| ≤ amaxLoop m x) ∧ ((m = 0 ∧ amaxLoop m x = 0) ∨ ∃ j < m, |x j| = amaxLoop m x) := by
    intro m
    induction m with
    | zero => exact ⟨by simp, Or.inl ⟨rfl, by simp [amaxLoop]⟩⟩
    | succ m ih =>
      have e : amaxLoop (m + 1) x = max (amaxLoop m x) |x m| := by simp [amaxLoop, List.range_succ]
      rw [e]
      refine ⟨?_, Or.inr ?_⟩
      · intro j hj
        rcases Nat.lt_succ_iff_lt_or_eq.mp hj with h | h
        · exact (ih.1 j h).trans (le_max_left _ _)
        · rw [h]; exact le_max_right _ _
      · rcases le_total |x m| (amaxLoop m x) with h | h
        · rw [max_eq_left h]
          rcases ih.2 with ⟨h0, h1⟩ | ⟨j, hj, he⟩
          · exact ⟨m, by omega, le_antisymm h (by rw [h1]; exact abs_nonneg _)⟩
          · exact ⟨j, by omega, he⟩
        · rw [max_eq_right h]; exact ⟨m, by omega, rfl⟩
  refine ⟨(key n).1, ?_⟩
  rcases (key n).2 with ⟨h, _⟩ | h
  · omega
  · exact h

theorem IsAmax.unique {n : Nat} {x : Nat → ℝ} {a b : ℝ} (ha : IsAmax n x a) (hb : IsAmax n x b) : a = b := by
  obtain ⟨h1, i, hi, ei⟩ := ha
  obtain ⟨h2, j, hj, ej⟩ := hb
  exact le_antisymm (ei ▸ h2 i hi) (ej ▸ h1 j hj)

theorem IsAmax.nonneg {n : Nat} {x : Nat → ℝ} {a : ℝ} (ha : IsAmax n x a) : 0 ≤ a := by
  obtain ⟨_, i, _, ei⟩ := ha
  exact ei ▸ abs_nonneg _

theorem isAmax_neon (x : Nat → ℝ) : IsAmax 32 x (amaxNeon x) := by
  constructor
  · intro j hj
    unfold amaxNeon
    dsimp only
    interval_cases j <;> simp only [le_max_iff] <;> norm_num
  · unfold amaxNeon
    dsimp only
    have key : ∀ a b : ℝ, (∃ j < 32, |x j| = a) → (∃ j < 32, |x j| = b) → ∃ j < 32, |x j| = max a b := by
      intro a b ha hb
      rcases max_cases a b with ⟨h, _⟩ | ⟨h, _⟩ <;> rw [h] <;> assumption
    have leaf : ∀ i < 32, ∃ j < 32, |x j| = |x i| := fun i hi => ⟨i, hi, rfl⟩
    repeat' first | exact leaf _ (by norm_num) | apply key

theorem isAmax_avx (x : Nat → ℝ) : IsAmax 32 x (amaxAvx x) := by
  constructor
  · intro j hj
    unfold amaxAvx
    dsimp only
    interval_cases j <;> simp only [le_max_iff] <;> norm_num
  · unfold amaxAvx
    dsimp only
    have key : ∀ a b : ℝ, (∃ j < 32, |x j| = a) → (∃ j < 32, |x j| = b) → ∃ j < 32, |x j| = max a b := by
      intro a b ha hb
      rcases max_cases a b with ⟨h, _⟩ | ⟨h, _⟩ <;> rw [h] <;> assumption
    have leaf : ∀ i < 32, ∃ j < 32, |x j| = |x i| := fun i hi => ⟨i, hi, rfl⟩
    repeat' first | exact leaf _ (by norm_num) | apply key

theorem maxLoop_spec {n : Nat} (hn : 0 < n) (x : Nat → ℝ) :
    IsAmax n x (maxLoop n x).1 ∧ |(maxLoop n x).2| = (maxLoop n x).1 := by
  have key : ∀ m, (∀ j < m, |x j| ≤ (maxLoop m x).1) ∧ |(maxLoop m x).2| = (maxLoop m x).1 ∧
      ((maxLoop m x).1 = 0 ∨ ∃ j < m, |x j| = (maxLoop m x).1) := by
    intro m
    induction m with
    | zero => simp [maxLoop]
    | succ m ih =>
      have e : maxLoop (m + 1) x = if (maxLoop m x).1 < |x m| then (|x m|, x m) else maxLoop m x := by
        unfold maxLoop; rw [List.range_succ, List.foldl_append]; rfl
      rw [e]
      obtain ⟨i1, i2, i3⟩ := ih
      split
      · rename_i h
        refine ⟨?_, rfl, Or.inr ⟨m, by omega, rfl⟩⟩
        intro j hj
        rcases Nat.lt_succ_iff_lt_or_eq.mp hj with h' | h'
        · exact (i1 j h').trans h.le
        · rw [h']
      · rename_i h
        refine ⟨?_, i2, ?_⟩
        · intro j hj
          rcases Nat.lt_succ_iff_lt_or_eq.mp hj with h' | h'
          · exact i1 j h'
          · rw [h']; exact not_lt.mp h
        · rcases i3 with h' | ⟨j, hj, he⟩
          · exact Or.inl h'
          · exact Or.inr ⟨j, by omega, he⟩
  obtain ⟨k1, k2, k3⟩ := key n
  refine ⟨⟨k1, ?_⟩, k2⟩
  rcases k3 with h | h
  · refine ⟨0, hn, le_antisymm (k1 0 hn) ?_⟩
    rw [h]; exact abs_nonneg _
  · exact h

/-! ### Loops over blocks -/

theorem byPtr_eq {β : Type} (w : Nat) (f : (Nat → ℝ) → β) (nb : Nat) (x : Nat → ℝ) : byPtr w f nb x = byIndex w f nb x := by
  induction nb generalizing x with
  | zero => rfl
  | succ n ih =>
    rw [byPtr, ih]
    unfold byIndex
    rw [List.range_succ_eq_map, List.map_cons, List.map_map]
    congr 1
    · congr 1; funext j; simp
    · apply List.map_congr_left
      intro i _
      show f _ = f _
      congr 1; funext j
      show x (w + (i * w + j)) = x ((i + 1) * w + j)
      congr 1; ring

theorem byIndex_length {β : Type} (w : Nat) (f : (Nat → ℝ) → β) (nb : Nat) (x : Nat → ℝ) :
    (byIndex w f nb x).length = nb := by simp [byIndex]

theorem byIndex_get {β : Type} (w : Nat) (f : (Nat → ℝ) → β) {nb : Nat} (x : Nat → ℝ) {i : Nat} (hi : i < nb) :
    (byIndex w f nb x)[i]? = some (f (fun j => x (i * w + j))) := by
  simp [byIndex, hi]

end Verif.Quant
