import Verif.Bits.Quantize

/-!
# C167: quantised activations stay within half a step
-/

namespace Verif.Bits

/-! ## Minimum and maximum -/

theorem lanes4_min (v : Nat → ℚ) : ∀ t l, (∀ s, s ≤ t → lanes4 min v t l ≤ v (4 * s + l)) ∧ ∃ s, s ≤ t ∧ lanes4 min v t l = v (4 * s + l) := by
  intro t l
  induction t with
  | zero => exact ⟨fun s hs => by rw [Nat.le_zero.mp hs]; simp [lanes4], 0, le_refl _, by simp [lanes4]⟩
  | succ t ih =>
    obtain ⟨h1, s0, h2, h3⟩ := ih
    simp only [lanes4]
    refine ⟨fun s hs => ?_, ?_⟩
    · rcases Nat.lt_or_ge t s with h | h
      · rw [show s = t + 1 by omega]
        exact min_le_right _ _
      · exact (min_le_left _ _).trans (h1 s h)
    · rcases min_choice (lanes4 min v t l) (v (4 * (t + 1) + l)) with h | h
      · exact ⟨s0, by omega, by rw [h, h3]⟩
      · exact ⟨t + 1, le_refl _, h⟩

theorem lanes4_max (v : Nat → ℚ) : ∀ t l, (∀ s, s ≤ t → v (4 * s + l) ≤ lanes4 max v t l) ∧ ∃ s, s ≤ t ∧ lanes4 max v t l = v (4 * s + l) := by
  intro t l
  induction t with
  | zero => exact ⟨fun s hs => by rw [Nat.le_zero.mp hs]; simp [lanes4], 0, le_refl _, by simp [lanes4]⟩
  | succ t ih =>
    obtain ⟨h1, s0, h2, h3⟩ := ih
    simp only [lanes4]
    refine ⟨fun s hs => ?_, ?_⟩
    · rcases Nat.lt_or_ge t s with h | h
      · rw [show s = t + 1 by omega]
        exact le_max_right _ _
      · exact (h1 s h).trans (le_max_left _ _)
    · rcases max_choice (lanes4 max v t l) (v (4 * (t + 1) + l)) with h | h
      · exact ⟨s0, by omega, by rw [h, h3]⟩
      · exact ⟨t + 1, le_refl _, h⟩

theorem across_min (f : Nat → ℚ) : (∀ l, l < 4 → across min f ≤ f l) ∧ ∃ l, l < 4 ∧ across min f = f l := by
  unfold across
  refine ⟨fun l hl => ?_, ?_⟩
  · interval_cases l <;> simp
  · rcases min_choice (min (f 0) (f 1)) (min (f 2) (f 3)) with h | h
    · rcases min_choice (f 0) (f 1) with h' | h'
      · exact ⟨0, by omega, by rw [h, h']⟩
      · exact ⟨1, by omega, by rw [h, h']⟩
    · rcases min_choice (f 2) (f 3) with h' | h'
      · exact ⟨2, by omega, by rw [h, h']⟩
      · exact ⟨3, by omega, by rw [h, h']⟩

theorem across_max (f : Nat → ℚ) : (∀ l, l < 4 → f l ≤ across max f) ∧ ∃ l, l < 4 ∧ across max f = f l := by
  unfold across
  refine ⟨fun l hl => ?_, ?_⟩
  · interval_cases l <;> simp
  · rcases max_choice (max (f 0) (f 1)) (max (f 2) (f 3)) with h | h
    · rcases max_choice (f 0) (f 1) with h' | h'
      · exact ⟨0, by omega, by rw [h, h']⟩
      · exact ⟨1, by omega, by rw [h, h']⟩
    · rcases max_choice (f 2) (f 3) with h' | h'
      · exact ⟨2, by omega, by rw [h, h']⟩
      · exact ⟨3, by omega, by rw [h, h']⟩

theorem restMin_spec (v : Nat → ℚ) (size : Nat) : ∀ c m, c ≤ size →
    (restMin v size c m ≤ m) ∧ (∀ i, size - c ≤ i → i < size → restMin v size c m ≤ v i) ∧
      (restMin v size c m = m ∨ ∃ i, i < size ∧ restMin v size c m = v i) := by
  intro c
  induction c with
  | zero => intro m _; exact ⟨le_refl _, fun i h1 h2 => by omega, Or.inl rfl⟩
  | succ c ih =>
    intro m hc
    obtain ⟨m', hm'⟩ : ∃ m', m' = if v (size - (c + 1)) < m then v (size - (c + 1)) else m := ⟨_, rfl⟩
    have e : restMin v size (c + 1) m = restMin v size c m' := by rw [hm']; rfl
    obtain ⟨h1, h2, h3⟩ := ih m' (by omega)
    have hm1 : m' ≤ m := by rw [hm']; split_ifs with h; exacts [h.le, le_refl _]
    have hm2 : m' ≤ v (size - (c + 1)) := by rw [hm']; split_ifs with h; exacts [le_refl _, not_lt.mp h]
    rw [e]
    refine ⟨h1.trans hm1, fun i hi1 hi2 => ?_, ?_⟩
    · rcases Nat.eq_or_lt_of_le hi1 with rfl | h
      · exact h1.trans hm2
      · exact h2 i (by omega) hi2
    · rcases h3 with h | h
      · rw [h, hm']
        split_ifs
        · exact Or.inr ⟨_, by omega, rfl⟩
        · exact Or.inl rfl
      · exact Or.inr h

theorem restMax_spec (v : Nat → ℚ) (size : Nat) : ∀ c m, c ≤ size →
    (m ≤ restMax v size c m) ∧ (∀ i, size - c ≤ i → i < size → v i ≤ restMax v size c m) ∧
      (restMax v size c m = m ∨ ∃ i, i < size ∧ restMax v size c m = v i) := by
  intro c
  induction c with
  | zero => intro m _; exact ⟨le_refl _, fun i h1 h2 => by omega, Or.inl rfl⟩
  | succ c ih =>
    intro m hc
    obtain ⟨m', hm'⟩ : ∃ m', m' = if v (size - (c + 1)) > m then v (size - (c + 1)) else m := ⟨_, rfl⟩
    have e : restMax v size (c + 1) m = restMax v size c m' := by rw [hm']; rfl
    obtain ⟨h1, h2, h3⟩ := ih m' (by omega)
    have hm1 : m ≤ m' := by rw [hm']; split_ifs with h; exacts [le_of_lt h, le_refl _]
    have hm2 : v (size - (c + 1)) ≤ m' := by rw [hm']; split_ifs with h; exacts [le_refl _, not_lt.mp h]
    rw [e]
    refine ⟨hm1.trans h1, fun i hi1 hi2 => ?_, ?_⟩
    · rcases Nat.eq_or_lt_of_le hi1 with rfl | h
      · exact hm2.trans h1
      · exact h2 i (by omega) hi2
    · rcases h3 with h | h
      · rw [h, hm']
        split_ifs
        · exact Or.inr ⟨_, by omega, rfl⟩
        · exact Or.inl rfl
      · exact Or.inr h

/-- **C167.** The minimum and the maximum are those of all values, for every size. -/
theorem C167_min_max (v : Nat → ℚ) {size : Nat} (hs : 0 < size) :
    ((∀ i, i < size → findMin v size ≤ v i) ∧ ∃ i, i < size ∧ findMin v size = v i) ∧
    ((∀ i, i < size → v i ≤ findMax v size) ∧ ∃ i, i < size ∧ findMax v size = v i) := by
  have hd := Nat.div_add_mod size 4
  have hm := Nat.mod_lt size (by omega : 0 < 4)
  have split : ∀ i, i < size → 3 < size → i < size - size % 4 → i / 4 ≤ size / 4 - 1 ∧ i % 4 < 4 ∧ 4 * (i / 4) + i % 4 = i := by
    intro i hi h3 hlt
    omega
  constructor
  · unfold findMin
    split_ifs with h3
    · obtain ⟨a1, l0, hl0, a2⟩ := across_min (lanes4 min v (size / 4 - 1))
      obtain ⟨r1, r2, r3⟩ := restMin_spec v size (size % 4) (across min (lanes4 min v (size / 4 - 1))) (by omega)
      refine ⟨fun i hi => ?_, ?_⟩
      · rcases Nat.lt_or_ge i (size - size % 4) with h | h
        · obtain ⟨q1, q2, q3⟩ := split i hi h3 h
          have := (lanes4_min v (size / 4 - 1) (i % 4)).1 (i / 4) q1
          rw [q3] at this
          exact r1.trans ((a1 _ q2).trans this)
        · exact r2 i h hi
      · rcases r3 with h | h
        · obtain ⟨s, hs', hv⟩ := (lanes4_min v (size / 4 - 1) l0).2
          exact ⟨4 * s + l0, by omega, by rw [h, a2, hv]⟩
        · exact h
    · obtain ⟨r1, r2, r3⟩ := restMin_spec v size size (v 0) (le_refl _)
      refine ⟨fun i hi => r2 i (by omega) hi, ?_⟩
      rcases r3 with h | h
      · exact ⟨0, hs, h⟩
      · exact h
  · unfold findMax
    split_ifs with h3
    · obtain ⟨a1, l0, hl0, a2⟩ := across_max (lanes4 max v (size / 4 - 1))
      obtain ⟨r1, r2, r3⟩ := restMax_spec v size (size % 4) (across max (lanes4 max v (size / 4 - 1))) (by omega)
      refine ⟨fun i hi => ?_, ?_⟩
      · rcases Nat.lt_or_ge i (size - size % 4) with h | h
        · obtain ⟨q1, q2, q3⟩ := split i hi h3 h
          have := (lanes4_max v (size / 4 - 1) (i % 4)).1 (i / 4) q1
          rw [q3] at this
          exact this.trans ((a1 _ q2).trans r1)
        · exact r2 i h hi
      · rcases r3 with h | h
        · obtain ⟨s, hs', hv⟩ := (lanes4_max v (size / 4 - 1) l0).2
          exact ⟨4 * s + l0, by omega, by rw [h, a2, hv]⟩
        · exact h
    · obtain ⟨r1, r2, r3⟩ := restMax_spec v size size (v 0) (le_refl _)
      refine ⟨fun i hi => r2 i (by omega) hi, ?_⟩
      rcases r3 with h | h
      · exact ⟨0, hs, h⟩
      · exact h

/-! ## Every position is stored once -/

/-- **C167.** `quantize` stores the quantised value at every position below `size` and nothing elsewhere. -/
theorem C167_all_stored (scale : ℚ) (zero : Byte) (v : Nat → ℚ) (size : Nat) (mem : Nat → Byte) (i : Nat) :
    applyW mem (quantize scale zero v size) i = if i < size then quant1 scale zero (v i) else mem i := by
  have hmem : ∀ x, (i, x) ∈ quantize scale zero v size ↔ i < size ∧ x = quant1 scale zero (v i) := by
    intro x
    simp only [quantize, List.mem_append, List.mem_flatMap, List.mem_map, List.mem_range, List.mem_range'_1, Prod.mk.injEq]
    constructor
    · rintro (⟨t, ht, l, hl, rfl, rfl⟩ | ⟨j, hj, rfl, rfl⟩)
      · exact ⟨by omega, rfl⟩
      · exact ⟨by omega, rfl⟩
    · rintro ⟨hi, rfl⟩
      by_cases h : i < 8 * ((size - 1) / 8)
      · exact Or.inl ⟨i / 8, by omega, i % 8, by omega, by omega, by rw [Nat.div_add_mod]⟩
      · exact Or.inr ⟨i, by omega, rfl, rfl⟩
  split_ifs with h
  · exact applyW_same _ _ _ _ (fun x hx => ((hmem x).mp hx).2) ((hmem _).mpr ⟨h, rfl⟩)
  · exact applyW_other _ _ _ fun x hx => h ((hmem x).mp hx).1

/-! ## The error -/

theorem rne_near (x : ℚ) : |(rne x : ℚ) - x| ≤ 1 / 2 := by
  have h1 := Int.floor_le x
  have h2 := Int.lt_floor_add_one x
  unfold rne
  rw [abs_le]
  split_ifs <;> push_cast <;> constructor <;> linarith

theorem cround_near (x : ℚ) : |(cround x : ℚ) - x| ≤ 1 / 2 := by
  unfold cround
  rw [abs_le]
  split_ifs
  · have h1 := Int.floor_le (x + 1 / 2)
    have h2 := Int.lt_floor_add_one (x + 1 / 2)
    constructor <;> linarith
  · have h1 := Int.le_ceil (x - 1 / 2)
    have h2 := Int.ceil_lt_add_one (x - 1 / 2)
    constructor <;> linarith

/-- Clipping to the range does not move a value that rounds from at most half outside. -/
theorem clip_near {x : ℚ} (h1 : -128 - 1 / 2 ≤ x) (h2 : x ≤ 127 + 1 / 2) :
    |((max qmin (min (rne x) qmax) : ℤ) : ℚ) - x| ≤ 1 / 2 := by
  have hn := rne_near x
  rw [abs_le] at hn ⊢
  have q1 : qmin = -128 := by decide
  have q2 : qmax = 127 := by decide
  rw [q1, q2]
  rcases le_total (rne x) 127 with ha | ha
  · rw [min_eq_left ha]
    rcases le_total (-128) (rne x) with hb | hb
    · rw [max_eq_right hb]
      exact hn
    · rw [max_eq_left hb]
      have hb' : ((rne x : ℤ) : ℚ) ≤ -128 := by exact_mod_cast hb
      constructor <;> push_cast <;> linarith
  · rw [min_eq_right ha, max_eq_right (by decide)]
    have ha' : (127 : ℚ) ≤ ((rne x : ℤ) : ℚ) := by exact_mod_cast ha
    constructor <;> push_cast <;> linarith

theorem toInt_clip (z : ℤ) : (BitVec.ofInt 8 (max qmin (min z qmax))).toInt = max qmin (min z qmax) := by
  have q1 : qmin = -128 := by decide
  have q2 : qmax = 127 := by decide
  rw [q1, q2, BitVec.toInt_ofInt, Int.bmod_eq_of_le] <;> omega

theorem scale_eq {vmin vmax s : ℚ} (h : getScale vmin vmax = some s) : vmin < vmax ∧ vmax - vmin = 255 * s ∧ 0 < s := by
  unfold getScale at h
  have q : ((qmax - qmin : ℤ) : ℚ) = 255 := by decide +kernel
  rw [q] at h
  split_ifs at h with hlt
  rw [Option.some.injEq] at h
  subst h
  refine ⟨hlt, by field_simp, ?_⟩
  have : 0 < vmax - vmin := by linarith
  positivity

/-- The value without rounding, `zero + v / (s + ε)`, lies in the range when zero is between the extremes. -/
theorem in_range {vmin vmax s v : ℚ} (h : getScale vmin vmax = some s) (h0 : vmin ≤ 0) (h1 : 0 ≤ vmax) (hv1 : vmin ≤ v) (hv2 : v ≤ vmax) :
    -128 - 1 / 2 ≤ (getZero s vmin : ℚ) + v * (1 / (s + eps)) ∧ (getZero s vmin : ℚ) + v * (1 / (s + eps)) ≤ 127 + 1 / 2 := by
  obtain ⟨-, hs, hs0⟩ := scale_eq h
  have he : 0 < eps := by unfold eps; positivity
  have hc := cround_near (vmin / s)
  rw [abs_le] at hc
  have hz : (getZero s vmin : ℚ) = -128 - (cround (vmin / s) : ℚ) := by
    rw [getZero, show qmin = -128 by decide]; push_cast; rfl
  have hinv : 0 < 1 / (s + eps) := by positivity
  have hle : 1 / (s + eps) ≤ 1 / s := one_div_le_one_div_of_le hs0 (by linarith)
  have lo : vmin / s ≤ v * (1 / (s + eps)) := by
    calc vmin / s = vmin * (1 / s) := by ring
      _ ≤ vmin * (1 / (s + eps)) := mul_le_mul_of_nonpos_left hle h0
      _ ≤ v * (1 / (s + eps)) := mul_le_mul_of_nonneg_right hv1 hinv.le
  have hi : v * (1 / (s + eps)) ≤ vmax / s := by
    calc v * (1 / (s + eps)) ≤ vmax * (1 / (s + eps)) := mul_le_mul_of_nonneg_right hv2 hinv.le
      _ ≤ vmax * (1 / s) := mul_le_mul_of_nonneg_left hle h1
      _ = vmax / s := by ring
  have hsum : vmax / s = 255 + vmin / s := by
    field_simp
    linarith
  rw [hz]
  constructor <;> linarith

/-- The zero point fits `int8_t` when zero is between the extremes. -/
theorem zero_fits {vmin vmax s : ℚ} (h : getScale vmin vmax = some s) (h0 : vmin ≤ 0) (h1 : 0 ≤ vmax) :
    (BitVec.ofInt 8 (getZero s vmin)).toInt = getZero s vmin := by
  obtain ⟨-, hs, hs0⟩ := scale_eq h
  have hc := cround_near (vmin / s)
  rw [abs_le] at hc
  have a1 : vmin / s ≤ 0 := div_nonpos_of_nonpos_of_nonneg h0 hs0.le
  have a2 : -255 ≤ vmin / s := by
    rw [le_div_iff₀ hs0]
    linarith
  have b1 : cround (vmin / s) < 1 := by
    have : ((cround (vmin / s) : ℤ) : ℚ) < 1 := by linarith
    exact_mod_cast this
  have b2 : -256 < cround (vmin / s) := by
    have : (-256 : ℚ) < ((cround (vmin / s) : ℤ) : ℚ) := by linarith
    exact_mod_cast this
  rw [getZero, show qmin = -128 by decide, BitVec.toInt_ofInt, Int.bmod_eq_of_le] <;> omega

/-- **C167.** (Partial: rows with a value of each sign, or zero.)  Dequantising the stored value with the stored
scale and zero gives the original value up to half a step, plus the effect of the constant `1e-16`. -/
theorem C167_error_partial {v : Nat → ℚ} {k : Nat} {mem : Nat → Byte} {s : ℚ} {z : Byte} {q : Nat → Byte} (hk : 0 < k)
    (h : packRow v k mem = some (s, z, q)) (hneg : ∃ i, i < k ∧ v i ≤ 0) (hpos : ∃ i, i < k ∧ 0 ≤ v i) {i : Nat} (hi : i < k) :
    |s * (((q i).toInt : ℚ) - (z.toInt : ℚ)) - v i| ≤ s / 2 + 255 / 10 ^ 16 := by
  obtain ⟨⟨mn, -⟩, ⟨mx, -⟩⟩ := C167_min_max v hk
  obtain ⟨a, ha, ha'⟩ := hneg
  obtain ⟨b, hb, hb'⟩ := hpos
  have h0 : findMin v k ≤ 0 := (mn a ha).trans ha'
  have h1 : 0 ≤ findMax v k := hb'.trans (mx b hb)
  unfold packRow at h
  rw [Option.map_eq_some_iff] at h
  obtain ⟨s', hs', he⟩ := h
  simp only [Prod.mk.injEq] at he
  obtain ⟨rfl, hz, hq⟩ := he
  obtain ⟨-, hsum, hs0⟩ := scale_eq hs'
  have hzi := zero_fits hs' h0 h1
  rw [hz] at hzi
  have hqi : q i = quant1 s' z (v i) := by rw [← hq, hz, C167_all_stored, if_pos hi]
  obtain ⟨r1, r2⟩ := in_range hs' h0 h1 (mn i hi) (mx i hi)
  have hc := clip_near r1 r2
  rw [hqi, quant1, toInt_clip, hzi]
  rw [← hzi] at hc ⊢
  obtain ⟨c, hcc⟩ : ∃ c : ℚ, c = ((max qmin (min (rne ((z.toInt : ℚ) + v i * (1 / (s' + eps)))) qmax) : ℤ) : ℚ) := ⟨_, rfl⟩
  rw [← hcc] at hc ⊢
  have he : 0 < eps := by unfold eps; positivity
  have e1 : s' * (c - (z.toInt : ℚ)) - v i = s' * (c - ((z.toInt : ℚ) + v i * (1 / (s' + eps)))) - v i * (eps / (s' + eps)) := by
    field_simp
    ring
  have b1 : |s' * (c - ((z.toInt : ℚ) + v i * (1 / (s' + eps))))| ≤ s' / 2 := by
    rw [abs_mul, abs_of_pos hs0]
    calc s' * _ ≤ s' * (1 / 2) := mul_le_mul_of_nonneg_left hc hs0.le
      _ = s' / 2 := by ring
  have b2 : |v i * (eps / (s' + eps))| ≤ 255 / 10 ^ 16 := by
    have hv : |v i| ≤ 255 * s' := by
      rw [abs_le]
      have := mn i hi
      have := mx i hi
      constructor <;> linarith
    have hd : 0 ≤ eps / (s' + eps) := by positivity
    rw [abs_mul, abs_of_nonneg hd]
    calc |v i| * (eps / (s' + eps)) ≤ 255 * s' * (eps / (s' + eps)) := mul_le_mul_of_nonneg_right hv hd
      _ = 255 * eps * (s' / (s' + eps)) := by ring
      _ ≤ 255 * eps * 1 := by
        refine mul_le_mul_of_nonneg_left ?_ (by positivity)
        rw [div_le_one (by positivity)]
        linarith
      _ = 255 / 10 ^ 16 := by unfold eps; ring
  rw [e1]
  exact (abs_sub _ _).trans (add_le_add b1 b2)

/-- **C167 is violated** for rows of positive values: when the smallest value is more than half a step and at most
about the width of the row above zero, every value of the row is stored as 127, so all of them read back equal. -/
theorem C167_positive_row_violated {v : Nat → ℚ} {k : Nat} {mem : Nat → Byte} {s : ℚ} (hk : 0 < k)
    (hs : getScale (findMin v k) (findMax v k) = some s) (hmin : s / 2 < findMin v k) (hmax : findMin v k ≤ 256 * s) (hbig : 1 / 10 ^ 13 ≤ s) :
    ∃ z q, packRow v k mem = some (s, z, q) ∧ ∀ i, i < k → (q i).toInt = 127 := by
  obtain ⟨⟨mn, -⟩, -⟩ := C167_min_max v hk
  obtain ⟨-, hsum, hs0⟩ := scale_eq hs
  refine ⟨BitVec.ofInt 8 (getZero s (findMin v k)), applyW mem (quantize s (BitVec.ofInt 8 (getZero s (findMin v k))) v k), by rw [packRow, hs]; rfl, fun i hi => ?_⟩
  rw [C167_all_stored, if_pos hi, quant1, toInt_clip]
  have hc := cround_near (findMin v k / s)
  obtain ⟨R, hR⟩ : ∃ R, R = cround (findMin v k / s) := ⟨_, rfl⟩
  have a1 : 1 / 2 < findMin v k / s := by rw [lt_div_iff₀ hs0]; linarith
  have a2 : findMin v k / s ≤ 256 := by rw [div_le_iff₀ hs0]; exact hmax
  rw [← hR, abs_le] at hc
  have b1 : 1 ≤ R := by
    have : (0 : ℚ) < (R : ℚ) := by linarith
    have : 0 < R := by exact_mod_cast this
    omega
  have b2 : R ≤ 256 := by
    have : (R : ℚ) < 257 := by linarith
    have : R < 257 := by exact_mod_cast this
    omega
  have hz : (BitVec.ofInt 8 (getZero s (findMin v k))).toInt = 128 - R := by
    rw [getZero, ← hR, show qmin = -128 by decide, BitVec.toInt_ofInt]
    rw [← Int.add_bmod_right (-128 - R), Int.bmod_eq_of_le] <;> push_cast <;> omega
  rw [hz]
  have he : 0 < eps := by unfold eps; positivity
  have hinv : 0 < 1 / (s + eps) := by positivity
  have lo : (126 : ℚ) + 1 / 2 < ((128 - R : ℤ) : ℚ) + v i * (1 / (s + eps)) := by
    have c1 : findMin v k * (1 / (s + eps)) ≤ v i * (1 / (s + eps)) := mul_le_mul_of_nonneg_right (mn i hi) hinv.le
    have c2 : findMin v k * (1 / (s + eps)) = findMin v k / s - findMin v k / s * (eps / (s + eps)) := by
      field_simp
      ring
    have c3 : eps / (s + eps) ≤ 1 / 1000 := by
      rw [div_le_iff₀ (by positivity)]
      have : eps = 1 / 1000 * (1 / 10 ^ 13) := by unfold eps; norm_num
      have : 1 / 1000 * (1 / 10 ^ 13) ≤ 1 / 1000 * s := by linarith
      linarith
    have c4 : findMin v k / s * (eps / (s + eps)) ≤ 256 * (1 / 1000) :=
      mul_le_mul a2 c3 (by positivity) (by norm_num)
    push_cast
    linarith
  have hr := rne_near (((128 - R : ℤ) : ℚ) + v i * (1 / (s + eps)))
  rw [abs_le] at hr
  have : (126 : ℚ) < (rne (((128 - R : ℤ) : ℚ) + v i * (1 / (s + eps))) : ℚ) := by linarith
  have : 126 < rne (((128 - R : ℤ) : ℚ) + v i * (1 / (s + eps))) := by exact_mod_cast this
  have q1 : qmin = -128 := by decide
  have q2 : qmax = 127 := by decide
  rw [q1, q2]
  omega

/-- **C167 is violated** for rows whose values are all equal, such as a row of zeros: the only guard is a debug
assertion, the scale is zero. -/
theorem C167_constant_row_violated {v : Nat → ℚ} {k : Nat} {mem : Nat → Byte} (hk : 0 < k) {c : ℚ} (hc : ∀ i, i < k → v i = c) :
    packRow v k mem = none := by
  obtain ⟨⟨-, a, ha, e1⟩, ⟨-, b, hb, e2⟩⟩ := C167_min_max v hk
  rw [packRow, e1, e2, hc a ha, hc b hb, getScale, if_neg (lt_irrefl _)]
  rfl

/-- Non-vacuity: the row -1, 0, 2 meets the hypotheses of `C167_error_partial`. -/
example : ∃ r, packRow (fun i => if i = 0 then -1 else if i = 1 then 0 else 2) 3 (fun _ => 0) = some r := by
  unfold packRow
  rw [Option.isSome_iff_exists.symm]
  decide +kernel

/-- Non-vacuity: the row 10, 100, 265 of positive values meets the hypotheses of `C167_positive_row_violated`. -/
example : let v : Nat → ℚ := fun i => if i = 0 then 10 else if i = 1 then 100 else 265
    getScale (findMin v 3) (findMax v 3) = some 1 ∧ (1 : ℚ) / 2 < findMin v 3 ∧ findMin v 3 ≤ 256 * 1 := by
  decide +kernel

end Verif.Bits
