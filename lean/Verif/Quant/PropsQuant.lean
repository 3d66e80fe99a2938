import Verif.Quant.PropsBlocks

/-! C130, second half: quantisation picks closest codes. -/

namespace Verif.Quant

theorem Rounds.range {rnd : ℝ → Int} (hr : Rounds rnd) {x : ℝ} {n : Nat} (h : |x| ≤ n) : -(n : Int) ≤ rnd x ∧ rnd x ≤ n := by
  have h1 := hr x
  rw [abs_le] at h h1
  constructor
  · have : (-(n : ℝ) - 1) < rnd x := by linarith
    have : (-(n : Int) - 1) < rnd x := by exact_mod_cast this
    omega
  · have : (rnd x : ℝ) < n + 1 := by linarith
    have : rnd x < (n : Int) + 1 := by exact_mod_cast this
    omega

theorem Rounds.zero {rnd : ℝ → Int} (hr : Rounds rnd) : rnd 0 = 0 := by
  have := hr.range (x := 0) (n := 0) (by simp)
  omega

/-- The block that all three versions of the q8_0 code produce. -/
def IsQ80 (P : Plat) (x : Nat → ℝ) (b : Q80) : Prop :=
  ∃ a, IsAmax 32 x a ∧ b.d = P.store (a / 127) ∧ ∀ j < 32, -127 ≤ b.qs j ∧
    Best (x j) (fun c => a / 127 * c) (-128) 127 (b.qs j) ∧ |x j - a / 127 * b.qs j| ≤ a / 127 / 2

theorem isQ80_of {P : Plat} {rnd : ℝ → Int} (hr : Rounds rnd) {x : Nat → ℝ} {a id : ℝ} (ha : IsAmax 32 x a)
    (hid : id = if a ≠ 0 then 127 / a else 0) {b : Q80} (hd : b.d = P.store (a / 127))
    (hq : ∀ j < 32, -127 ≤ rnd (x j * id) → rnd (x j * id) ≤ 127 → b.qs j = rnd (x j * id)) : IsQ80 P x b := by
  refine ⟨a, ha, hd, fun j hj => ?_⟩
  have hx := ha.1 j hj
  by_cases h0 : a = 0
  · rw [h0] at hid hx
    have hxj : x j = 0 := abs_eq_zero.mp (le_antisymm hx (abs_nonneg _))
    have e : rnd (x j * id) = 0 := by rw [hxj, zero_mul]; exact hr.zero
    have hqj := hq j hj (by omega) (by omega)
    rw [e] at hqj
    rw [hqj, hxj, h0]
    refine ⟨by norm_num, ⟨by norm_num, by norm_num, fun c _ _ => by simp⟩, by simp⟩
  · have hpos : 0 < a := lt_of_le_of_ne ha.nonneg (Ne.symm h0)
    rw [if_pos h0] at hid
    have hy : x j * id = (x j + 0) / (a / 127) := by rw [hid]; field_simp; ring
    have hyb : |x j * id| ≤ (127 : Nat) := by
      rw [hid, abs_mul, abs_of_pos (by positivity : (0:ℝ) < 127 / a), mul_div_assoc', div_le_iff₀ hpos]
      push_cast; nlinarith
    obtain ⟨r1, r2⟩ := hr.range hyb
    have hqj := hq j hj (by exact_mod_cast r1) (by exact_mod_cast r2)
    have hrd := hr (x j * id)
    have hb := best_of (x := x j) (d := a / 127) (m := 0) (r := rnd (x j * id)) (lo := -128) (hi := 127)
      (by positivity) (by rw [← hy]; exact hrd) (by norm_num)
    have ec : max (-128) (min 127 (rnd (x j * id))) = rnd (x j * id) := by push_cast at r1 r2; omega
    rw [ec, ← hqj] at hb
    refine ⟨by rw [hqj]; exact_mod_cast r1, hb.congr (fun c => by ring), ?_⟩
    rw [← hqj] at hrd
    have e2 : x j - a / 127 * b.qs j = a / 127 * (x j * id - b.qs j) := by rw [hid]; field_simp
    rw [e2, abs_mul, abs_of_pos (by positivity : (0:ℝ) < a / 127)]
    calc _ ≤ a / 127 * (1 / 2) := mul_le_mul_of_nonneg_left hrd (by positivity)
      _ = _ := by ring

theorem q80Scalar_is (P : Plat) {rnd : ℝ → Int} (hr : Rounds rnd) (x : Nat → ℝ) : IsQ80 P x (q80Scalar P rnd x) := by
  refine isQ80_of hr (isAmax_loop (by norm_num) x) (id := if amaxLoop 32 x / 127 ≠ 0 then 1 / (amaxLoop 32 x / 127) else 0)
    ?_ rfl ?_
  · by_cases h : amaxLoop 32 x = 0
    · simp [h]
    · rw [if_pos h, if_pos (div_ne_zero h (by norm_num))]; field_simp
  · intro j _ h1 h2
    exact i8_eq (by omega) h2

theorem q80Neon_is (P : Plat) {rnd : ℝ → Int} (hr : Rounds rnd) (x : Nat → ℝ) : IsQ80 P x (q80Neon P rnd x) := by
  refine isQ80_of hr (isAmax_neon x) (id := if amaxNeon x / 127 ≠ 0 then 1 / (amaxNeon x / 127) else 0) ?_ rfl ?_
  · by_cases h : amaxNeon x = 0
    · simp [h]
    · rw [if_pos h, if_pos (div_ne_zero h (by norm_num))]; field_simp
  · intro j _ h1 h2
    have e : 4 * (j / 4) + j % 4 = j := by omega
    show i8 (rnd (x (4 * (j / 4) + j % 4) * _)) = _
    rw [e]
    exact i8_eq (by omega) h2

/-- The two saturating packs and the permutation put byte `t` at position `t`. -/
theorem pack_order (v : Nat → Nat → Int) {t : Nat} (ht : t < 32) (h1 : -127 ≤ v (t / 8) (t % 8)) (h2 : v (t / 8) (t % 8) ≤ 127) :
    perm8x32 (packs16 (packs32 (v 0) (v 1)) (packs32 (v 2) (v 3))) [0, 4, 1, 5, 2, 6, 3, 7] t = v (t / 8) (t % 8) := by
  have key : ∀ z : Int, -127 ≤ z → z ≤ 127 → max (-128) (min 127 (max (-32768) (min 32767 z))) = z := by intro z _ _; omega
  unfold perm8x32 packs16 packs32
  interval_cases t <;> (norm_num [List.getD] at h1 h2 ⊢; exact key _ h1 h2)

theorem q80Avx_is (P : Plat) {rnd : ℝ → Int} (hr : Rounds rnd) (x : Nat → ℝ) : IsQ80 P x (q80Avx P rnd x) := by
  refine isQ80_of hr (isAmax_avx x) rfl rfl ?_
  intro j hj h1 h2
  have e : 8 * (j / 8) + j % 8 = j := by omega
  have := pack_order (fun k l => rnd (x (8 * k + l) * if amaxAvx x ≠ 0 then 127 / amaxAvx x else 0)) hj
  simp only [e] at this
  exact this h1 h2

/-- q8_0: on every target, block `i` stores the scale `amax/127` and, for each element, a code that is closest
among all the 256 codes; the stored number misses the element by at most half a step. -/
theorem C130_quantise_q8_0 (t : Target) (P : Plat) {rnd : ℝ → Int} (hr : Rounds rnd) (k : Nat) (x : Nat → ℝ) :
    (quantQ80 t P rnd k x).length = k / 32 ∧
      ∀ i < k / 32, ∃ b, (quantQ80 t P rnd k x)[i]? = some b ∧ IsQ80 P (fun j => x (i * 32 + j)) b := by
  cases t
  · exact ⟨byIndex_length .., fun i hi => ⟨_, byIndex_get _ _ _ hi, q80Scalar_is P hr _⟩⟩
  · exact ⟨byIndex_length .., fun i hi => ⟨_, byIndex_get _ _ _ hi, q80Neon_is P hr _⟩⟩
  · rw [show quantQ80 .avx P rnd k x = byIndex 32 (q80Avx P rnd) (k / 32) x from byPtr_eq ..]
    exact ⟨byIndex_length .., fun i hi => ⟨_, byIndex_get _ _ _ hi, q80Avx_is P hr _⟩⟩

/-! ### q4_0 -/

/-- Block content of q4_0. -/
def IsQ40 (P : Plat) (x : Nat → ℝ) (b : Q40) : Prop :=
  b.Bytes ∧ ∃ a d, IsAmax 32 x a ∧ |d| = a / 8 ∧ b.d = P.store d ∧
    ∀ j < 32, Best (x j) (fun c => d * c) (-8) 7 (b.code j) ∧ |x j - d * b.code j| ≤ a / 8

theorem code4_spec {y : ℝ} (h : |y| ≤ 8) :
    ((code4 y : Nat) : Int) - 8 = max (-8) (min 7 (⌊y + 8.5⌋ - 8)) ∧ code4 y < 16 ∧ |y - ((⌊y + 8.5⌋ - 8 : Int) : ℝ)| ≤ 1 / 2 := by
  rw [abs_le] at h
  have hf1 := Int.floor_le (y + 8.5)
  have hf2 := Int.lt_floor_add_one (y + 8.5)
  have h0 : (0 : Int) ≤ ⌊y + 8.5⌋ := Int.floor_nonneg.mpr (by norm_num; linarith)
  have h17 : ⌊y + 8.5⌋ < 17 := by
    rw [Int.floor_lt]; push_cast; norm_num; linarith
  have ht : trunc (y + 8.5) = ⌊y + 8.5⌋ := by
    unfold trunc; rw [if_pos (by norm_num; linarith)]
  have hc : (code4 y : Int) = min 15 ⌊y + 8.5⌋ := by
    unfold code4
    rw [ht, i8_eq (by omega) (by omega)]
    have e : (min 15 ⌊y + 8.5⌋).emod 256 = min 15 ⌊y + 8.5⌋ := Int.emod_eq_of_lt (by omega) (by omega)
    rw [e]
    omega
  refine ⟨by omega, by omega, ?_⟩
  rw [abs_le]
  obtain ⟨f, hf⟩ : ∃ f : Int, f = ⌊y + 8.5⌋ := ⟨_, rfl⟩
  rw [← hf] at hf1 hf2 ⊢
  push_cast
  rw [show (8.5 : ℝ) = 17 / 2 by norm_num] at hf1 hf2
  constructor <;> linarith

theorem q40Block_is (P : Plat) (x : Nat → ℝ) : IsQ40 P x (q40Block P x) := by
  obtain ⟨ha, hm⟩ := maxLoop_spec (n := 32) (by norm_num) x
  obtain ⟨m, hmd⟩ : ∃ m, m = (maxLoop 32 x).2 := ⟨_, rfl⟩
  obtain ⟨a, had⟩ : ∃ a, a = (maxLoop 32 x).1 := ⟨_, rfl⟩
  rw [← hmd, ← had] at hm
  rw [← had] at ha
  obtain ⟨id, hid⟩ : ∃ id, id = if m / (-8) ≠ 0 then 1 / (m / (-8)) else 0 := ⟨_, rfl⟩
  have hq : q40Block P x = ⟨P.store (m / (-8)), fun j => (code4 (x (0 + j) * id) ||| (code4 (x (16 + j) * id) <<< 4)) % 256⟩ := by
    rw [hid, hmd]; rfl
  have hyb : ∀ j < 32, |x j * id| ≤ 8 := by
    intro j hj
    by_cases h0 : m / (-8) = 0
    · rw [hid, if_neg (not_not.mpr h0)]; simp
    · rw [hid, if_pos h0]
      have hm0 : m ≠ 0 := by rintro rfl; simp at h0
      have : |x j * (1 / (m / (-8)))| = |x j| * 8 / a := by
        rw [abs_mul, abs_div, abs_div, hm]; norm_num; ring
      have hap : 0 < a := by rw [← hm]; exact abs_pos.mpr hm0
      rw [this, div_le_iff₀ hap]
      have := ha.1 j hj
      linarith
  have hcode : ∀ j < 32, (q40Block P x).code j = ((code4 (x j * id) : Nat) : Int) - 8 := by
    intro j hj
    rw [hq]
    unfold Q40.code
    by_cases h : j < 16
    · rw [if_pos h]
      have h1 := (code4_spec (hyb j hj)).2.1
      have h2 := (code4_spec (hyb (16 + j) (by omega))).2.1
      simp only [Nat.zero_add]
      rw [or_shl4 _ h1]
      congr 2; omega
    · rw [if_neg h]
      have h1 := (code4_spec (hyb (j - 16) (by omega))).2.1
      have h2 := (code4_spec (hyb j hj)).2.1
      have e : 16 + (j - 16) = j := by omega
      simp only [Nat.zero_add, e]
      rw [or_shl4 _ h1]
      congr 2; omega
  refine ⟨fun j _ => by rw [hq]; exact Nat.mod_lt _ (by norm_num), a, m / (-8), ha, ?_, by rw [hq], ?_⟩
  · rw [abs_div, hm]; norm_num
  intro j hj
  rw [hcode j hj]
  obtain ⟨c1, _, c3⟩ := code4_spec (hyb j hj)
  rw [c1]
  have hxa := ha.1 j hj
  have hd0 : m / (-8) = 0 ∨ m / (-8) ≠ 0 := em _
  rcases hd0 with h0 | h0
  · have hm0 : m = 0 := by simpa using h0
    have ha0 : a = 0 := by rw [← hm, hm0, abs_zero]
    rw [ha0] at hxa
    have hx : x j = 0 := abs_eq_zero.mp (le_antisymm hxa (abs_nonneg _))
    refine ⟨⟨by omega, by omega, fun c _ _ => ?_⟩, ?_⟩
    · simp [h0]
    · rw [h0, hx, ha0]; simp
  · have hy : x j * id = (x j + 0) / (m / (-8)) := by rw [hid, if_pos h0]; ring
    have hb := best_of (x := x j) (d := m / (-8)) (m := 0) (r := ⌊x j * id + 8.5⌋ - 8) (lo := -8) (hi := 7) h0
      (by rw [← hy]; exact c3) (by norm_num)
    refine ⟨hb.congr (fun c => by ring), ?_⟩
    -- the error is at most one step
    have e2 : ∀ t : ℝ, x j - m / (-8) * t = m / (-8) * (x j * id - t) := by
      intro t; rw [hid, if_pos h0]
      have hm0 : m ≠ 0 := by rintro rfl; simp at h0
      field_simp; ring
    rw [e2, abs_mul]
    have e3 : |m / (-8)| = a / 8 := by rw [abs_div, hm]; norm_num
    rw [e3]
    have h1 : |x j * id - ((max (-8) (min 7 (⌊x j * id + 8.5⌋ - 8)) : Int) : ℝ)| ≤ 1 := by
      have hy8 := hyb j hj
      rw [abs_le] at hy8 c3 ⊢
      obtain ⟨z, hz⟩ : ∃ z : Int, z = ⌊x j * id + 8.5⌋ - 8 := ⟨_, rfl⟩
      rw [← hz] at c3 ⊢
      rcases le_or_gt z 7 with h7 | h7
      · rcases le_or_gt (-8) z with h8 | h8
        · rw [show max (-8) (min 7 z) = z by omega]; constructor <;> linarith
        · rw [show max (-8) (min 7 z) = -8 by omega]
          have : (z : ℝ) ≤ -9 := by exact_mod_cast (by omega : z ≤ -9)
          push_cast; constructor <;> linarith
      · rw [show max (-8) (min 7 z) = 7 by omega]
        have : (8 : ℝ) ≤ z := by exact_mod_cast (by omega : (8:Int) ≤ z)
        push_cast; constructor <;> linarith
    have ha0 : 0 ≤ a / 8 := div_nonneg ha.nonneg (by norm_num)
    calc _ ≤ a / 8 * 1 := mul_le_mul_of_nonneg_left h1 ha0
      _ = _ := by ring

/-- q4_0: block `i` stores a scale of magnitude `amax/8` and, for each element, a code that is closest among the
16 codes; the stored number misses the element by at most one step. -/
theorem C130_quantise_q4_0 (P : Plat) (k : Nat) (x : Nat → ℝ) :
    (quantQ40 P k x).length = k / 32 ∧
      ∀ i < k / 32, ∃ b, (quantQ40 P k x)[i]? = some b ∧ IsQ40 P (fun j => x (i * 32 + j)) b :=
  ⟨byIndex_length .., fun i hi => ⟨_, byIndex_get _ _ _ hi, q40Block_is P _⟩⟩

/-! ### q8_K -/

/-- Block content of q8_K. -/
def IsQ8K (x : Nat → ℝ) (b : Q8K) : Prop :=
  b.Bytes ∧ ∃ a, IsAmax 256 x a ∧ |b.d| = a / 128 ∧
    (∀ j < 256, Best (x j) (fun c => b.d * c) (-128) 127 (b.qs j) ∧ |x j - b.d * b.qs j| ≤ a / 128) ∧
    (b.d ≠ 0 → ∀ g < 16, b.bsums g = ∑ l ∈ Finset.range 16, b.qs (16 * g + l))

theorem q8KBlock_is {rnd : ℝ → Int} (hr : Rounds rnd) (junk : Nat → Int) (x : Nat → ℝ) :
    IsQ8K x (q8KBlock rnd junk x) := by
  obtain ⟨ha, hm⟩ := maxLoop_spec (n := 256) (by norm_num) x
  obtain ⟨m, hmd⟩ : ∃ m, m = (maxLoop 256 x).2 := ⟨_, rfl⟩
  obtain ⟨a, had⟩ : ∃ a, a = (maxLoop 256 x).1 := ⟨_, rfl⟩
  rw [← hmd, ← had] at hm
  rw [← had] at ha
  unfold q8KBlock
  simp only [← hmd, ← had]
  by_cases h0 : a = 0
  · rw [if_pos h0]
    refine ⟨fun j _ => by constructor <;> norm_num, a, ha, by simp [h0], fun j hj => ?_, fun h => absurd rfl h⟩
    have hxa := ha.1 j hj
    rw [h0] at hxa
    have hx : x j = 0 := abs_eq_zero.mp (le_antisymm hxa (abs_nonneg _))
    exact ⟨⟨by norm_num, by norm_num, fun c _ _ => by simp⟩, by simp [hx, h0]⟩
  · rw [if_neg h0]
    have hap : 0 < a := lt_of_le_of_ne ha.nonneg (Ne.symm h0)
    have hm0 : m ≠ 0 := by intro h; rw [h, abs_zero] at hm; exact h0 hm.symm
    have hyb : ∀ j < 256, |(-128 / m) * x j| ≤ (128 : Nat) := by
      intro j hj
      have : |(-128 / m) * x j| = |x j| * 128 / a := by rw [abs_mul, abs_div, hm]; norm_num; ring
      rw [this, div_le_iff₀ hap]
      have := ha.1 j hj
      push_cast; nlinarith
    have hq : ∀ j < 256, i8 (min 127 (rnd (-128 / m * x j))) = max (-128) (min 127 (rnd (-128 / m * x j))) := by
      intro j hj
      obtain ⟨r1, r2⟩ := hr.range (hyb j hj)
      push_cast at r1 r2
      rw [i8_eq (by omega) (by omega)]; omega
    have hd : (1 : ℝ) / (-128 / m) ≠ 0 := by
      rw [one_div_div]; exact div_ne_zero hm0 (by norm_num)
    refine ⟨fun j hj => by simp only [hq j hj]; omega, a, ha, ?_, fun j hj => ⟨?_, ?_⟩, fun _ g hg => ?_⟩
    · simp only [one_div_div, abs_div, hm]; norm_num
    · have hy : -128 / m * x j = (x j + 0) / (1 / (-128 / m)) := by field_simp; ring
      have hb := best_of (x := x j) (d := 1 / (-128 / m)) (m := 0) (r := rnd (-128 / m * x j)) (lo := -128) (hi := 127) hd
        (by rw [← hy]; exact hr _) (by norm_num)
      simp only [hq j hj]
      exact hb.congr (fun c => by ring)
    · simp only [hq j hj]
      have e2 : ∀ t : ℝ, x j - 1 / (-128 / m) * t = 1 / (-128 / m) * (-128 / m * x j - t) := by intro t; field_simp; ring
      rw [e2, abs_mul]
      have e3 : |1 / (-128 / m)| = a / 128 := by rw [one_div_div, abs_div, hm]; norm_num
      rw [e3]
      have hy8 := hyb j hj
      have c3 := hr (-128 / m * x j)
      obtain ⟨r1, r2⟩ := hr.range hy8
      have h1 : |-128 / m * x j - ((max (-128) (min 127 (rnd (-128 / m * x j))) : Int) : ℝ)| ≤ 1 := by
        obtain ⟨z, hz⟩ : ∃ z : Int, z = rnd (-128 / m * x j) := ⟨_, rfl⟩
        rw [← hz] at c3 r1 r2 ⊢
        rw [abs_le] at c3 hy8 ⊢
        push_cast at r1 r2 hy8
        rcases le_or_gt z 127 with h7 | h7
        · rw [show max (-128) (min 127 z) = z by omega]; constructor <;> linarith
        · rw [show max (-128) (min 127 z) = 127 by omega]
          have : (128 : ℝ) ≤ z := by exact_mod_cast (by omega : (128:Int) ≤ z)
          push_cast; constructor <;> linarith
      calc _ ≤ a / 128 * 1 := mul_le_mul_of_nonneg_left h1 (by positivity)
        _ = _ := by ring
    · have hb : |∑ l ∈ Finset.range 16, i8 (min 127 (rnd (-128 / m * x (g * 16 + l))))| ≤ (16 : Nat) * 128 := by
        refine sum_bound (fun l hl => ?_)
        rw [hq _ (by omega), abs_le]; omega
      rw [abs_le] at hb
      push_cast at hb
      show i16 (∑ ii ∈ Finset.range 16, _) = _
      rw [i16_eq (by omega) (by omega)]
      refine Finset.sum_congr rfl fun l _ => ?_
      rw [Nat.mul_comm g 16]

end Verif.Quant
