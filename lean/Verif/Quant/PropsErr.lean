import Verif.Quant.PropsQuantK

/-! C130: what survives quantising and dequantising a row, and what does not. -/

namespace Verif.Quant

/-- The scale fits the normal range of half precision (or is zero). -/
def Normal (d : ℝ) : Prop := d = 0 ∨ ((2 : ℝ) ^ (-14 : Int) ≤ |d| ∧ |d| ≤ 65504)

theorem arm_normal (h : HalfEnc) {d : ℝ} (hd : Normal d) : |(arm h).load ((arm h).store d) - d| ≤ |d| / 2048 := by
  rcases hd with rfl | ⟨h1, h2⟩
  · rw [arm_zero]; simp
  · have := arm_scale h h1 h2
    have e : (2 : ℝ) ^ (-11 : Int) = 1 / 2048 := by norm_num [zpow_neg]
    rw [e] at this; linarith

theorem coarse {x d l : ℝ} {q : Int} {B E : ℝ} (h1 : |x - d * q| ≤ E) (h2 : |l - d| ≤ |d| / 2048) (hq : |(q : ℝ)| ≤ B) :
    |l * q - x| ≤ E + B * |d| / 2048 := by
  have e : l * q - x = (l - d) * q - (x - d * q) := by ring
  rw [e]
  calc _ ≤ |(l - d) * q| + |x - d * q| := abs_sub _ _
    _ ≤ |d| / 2048 * B + E := by
      rw [abs_mul]
      exact add_le_add (mul_le_mul h2 hq (abs_nonneg _) (by positivity)) h1
    _ = _ := by ring

/-- q8_0 on Arm: every element of the row comes back within `0.562` steps of `amax/127`. -/
theorem C130_roundtrip_q8_0 (t : Target) (h : HalfEnc) {rnd : ℝ → Int} (hr : Rounds rnd) (k : Nat) (x : Nat → ℝ)
    (b0 : Q80) (y : Nat → ℝ) {i : Nat} (hi : i < k / 32) {a : ℝ} (ha : IsAmax 32 (fun j => x (i * 32 + j)) a)
    (hn : Normal (a / 127)) {j : Nat} (hj : j < 32) :
    |deqQ80 (arm h) k (fun i => (quantQ80 t (arm h) rnd k x).getD i b0) y (i * 32 + j) - x (i * 32 + j)| ≤
      (1 / 2 + 127 / 2048) * (a / 127) := by
  obtain ⟨_, hq⟩ := C130_quantise_q8_0 t (arm h) hr k x
  obtain ⟨b, hb, a', ha', hd, hc⟩ := hq i hi
  rw [ha.unique ha'] at hn ⊢
  rw [C130_dequantise_q8_0, if_pos (by omega)]
  have e1 : (i * 32 + j) / 32 = i := by omega
  have e2 : (i * 32 + j) % 32 = j := by omega
  have e3 : (quantQ80 t (arm h) rnd k x).getD i b0 = b := by rw [List.getD_eq_getElem?_getD, hb]; rfl
  obtain ⟨c1, c2, c3⟩ := hc j hj
  have hap : 0 ≤ a' / 127 := div_nonneg ha'.nonneg (by norm_num)
  have hB : |((b.qs j : Int) : ℝ)| ≤ 127 := by
    rw [abs_le]
    have := c2.2.1
    exact ⟨by exact_mod_cast c1, by exact_mod_cast this⟩
  have := coarse c3 (arm_normal h hn) hB
  rw [← hd, abs_of_nonneg hap] at this
  simp only [rowVal, Q80.val, e1, e2, e3]
  refine this.trans (le_of_eq ?_)
  ring

/-- q4_0 on Arm: every element of the row comes back within `1.004` steps of `amax/8`. -/
theorem C130_roundtrip_q4_0 (h : HalfEnc) (k : Nat) (x : Nat → ℝ) (b0 : Q40) (y : Nat → ℝ) {i : Nat} (hi : i < k / 32)
    {a : ℝ} (ha : IsAmax 32 (fun j => x (i * 32 + j)) a) (hn : Normal (a / 8)) {j : Nat} (hj : j < 32) :
    |deqQ40 (arm h) k (fun i => (quantQ40 (arm h) k x).getD i b0) y (i * 32 + j) - x (i * 32 + j)| ≤ (1 + 8 / 2048) * (a / 8) := by
  obtain ⟨_, hq⟩ := C130_quantise_q4_0 (arm h) k x
  obtain ⟨b, hb, _, a', d, ha', hda, hd, hc⟩ := hq i hi
  rw [ha.unique ha'] at hn ⊢
  rw [C130_dequantise_q4_0, if_pos (by omega)]
  have e1 : (i * 32 + j) / 32 = i := by omega
  have e2 : (i * 32 + j) % 32 = j := by omega
  have e3 : (quantQ40 (arm h) k x).getD i b0 = b := by rw [List.getD_eq_getElem?_getD, hb]; rfl
  obtain ⟨c2, c3⟩ := hc j hj
  have hap : 0 ≤ a' / 8 := div_nonneg ha'.nonneg (by norm_num)
  have hnd : Normal d := by
    rcases hn with h0 | ⟨h1, h2⟩
    · left; rw [h0] at hda; exact abs_eq_zero.mp hda
    · right; rw [abs_of_nonneg hap, ← hda] at h1 h2; exact ⟨h1, h2⟩
  have hB : |((b.code j : Int) : ℝ)| ≤ 8 := by
    rw [abs_le]
    have h1 := c2.1; have h2 := c2.2.1
    exact ⟨by exact_mod_cast h1, by exact_mod_cast (by omega : b.code j ≤ 8)⟩
  have := coarse c3 (arm_normal h hnd) hB
  rw [← hd, hda] at this
  simp only [rowVal, Q40.val, e1, e2, e3]
  refine this.trans (le_of_eq ?_)
  ring

/-- q8_K on every platform: within one step of `amax/128`. -/
theorem C130_roundtrip_q8_K {rnd : ℝ → Int} (hr : Rounds rnd) (junk : Nat → Int) (k : Nat) (x : Nat → ℝ) (b0 : Q8K) {i : Nat}
    (hi : i < k / 256) {a : ℝ} (ha : IsAmax 256 (fun j => x (i * 256 + j)) a) {j : Nat} (hj : j < 256) :
    ∃ v, (deqQ8K k (fun i => (quantQ8K rnd junk k x).getD i b0))[i * 256 + j]? = some v ∧ |v - x (i * 256 + j)| ≤ a / 128 := by
  obtain ⟨_, hq⟩ := C130_quantise_q8_K hr junk k x
  obtain ⟨b, hb, _, a', ha', _, hc, _⟩ := hq i hi
  rw [ha.unique ha']
  refine ⟨_, (C130_dequantise_q8_K k _).2 (i * 256 + j) (by omega), ?_⟩
  have e1 : (i * 256 + j) / 256 = i := by omega
  have e2 : (i * 256 + j) % 256 = j := by omega
  have e3 : (quantQ8K rnd junk k x).getD i b0 = b := by rw [List.getD_eq_getElem?_getD, hb]; rfl
  simp only [rowVal, Q8K.val, e1, e2, e3]
  rw [abs_sub_comm]
  exact (hc j hj).2

/-! ### A file written on one platform and read on the other -/

theorem enc_close (h : HalfEnc) {d : ℝ} (h1 : (2 : ℝ) ^ (-14 : Int) ≤ d) (h2 : d ≤ 65504) :
    |halfVal (h.enc d) - d| ≤ d / 2048 := by
  have hp : 0 < d := lt_of_lt_of_le (zpow_pos (by norm_num) _) h1
  have := arm_normal h (d := d) (Or.inr (by rw [abs_of_pos hp]; exact ⟨h1, h2⟩))
  rwa [abs_of_pos hp] at this

/-- Violation: a block whose scale was stored in half precision with magnitude at most one half (every model file
converted from GGUF, or quantised on Arm, has such blocks) reads as all zeros on x86, although on Arm it stands for
numbers as large as `127/2`. -/
theorem C130_portable_violated (h : HalfEnc) {d : ℝ} (h1 : (2 : ℝ) ^ (-14 : Int) ≤ d) (h2 : d ≤ 1 / 2) (qs : Nat → Int) (j : Nat) :
    Q80.val (x86 h) ⟨(arm h).store d, qs⟩ j = 0 ∧
      |Q80.val (arm h) ⟨(arm h).store d, qs⟩ j| ≥ d * (2047 / 2048) * |(qs j : ℝ)| := by
  have hp : 0 < d := lt_of_lt_of_le (zpow_pos (by norm_num) _) h1
  have hc := enc_close h h1 (by linarith)
  rw [abs_le] at hc
  refine ⟨?_, ?_⟩
  · unfold Q80.val
    rw [x86_small h, zero_mul]
    show |halfVal (h.enc d)| < 1
    rw [abs_lt]; constructor <;> linarith
  · show |halfVal (h.enc d) * _| ≥ _
    rw [abs_mul]
    refine mul_le_mul_of_nonneg_right ?_ (abs_nonneg _)
    rw [abs_of_nonneg (by linarith)]; linarith

/-- The other direction: a scale below one quantised on x86 reads on Arm as a number above 1000. -/
theorem C130_portable_back_violated (h : HalfEnc) {d : ℝ} (h1 : (2 : ℝ) ^ (-14 : Int) ≤ d) (h2 : d < 1) :
    1000 < (arm h).load ((x86 h).store d) := by
  have hp : 0 < d := lt_of_lt_of_le (zpow_pos (by norm_num) _) h1
  have hc := enc_close h h1 (by linarith)
  have hf := h.fin d (by rw [abs_of_pos hp]; linarith)
  rw [abs_le] at hc
  have e14 : (2 : ℝ) ^ (-14 : Int) = 1 / 16384 := by norm_num [zpow_neg]
  have hlow : 2047 / 2048 * (1 / 16384) ≤ halfVal (h.enc d) := by rw [e14] at h1; linarith
  have hbig : 1024 ≤ h.enc d := by
    by_contra hlt
    have hlt : h.enc d < 1024 := by omega
    have : halfVal (h.enc d) = ((h.enc d : Nat) : ℝ) * (2 : ℝ) ^ (-24 : Int) := by
      unfold halfVal
      rw [if_neg (by omega), if_pos (by omega), Nat.mod_eq_of_lt hlt, one_mul]
    rw [this] at hlow
    have e24 : (2 : ℝ) ^ (-24 : Int) = 1 / 16777216 := by norm_num [zpow_neg]
    have h3 : ((h.enc d : Nat) : ℝ) ≤ 1023 := by exact_mod_cast (by omega : h.enc d ≤ 1023)
    rw [e24] at hlow
    linarith
  have hsmall : h.enc d < 32768 := by
    by_contra hge
    have hneg : halfVal (h.enc d) ≤ 0 := by
      unfold halfVal
      rw [if_pos (by have := hf.1; omega)]
      have : (0 : ℝ) ≤ (if h.enc d / 1024 % 32 = 0 then ((h.enc d % 1024 : Nat) : ℝ) * (2 : ℝ) ^ (-24 : Int)
          else ((1024 + h.enc d % 1024 : Nat) : ℝ) * (2 : ℝ) ^ ((h.enc d / 1024 % 32 : Nat) - 25 : Int)) := by
        split
        · exact mul_nonneg (Nat.cast_nonneg _) (zpow_pos (by norm_num) _).le
        · exact mul_nonneg (Nat.cast_nonneg _) (zpow_pos (by norm_num) _).le
      linarith
    linarith
  have hn1 : (1024 : ℝ) ≤ (h.enc d : Nat) := by exact_mod_cast hbig
  have hn2 : ((h.enc d : Nat) : ℝ) ≤ 32768 := by exact_mod_cast hsmall.le
  have hc2 := enc_close h (d := ((h.enc d : Nat) : ℝ)) (by rw [e14]; linarith) (by linarith)
  rw [abs_le] at hc2
  show 1000 < halfVal (h.enc ((h.enc d : Nat) : ℝ))
  linarith

/-! ### Concrete cases -/

theorem rounds_round : Rounds (fun x => round x) := fun x => abs_sub_round x

/-- A row of 64 elements with both signs meets the hypotheses: block 1 has amax `63/64`. -/
example : IsAmax 32 (fun j => (fun p : Nat => if p % 2 = 0 then (p : ℝ) / 64 else -((p : ℝ) / 64)) (1 * 32 + j)) (63 / 64) ∧
    Normal ((63 / 64 : ℝ) / 127) ∧ Normal ((63 / 64 : ℝ) / 8) := by
  refine ⟨⟨fun j hj => ?_, 31, by norm_num, ?_⟩, Or.inr ?_, Or.inr ?_⟩
  · have h : |(fun p : Nat => if p % 2 = 0 then (p : ℝ) / 64 else -((p : ℝ) / 64)) (1 * 32 + j)| = ((1 * 32 + j : Nat) : ℝ) / 64 := by
      simp only
      split
      · exact abs_of_nonneg (by positivity)
      · rw [abs_neg]; exact abs_of_nonneg (by positivity)
    rw [h]
    have : ((1 * 32 + j : Nat) : ℝ) ≤ 63 := by exact_mod_cast (by omega)
    linarith
  · norm_num [abs_of_nonneg]
  · norm_num [zpow_neg, abs_of_nonneg]
  · norm_num [zpow_neg, abs_of_nonneg]

/-- An instance of the portability violation: a weight block with scale `1/100`. -/
example (h : HalfEnc) : Q80.val (x86 h) ⟨(arm h).store (1 / 100), fun _ => 127⟩ 0 = 0 ∧
    1 < |Q80.val (arm h) ⟨(arm h).store (1 / 100), fun _ => 127⟩ 0| := by
  obtain ⟨a, b⟩ := C130_portable_violated h (d := 1 / 100) (by norm_num [zpow_neg]) (by norm_num) (fun _ => 127) 0
  refine ⟨a, lt_of_lt_of_le ?_ b⟩
  norm_num [abs_of_nonneg]

end Verif.Quant
