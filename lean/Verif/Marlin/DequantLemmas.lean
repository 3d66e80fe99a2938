import Verif.Marlin.Dequant
import Verif.Marlin.PropsRepack

namespace Verif.Marlin

/-! ## Bits -/

theorem field_bv (b i : Nat) (q : BitVec 32) : field b q.toNat i = (q.extractLsb' (i * b) b).toNat := by
  rw [field, Nat.and_two_pow_sub_one_eq_mod, BitVec.extractLsb'_toNat]

theorem field_ofNat {b i : Nat} (w : Nat) (h : i * b + b ≤ 32) :
    field b (BitVec.ofNat 32 w).toNat i = field b w i := by
  unfold field
  apply Nat.eq_of_testBit_eq
  intro k
  simp only [Nat.testBit_and, Nat.testBit_shiftRight, BitVec.toNat_ofNat, Nat.testBit_mod_two_pow,
    Nat.testBit_two_pow_sub_one]
  by_cases hk : k < b
  · have : i * b + k < 32 := by omega
    simp [this]
  · simp [hk]

/-- nibble `s` of a word under the fp16 exponent -/
theorem lane_lo (E : BitVec 16) (hE : E = 0x6400#16 ∨ E = 0x4300#16) (q : BitVec 32) (h : Nat) (hh : h < 2) :
    lane (lop3 q 0x000f000f (E ++ E)) h = E ||| (q.extractLsb' (16 * h) 4).setWidth 16 := by
  rcases hE with rfl | rfl <;> interval_cases h <;>
  · apply BitVec.eq_of_getLsbD_eq
    intro i hi
    interval_cases i <;> simp [lane, lop3, BitVec.getLsbD_append]

theorem lane_hi (q : BitVec 32) (h : Nat) (hh : h < 2) :
    lane (lop3 q 0x00f000f0 0x64006400) h
      = 0x6400#16 ||| (q.extractLsb' (16 * h + 4) 4).setWidth 16 <<< 4 := by
  interval_cases h <;>
  · apply BitVec.eq_of_getLsbD_eq
    intro i hi
    interval_cases i <;> simp [lane, lop3]

theorem lane_prmt (q : BitVec 32) (r h : Nat) (hr : r < 2) (hh : h < 2) :
    lane (if r = 0 then prmt q 0x64646464 5 2 5 0 else prmt q 0x64646464 5 3 5 1) h
      = 0x6400#16 ||| (q.extractLsb' (8 * (r + 2 * h)) 8).setWidth 16 := by
  interval_cases r <;> interval_cases h <;>
  · apply BitVec.eq_of_getLsbD_eq
    intro i hi
    interval_cases i <;> simp [lane, prmt, selByte]

theorem extract_sshift (q : BitVec 32) (s a n : Nat) (h : a + s + n ≤ 32) :
    (q.sshiftRight s).extractLsb' a n = q.extractLsb' (a + s) n := by
  apply BitVec.eq_of_getLsbD_eq
  intro i hi
  simp only [BitVec.getLsbD_extractLsb', hi, decide_true, Bool.true_and, BitVec.getLsbD_sshiftRight]
  have : s + (a + i) < 32 := by omega
  have h2 : ¬ 32 ≤ a + i := by omega
  simp [h2, this]
  congr 1; omega

theorem all4 (P : BitVec 4 → Prop) (h : ∀ n, n < 16 → P (BitVec.ofNat 4 n)) (v : BitVec 4) : P v := by
  have := h v.toNat v.isLt
  rwa [BitVec.ofNat_toNat, BitVec.setWidth_eq] at this

theorem all8 (P : BitVec 8 → Prop) (h : ∀ n, n < 256 → P (BitVec.ofNat 8 n)) (v : BitVec 8) : P v := by
  have := h v.toNat v.isLt
  rwa [BitVec.ofNat_toNat, BitVec.setWidth_eq] at this

theorem fval_lo (v : BitVec 4) : fval fp16 (0x6400#16 ||| v.setWidth 16) = 1024 + (v.toNat : Rat) := by
  refine all4 (fun v => fval fp16 (0x6400#16 ||| v.setWidth 16) = 1024 + (v.toNat : Rat)) ?_ v
  decide +kernel

theorem fval_loB (v : BitVec 4) : fval bf16 (0x4300#16 ||| v.setWidth 16) = 128 + (v.toNat : Rat) := by
  refine all4 (fun v => fval bf16 (0x4300#16 ||| v.setWidth 16) = 128 + (v.toNat : Rat)) ?_ v
  decide +kernel

theorem fval_hi (v : BitVec 4) :
    fval fp16 (0x6400#16 ||| v.setWidth 16 <<< 4) = 1024 + 16 * (v.toNat : Rat) := by
  refine all4 (fun v => fval fp16 (0x6400#16 ||| v.setWidth 16 <<< 4) = 1024 + 16 * (v.toNat : Rat)) ?_ v
  decide +kernel

theorem fval_byte (v : BitVec 8) : fval fp16 (0x6400#16 ||| v.setWidth 16) = 1024 + (v.toNat : Rat) := by
  refine all8 (fun v => fval fp16 (0x6400#16 ||| v.setWidth 16) = 1024 + (v.toNat : Rat)) ?_ v
  decide +kernel

/-- Small integers are numbers of both formats. -/
theorem has16 (x : Int) (h : -256 ≤ x) (h' : x ≤ 256) : fp16.Has x := by
  have key : ∀ n : Nat, n < 257 → ∃ w, w < 65536 ∧ fval fp16 (BitVec.ofNat 16 w) = (n : Rat) ∧
      fval fp16 (BitVec.ofNat 16 (w + 32768)) = -(n : Rat) ∧ True := by
    intro n hn
    refine ⟨if n = 0 then 0 else (15 + n.log2) * 1024 + (n - 2 ^ n.log2) * 2 ^ (10 - n.log2), ?_⟩
    revert n
    decide +kernel
  rcases Int.le_total 0 x with h0 | h0
  · obtain ⟨n, rfl⟩ := Int.eq_ofNat_of_zero_le h0
    obtain ⟨w, _, hw, _⟩ := key n (by omega)
    exact ⟨_, by rw [hw]; simp⟩
  · obtain ⟨n, hn⟩ := Int.eq_ofNat_of_zero_le (show 0 ≤ -x by omega)
    obtain ⟨w, _, _, hw, _⟩ := key n (by omega)
    refine ⟨_, hw.trans ?_⟩
    have : x = -(n : Int) := by omega
    subst this
    simp

theorem hasB16 (x : Int) (h : -256 ≤ x) (h' : x ≤ 256) : bf16.Has x := by
  have key : ∀ n : Nat, n < 257 → ∃ w, w < 65536 ∧ fval bf16 (BitVec.ofNat 16 w) = (n : Rat) ∧
      fval bf16 (BitVec.ofNat 16 (w + 32768)) = -(n : Rat) ∧ True := by
    intro n hn
    refine ⟨if n = 0 then 0 else (127 + n.log2) * 128 + (n - 2 ^ n.log2) * 2 ^ 7 / 2 ^ n.log2, ?_⟩
    revert n
    decide +kernel
  rcases Int.le_total 0 x with h0 | h0
  · obtain ⟨n, rfl⟩ := Int.eq_ofNat_of_zero_le h0
    obtain ⟨w, _, hw, _⟩ := key n (by omega)
    exact ⟨_, by rw [hw]; simp⟩
  · obtain ⟨n, hn⟩ := Int.eq_ofNat_of_zero_le (show 0 ≤ -x by omega)
    obtain ⟨w, _, _, hw, _⟩ := key n (by omega)
    refine ⟨_, hw.trans ?_⟩
    have : x = -(n : Int) := by omega
    subst this
    simp

end Verif.Marlin
