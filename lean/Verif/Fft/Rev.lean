import Verif.Fft.Model
import Mathlib.Tactic.IntervalCases

/-!
# Bit reversal
-/

namespace Verif.Fft

/-- The number whose `b` low bits are those of `n` in reverse. -/
def rev : Nat → Nat → Nat
  | 0, _ => 0
  | b + 1, n => 2 ^ b * (n % 2) + rev b (n / 2)

theorem rev_lt : ∀ b n, rev b n < 2 ^ b
  | 0, _ => by simp [rev]
  | b + 1, n => by
    have := rev_lt b (n / 2)
    have h : n % 2 ≤ 1 := by omega
    have : 2 ^ b * (n % 2) ≤ 2 ^ b * 1 := Nat.mul_le_mul_left _ h
    rw [rev, Nat.pow_succ]
    omega

theorem rev_testBit : ∀ b n i, (rev b n).testBit i = (decide (i < b) && n.testBit (b - 1 - i))
  | 0, n, i => by simp [rev]
  | b + 1, n, i => by
    rw [rev, Nat.testBit_two_pow_mul_add _ (rev_lt _ _), rev_testBit b]
    split_ifs with h
    · have : b + 1 - 1 - i = (b - 1 - i) + 1 := by omega
      rw [this, Nat.testBit_add_one]
      simp [h, show i < b + 1 by omega]
    · rcases Nat.eq_or_lt_of_le (Nat.not_lt.mp h) with rfl | hlt
      · simp [Nat.testBit_zero]
      · have : ¬ i < b + 1 := by omega
        rw [Nat.testBit_lt_two_pow]
        · simp [this]
        · calc n % 2 < 2 ^ 1 := by omega
            _ ≤ 2 ^ (i - b) := Nat.pow_le_pow_right (by decide) (by omega)

theorem rev_even (b j : Nat) : rev (b + 1) (2 * j) = rev b j := by
  rw [rev, Nat.mul_mod_right, Nat.mul_div_cancel_left _ (by decide)]
  simp

theorem rev_odd (b j : Nat) : rev (b + 1) (2 * j + 1) = 2 ^ b + rev b j := by
  rw [rev, show (2 * j + 1) % 2 = 1 by omega, show (2 * j + 1) / 2 = j by omega, Nat.mul_one]

theorem rev_rev {b n : Nat} (h : n < 2 ^ b) : rev b (rev b n) = n := by
  apply Nat.eq_of_testBit_eq
  intro i
  rw [rev_testBit]
  by_cases hi : i < b
  · rw [rev_testBit]
    simp [hi, show b - 1 - i < b by omega, show b - 1 - (b - 1 - i) = i by omega]
  · rw [Nat.testBit_lt_two_pow (lt_of_lt_of_le h (Nat.pow_le_pow_right (by decide) (by omega)))]
    simp [hi]

/-! ## The table -/

theorem table_bits : ∀ b : Fin 256, ∀ i : Fin 8, (table.getD b 0).getLsbD i = (BitVec.ofNat 8 b).getLsbD (7 - i) := by
  decide +kernel

theorem entry_bits (x : BitVec 32) (i : Nat) : (entry x).getLsbD i = (decide (i < 8) && x.getLsbD (7 - i)) := by
  have hlt : (x &&& 0xff).toNat < 256 := by
    rw [BitVec.toNat_and]
    exact lt_of_le_of_lt Nat.and_le_right (by decide)
  rw [entry]
  by_cases hi : i < 8
  · have := table_bits ⟨_, hlt⟩ ⟨i, hi⟩
    simp only at this
    rw [BitVec.getLsbD_setWidth, this]
    have e : (BitVec.ofNat 8 (x &&& 0xff).toNat).getLsbD (7 - i) = (x &&& 0xff).getLsbD (7 - i) := by
      rw [BitVec.getLsbD_ofNat]
      simp [show 7 - i < 8 by omega, BitVec.getLsbD]
    rw [e, BitVec.getLsbD_and]
    interval_cases i <;> simp
  · rw [BitVec.getLsbD_setWidth, BitVec.getLsbD_of_ge _ _ (by omega)]
    simp [hi]

/-- `bitReverse` on its domain. -/
theorem bitReverse_eq {bits num : Nat} (hb : bits ≤ 32) (hn : num < 2 ^ bits) : bitReverse num bits = rev bits num := by
  have hn32 : num < 2 ^ 32 := lt_of_lt_of_le hn (Nat.pow_le_pow_right (by decide) hb)
  obtain ⟨x, hx⟩ : ∃ x, x = BitVec.ofNat 32 num := ⟨_, rfl⟩
  have hxb : ∀ i, x.getLsbD i = num.testBit i := by
    intro i
    rw [hx, BitVec.getLsbD_ofNat]
    by_cases h : i < 32
    · simp [h]
    · rw [Nat.testBit_lt_two_pow (lt_of_lt_of_le hn32 (Nat.pow_le_pow_right (by decide) (by omega)))]
      simp
  have key : ∀ i, i < 32 → ((entry x <<< 24) ||| (entry (x >>> 8) <<< 16) ||| (entry (x >>> 16) <<< 8) ||| entry (x >>> 24)).getLsbD i =
      x.getLsbD (31 - i) := by
    intro i hi
    simp only [BitVec.getLsbD_or, BitVec.getLsbD_shiftLeft, entry_bits, BitVec.getLsbD_ushiftRight]
    interval_cases i <;> simp
  apply Nat.eq_of_testBit_eq
  intro i
  rw [bitReverse, ← hx, rev_testBit, ← hxb]
  generalize (entry x <<< 24) ||| (entry (x >>> 8) <<< 16) ||| (entry (x >>> 16) <<< 8) ||| entry (x >>> 24) = r at key
  have e : (r.zeroExtend 64 >>> (32 - bits)).toNat.testBit i = (r.zeroExtend 64 >>> (32 - bits)).getLsbD i := rfl
  rw [e, BitVec.getLsbD_ushiftRight, BitVec.getLsbD_setWidth]
  by_cases hi : i < bits
  · rw [key _ (by omega), show 31 - (32 - bits + i) = bits - 1 - i by omega]
    simp [hi, show 32 - bits + i < 64 by omega]
  · rw [BitVec.getLsbD_of_ge _ _ (by omega)]
    simp [hi]

end Verif.Fft
