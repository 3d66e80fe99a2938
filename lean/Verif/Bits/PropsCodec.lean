import Verif.Bits.CodecLemmas

/-!
# C164: packed values come back
-/

namespace Verif.Bits

theorem uintN_ok {bits N : Nat} (hb : 1 ≤ bits ∧ bits ≤ 8) (hN : N = 32 ∨ N = 64 ∨ N = 128) :
    ∃ c, uintN bits N = some c ∧ c.n = N ∧ 8 * c.b = bits * N ∧ c.Ok bits := by
  obtain ⟨h1, h8⟩ := hb
  rcases hN with rfl | rfl | rfl
  · refine ⟨uint32 bits, rfl, ?_⟩
    interval_cases bits
    · exact ⟨rfl, rfl, times_ok (by decide) (by decide) (lanes_ok (by decide) ok1) 4⟩
    · exact ⟨rfl, rfl, lanes_ok (by decide) ok2⟩
    · exact ⟨rfl, rfl, times_ok (by decide) (by decide) (lanes_ok (by decide) ok3) 4⟩
    · exact ⟨rfl, rfl, lanes_ok (by decide) ok4⟩
    · exact ⟨rfl, rfl, times_ok (by decide) (by decide) (lanes_ok (by decide) ok5) 4⟩
    · exact ⟨rfl, rfl, lanes_ok (by decide) ok6⟩
    · exact ⟨rfl, rfl, times_ok (by decide) (by decide) (lanes_ok (by decide) ok7s) 4⟩
    · exact ⟨rfl, rfl, raw_ok _ _⟩
  · refine ⟨uint64 bits, rfl, ?_⟩
    interval_cases bits
    · exact ⟨rfl, rfl, u1x64_ok⟩
    · exact ⟨rfl, rfl, lanes_ok (by decide) ok2⟩
    · exact ⟨rfl, rfl, lanes_ok (by decide) ok3⟩
    · exact ⟨rfl, rfl, times_ok (by decide) (by decide) (lanes_ok (by decide) ok4) 2⟩
    · exact ⟨rfl, rfl, u5x64_ok⟩
    · exact ⟨rfl, rfl, lanes_ok (by decide) ok6⟩
    · exact ⟨rfl, rfl, lanes_ok (by decide) (ok7 true)⟩
    · exact ⟨rfl, rfl, raw_ok _ _⟩
  · refine ⟨uint128 bits, rfl, ?_⟩
    interval_cases bits
    · exact ⟨rfl, rfl, lanes_ok (by decide) ok1⟩
    · exact ⟨rfl, rfl, times_ok (by decide) (by decide) (lanes_ok (by decide) ok2) 2⟩
    · exact ⟨rfl, rfl, lanes_ok (by decide) ok3⟩
    · exact ⟨rfl, rfl, times_ok (by decide) (by decide) (lanes_ok (by decide) ok4) 4⟩
    · exact ⟨rfl, rfl, lanes_ok (by decide) ok5⟩
    · exact ⟨rfl, rfl, times_ok (by decide) (by decide) (lanes_ok (by decide) ok6) 2⟩
    · exact ⟨rfl, rfl, lanes_ok (by decide) (ok7 false)⟩
    · exact ⟨rfl, rfl, raw_ok _ _⟩

/-- **C164.** For every width from one to eight bits and every block of 32, 64 or 128 values: the packed block
has exactly `bits * N / 8` bytes, and unpacking it — with anything in memory behind it — gives every value
back. -/
theorem C164_unsigned {bits N : Nat} (hb : 1 ≤ bits ∧ bits ≤ 8) (hN : N = 32 ∨ N = 64 ∨ N = 128) :
    ∃ c, uintN bits N = some c ∧ 8 * c.b = bits * N ∧
      ∀ u : Nat → Byte, (∀ i, i < N → (u i).toNat < 2 ^ bits) →
        ∀ mem : Nat → Byte, (∀ p, p < c.b → mem p = c.pack u p) → ∀ i, i < N → c.unpack mem i = u i := by
  obtain ⟨c, h1, h2, h3, h4⟩ := uintN_ok hb hN
  subst h2
  exact ⟨c, h1, h3, h4⟩

theorem shift_range {bits : Nat} (h1 : 1 ≤ bits) (h8 : bits < 8) : ∀ b : Byte, -(2 ^ (bits - 1)) ≤ b.toInt → b.toInt < 2 ^ (bits - 1) →
    (b + BitVec.ofNat 8 (2 ^ (bits - 1))).toNat < 2 ^ bits := by
  interval_cases bits <;> decide +kernel

theorem unshift (b : Byte) {bits : Nat} (h1 : 1 ≤ bits) (h8 : bits < 8) :
    b + BitVec.ofNat 8 (2 ^ (bits - 1)) + BitVec.ofInt 8 (-(2 ^ (bits - 1))) = b := by
  have : ∀ b : Byte, b + BitVec.ofNat 8 (2 ^ (bits - 1)) + BitVec.ofInt 8 (-(2 ^ (bits - 1))) = b := by
    interval_cases bits <;> decide +kernel
  exact this b

theorem lowbit_ok {bits : Nat} (hb : 1 ≤ bits ∧ bits ≤ 8) {c : Codec} (h : c.Ok bits) (u : Nat → Byte)
    (hu : ∀ i, i < c.n → -(2 ^ (bits - 1)) ≤ (u i).toInt ∧ (u i).toInt < 2 ^ (bits - 1)) (mem : Nat → Byte)
    (hm : ∀ p, p < c.b → mem p = (lowbit bits c).pack u p) (i : Nat) (hi : i < c.n) : (lowbit bits c).unpack mem i = u i := by
  show (if bits < 8 then _ else _) = u i
  by_cases h8 : bits < 8
  · rw [if_pos h8, h (fun i => u i + BitVec.ofNat 8 (2 ^ (bits - 1))) (fun i hi => shift_range hb.1 h8 _ (hu i hi).1 (hu i hi).2) mem
      (fun p hp => by rw [hm p hp]; show (if bits < 8 then _ else _) = _; rw [if_pos h8]) i hi]
    exact unshift _ hb.1 h8
  · have h88 : bits = 8 := by omega
    rw [if_neg h8, h u (fun i _ => by rw [h88]; exact (u i).isLt) mem
      (fun p hp => by rw [hm p hp]; show (if bits < 8 then _ else _) = _; rw [if_neg h8]) i hi]

/-- **C164.** The same for signed values in the range of the width. -/
theorem C164_signed {bits N : Nat} (hb : 1 ≤ bits ∧ bits ≤ 8) (hN : N = 32 ∨ N = 64 ∨ N = 128) :
    ∃ c, uintN bits N = some c ∧ 8 * (lowbit bits c).b = bits * N ∧
      ∀ u : Nat → Byte, (∀ i, i < N → -(2 ^ (bits - 1)) ≤ (u i).toInt ∧ (u i).toInt < 2 ^ (bits - 1)) →
        ∀ mem : Nat → Byte, (∀ p, p < (lowbit bits c).b → mem p = (lowbit bits c).pack u p) →
          ∀ i, i < N → (lowbit bits c).unpack mem i = u i := by
  obtain ⟨c, h1, h2, h3, h4⟩ := uintN_ok hb hN
  subst h2
  exact ⟨c, h1, h3, fun u hu mem hm i hi => lowbit_ok hb h4 u hu mem hm i hi⟩

/-- Non-vacuity: signed three-bit values, all eight of them. -/
example : ∀ i : Fin 32, -(2 ^ (3 - 1)) ≤ (BitVec.ofInt 8 (((i.val % 8 : Nat) : Int) - 4)).toInt ∧
    (BitVec.ofInt 8 (((i.val % 8 : Nat) : Int) - 4)).toInt < 2 ^ (3 - 1) := by decide

end Verif.Bits
