import Verif.Marlin.DequantLemmas

/-!
# C158: the operands of the tensor cores are the dequantised weights
-/

namespace Verif.Marlin

/-! ## The values `dequant` produces -/

theorem val_lo (q : BitVec 32) (r h : Nat) (hr : r < 2) (hh : h < 2) :
    fval fp16 (lane (bits16 .u4 q r) h) = 1024 + (field 4 q.toNat (r + 4 * h) : Nat) := by
  rw [field_bv]
  interval_cases r
  · simp only [bits16, if_pos]
    rw [show (0x64006400 : BitVec 32) = 0x6400#16 ++ 0x6400#16 from rfl, lane_lo _ (Or.inl rfl) q h hh,
      fval_lo]
    congr 4; omega
  · simp only [bits16, one_ne_zero, if_false]
    rw [show (0x64006400 : BitVec 32) = 0x6400#16 ++ 0x6400#16 from rfl, lane_lo _ (Or.inl rfl) _ h hh,
      fval_lo, extract_sshift _ _ _ _ (by omega)]
    congr 4; omega

theorem val_loB (q : BitVec 32) (r h : Nat) (hr : r < 2) (hh : h < 2) :
    fval bf16 (lane (bitsB16 q r) h) = 128 + (field 4 q.toNat (r + 4 * h) : Nat) := by
  rw [field_bv]
  interval_cases r
  · simp only [bitsB16, if_pos]
    rw [show (0x43004300 : BitVec 32) = 0x4300#16 ++ 0x4300#16 from rfl, lane_lo _ (Or.inr rfl) q h hh,
      fval_loB]
    congr 4; omega
  · simp only [bitsB16, one_ne_zero, if_false]
    rw [show (0x43004300 : BitVec 32) = 0x4300#16 ++ 0x4300#16 from rfl, lane_lo _ (Or.inr rfl) _ h hh,
      fval_loB, extract_sshift _ _ _ _ (by omega)]
    congr 4; omega

theorem val_byte (t : QT) (ht : t = .u8 ∨ t = .u8b128) (q : BitVec 32) (r h : Nat) (hr : r < 2)
    (hh : h < 2) :
    fval fp16 (lane (bits16 t q r) h) = 1024 + (field 8 q.toNat (r + 2 * h) : Nat) := by
  rw [field_bv]
  have : bits16 t q r = if r = 0 then prmt q 0x64646464 5 2 5 0 else prmt q 0x64646464 5 3 5 1 := by
    rcases ht with rfl | rfl <;> rfl
  rw [this, lane_prmt q r h hr hh, fval_byte, Nat.mul_comm 8]

theorem val_hi (q : BitVec 32) (h : Nat) (hh : h < 2) :
    fval fp16 (lane (lop3 q 0x00f000f0 0x64006400) h) = 1024 + 16 * (field 4 q.toNat (1 + 4 * h) : Nat) := by
  rw [field_bv, lane_hi q h hh, fval_hi]
  congr 5; omega

theorem const16 : fval fp16 0x6400 = 1024 ∧ fval fp16 0x6408 = 1032 ∧ fval fp16 0x2c00 = 1 / 16 ∧
    fval fp16 0xd480 = -72 ∧ fval fp16 0xd400 = -64 ∧ fval fp16 0x6480 = 1152 ∧
    fval bf16 0x4300 = 128 ∧ fval bf16 0x4308 = 136 := by decide +kernel

theorem FArith.sub_int16 (A : FArith fp16) {x y : Rat} (hx : fp16.Has x) (hy : fp16.Has y) (z : Int)
    (h : -256 ≤ z) (h' : z ≤ 256) (e : x - y = z) : A.sub x y = z := by
  rw [A.sub_exact x y hx hy (by rw [e]; exact has16 z h h'), e]

theorem FArith.sub_intB16 (A : FArith bf16) {x y : Rat} (hx : bf16.Has x) (hy : bf16.Has y) (z : Int)
    (h : -256 ≤ z) (h' : z ≤ 256) (e : x - y = z) : A.sub x y = z := by
  rw [A.sub_exact x y hx hy (by rw [e]; exact hasB16 z h h'), e]

theorem Fmt.has_val (f : Fmt) (w : BitVec 16) : f.Has (fval f w) := ⟨w, rfl⟩

/-- The stored value minus the bias of the type. -/
def QT.bias : QT → Int
  | .u4 | .u8 => 0
  | .u4b8 => 8
  | .u8b128 => 128

/-- **C158.** `dequant` without zero points, fp16, 4-bit types: exact for every word, whatever the
device does when it rounds. -/
theorem C158_dequant_4 (A : FArith fp16) (t : QT) (ht : t = .u4 ∨ t = .u4b8) (q : BitVec 32)
    (r h : Nat) (hr : r < 2) (hh : h < 2) :
    dequant16 A t q r h = (((field 4 q.toNat (r + 4 * h) : Nat) - t.bias : Int) : Rat) := by
  obtain ⟨c1, c2, c3, c4, c5, _⟩ := const16
  have hlt : field 4 q.toNat (r + 4 * h) < 16 := field_lt 4 _ _
  obtain rfl | rfl : r = 0 ∨ r = 1 := by omega
  · have hv := val_lo q 0 h (by omega) hh
    simp only [bits16, if_pos] at hv
    rcases ht with rfl | rfl
    · simp only [dequant16, if_pos, QT.bias]
      refine A.sub_int16 (fp16.has_val _) (fp16.has_val _) _ (by omega) (by omega) ?_
      rw [hv, c1]; push_cast; ring
    · simp only [dequant16, if_pos, QT.bias]
      refine A.sub_int16 (fp16.has_val _) (fp16.has_val _) _ (by omega) (by omega) ?_
      rw [hv, c2]; push_cast; ring
  · have hv := val_hi q h hh
    have key : ∀ (cst : BitVec 16) (z : Int), -256 ≤ z → z ≤ 256 →
        fval fp16 (lane (lop3 q 0x00f000f0 0x64006400) h) * fval fp16 0x2c00 + fval fp16 cst = z →
        A.fma (fval fp16 (lane (lop3 q 0x00f000f0 0x64006400) h)) (fval fp16 0x2c00) (fval fp16 cst) = z := by
      intro cst z h1 h2 e
      rw [A.fma_exact _ _ _ (fp16.has_val _) (fp16.has_val _) (fp16.has_val _)
        (by rw [e]; exact has16 z h1 h2), e]
    rcases ht with rfl | rfl
    · simp only [dequant16, one_ne_zero, if_false, QT.bias]
      refine key _ _ (by omega) (by omega) ?_
      rw [hv, c3, c5]; push_cast; ring
    · simp only [dequant16, one_ne_zero, if_false, QT.bias]
      refine key _ _ (by omega) (by omega) ?_
      rw [hv, c3, c4]; push_cast; ring

/-- **C158.** The same for 8-bit types. -/
theorem C158_dequant_8 (A : FArith fp16) (t : QT) (ht : t = .u8 ∨ t = .u8b128) (q : BitVec 32)
    (r h : Nat) (hr : r < 2) (hh : h < 2) :
    dequant16 A t q r h = (((field 8 q.toNat (r + 2 * h) : Nat) - t.bias : Int) : Rat) := by
  obtain ⟨c1, _, _, _, _, c6, _⟩ := const16
  have hlt : field 8 q.toNat (r + 2 * h) < 256 := field_lt 8 _ _
  have hv := val_byte t ht q r h hr hh
  rcases ht with rfl | rfl
  · refine A.sub_int16 (fp16.has_val _) (fp16.has_val _) _ (by simp only [QT.bias]; omega)
      (by simp only [QT.bias]; omega) ?_
    rw [hv, c1]; simp only [QT.bias]; push_cast; ring
  · refine A.sub_int16 (fp16.has_val _) (fp16.has_val _) _ (by simp only [QT.bias]; omega)
      (by simp only [QT.bias]; omega) ?_
    rw [hv, c6]; simp only [QT.bias]; push_cast; ring

/-- **C158.** The same for bfloat16, 4-bit types. -/
theorem C158_dequant_bf16 (A : FArith bf16) (t : QT) (ht : t = .u4 ∨ t = .u4b8) (q : BitVec 32)
    (r h : Nat) (hr : r < 2) (hh : h < 2) :
    dequantB16 A t q r h = (((field 4 q.toNat (r + 4 * h) : Nat) - t.bias : Int) : Rat) := by
  obtain ⟨_, _, _, _, _, _, c7, c8⟩ := const16
  have hlt : field 4 q.toNat (r + 4 * h) < 16 := field_lt 4 _ _
  have hv := val_loB q r h hr hh
  rcases ht with rfl | rfl
  · refine A.sub_intB16 (bf16.has_val _) (bf16.has_val _) _ (by simp only [QT.bias]; omega)
      (by simp only [QT.bias]; omega) ?_
    rw [hv, if_neg (by decide), c7]; simp only [QT.bias]; push_cast; ring
  · refine A.sub_intB16 (bf16.has_val _) (bf16.has_val _) _ (by simp only [QT.bias]; omega)
      (by simp only [QT.bias]; omega) ?_
    rw [hv, if_pos rfl, c8]; simp only [QT.bias]; push_cast; ring

end Verif.Marlin
