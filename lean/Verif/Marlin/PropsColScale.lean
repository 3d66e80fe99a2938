import Verif.Marlin.PropsOperand

/-!
# C158: layers with one scale per column, and examples
-/

namespace Verif.Marlin

variable {c : GemmCfg} {K row col : Nat}

/-- The column of the result in column group `j`, fragment `f`, register `x` of a thread: the
accumulator layout of the tensor-core instruction (two neighbouring columns per thread). -/
def accCol (c : GemmCfg) (col tid j f x : Nat) : Nat :=
  64 * (c.tnb / 4 * col + tid / 32 % (c.tnb / 4)) + 16 * j + 8 * f + (2 * (tid % 32 % 4) + x)

theorem single_get : ∀ a, a < 4 → ∀ t, t < 4 → ∀ x, x < 2 →
    scalePermSingle.getD (8 * a + (2 * t + x)) 0 = 2 * a + 8 * t + x := by decide +kernel

theorem single_len : scalePermSingle.length = 32 := by decide +kernel

theorem gather_single {α : Type} (y : Nat → α) (u a t x : Nat) (ha : a < 4) (ht : t < 4) (hx : x < 2) :
    gather scalePermSingle y (32 * u + (8 * a + (2 * t + x))) = y (32 * u + (2 * a + 8 * t + x)) := by
  unfold gather
  rw [single_len, show (32 * u + (8 * a + (2 * t + x))) / 32 = u by omega,
    show (32 * u + (8 * a + (2 * t + x))) % 32 = 8 * a + (2 * t + x) by omega, single_get a ha t ht x hx,
    Nat.mul_comm u]

theorem threads_ge (ok : c.Ok K row col) {tid : Nat} (ht : tid < c.threads) : 8 * c.tnb ≤ c.threads := by
  obtain ⟨p, q, M, hp, hq, hM, hthr, q0⟩ := ok.dims
  have hp0 : 0 < p := by
    rcases Nat.eq_zero_or_pos p with rfl | h
    · rw [hthr] at ht; omega
    · exact h
  rw [hthr, hq, show 8 * (4 * q) = 32 * q by ring]
  exact Nat.le_mul_of_pos_right _ hp0

theorem permute_single {α : Type} (g : Option Nat) (hg : g.all (K ≤ ·)) (s : Nat → α) :
    permuteScales g K s = gather scalePermSingle s := by
  unfold permuteScales
  cases g with
  | none => rfl
  | some g =>
    have : K ≤ g := by simpa using hg
    rw [if_neg]
    simp; omega

/-- **C158.** A layer with one scale per column: the scale a thread multiplies a result with is the
scale of the column of that result (kernels with blocks of 16 rows). -/
theorem C158_column_scales {α : Type} (ok : c.Ok K row col) (g : Option Nat) (hg : g.all (K ≤ ·))
    (s : Nat → α) (junk : Nat → Nat → α) (tid j f x : Nat) (ht : tid < c.threads) (hj : j < 4)
    (hf : f < 2) (hx : x < 2) :
    colScale c (permuteScales g K s) junk col tid j f x = s (accCol c col tid j f x) := by
  have hth := threads_ge ok ht
  obtain ⟨p, q, M, hp, hq, hM, hthr, q0⟩ := ok.dims
  rw [permute_single g hg]
  unfold colScale stageRow accCol
  dsimp only
  rw [hq] at hth ⊢
  rw [show 16 * (4 * q) / 8 = 8 * q by omega, show 4 * q / 4 = q by omega]
  have hw2 : tid / 32 % q < q := Nat.mod_lt _ q0
  rw [if_pos ⟨by omega, by omega⟩]
  have e : 8 * (8 * q * col + (8 * (tid / 32 % q) + tid % 32 % 4 + 4 * (j / 2))) + (2 * (2 * (j % 2) + f) + x)
      = 32 * (2 * (q * col + tid / 32 % q) + j / 2) + (8 * (tid % 32 % 4) + (2 * (2 * (j % 2) + f) + x)) := by
    ring
  rw [e, gather_single _ _ _ _ _ (by omega) (by omega) hx]
  congr 1
  generalize q * col + tid / 32 % q = u
  omega

/-- **C158.** The same for kernels with blocks of 8 rows, where the operands are swapped and a
thread's results lie in one column per fragment. -/
theorem C158_column_scales_8 {α : Type} (ok : c.Ok K row col) (g : Option Nat) (hg : g.all (K ≤ ·))
    (s : Nat → α) (junk : Nat → Nat → α) (tid j f : Nat) (ht : tid < c.threads) (hj : j < 4)
    (hf : f < 2) :
    colScale8 c (permuteScales g K s) junk col tid j f = s (opCol c col tid j f) := by
  have hth := threads_ge ok ht
  obtain ⟨p, q, M, hp, hq, hM, hthr, q0⟩ := ok.dims
  rw [permute_single g hg]
  unfold colScale8 stageRow opCol
  dsimp only
  rw [hq] at hth ⊢
  rw [show 16 * (4 * q) / 8 = 8 * q by omega, show 4 * q / 4 = q by omega]
  have hw2 : tid / 32 % q < q := Nat.mod_lt _ q0
  rw [if_pos ⟨by omega, by omega⟩]
  have e : 8 * (8 * q * col + (8 * (tid / 32 % q) + tid % 32 / 8 + 4 * (j / 2)))
        + (2 * (2 * (j % 2) + f) + tid / 4 % 2)
      = 32 * (2 * (q * col + tid / 32 % q) + j / 2)
        + (8 * (tid % 32 / 8) + (2 * (2 * (j % 2) + f) + tid / 4 % 2)) := by
    ring
  rw [e, gather_single _ _ _ _ _ (by omega) (by omega) (by omega)]
  congr 1
  generalize q * col + tid / 32 % q = u
  have h1 : tid % 32 / 4 = 2 * (tid % 32 / 8) + tid / 4 % 2 := by omega
  omega

/-! ## Examples -/

/-- Exact arithmetic is an instance of the arithmetic of the theorems. -/
def exactArith (f : Fmt) : FArith f :=
  ⟨fun a b => a - b, fun a b => a * b, fun a b c => a * b + c, fun _ _ _ _ _ => rfl, fun _ _ _ _ _ _ _ => rfl⟩

/-- Two warps side by side, two below each other, tiles of 64 × 128, groups of 32 rows. -/
def exCfg : GemmCfg := ⟨256, 128, 4, 8, 2⟩

example : exCfg.Ok 256 3 1 := ⟨rfl, rfl, by decide, rfl, rfl, by decide, Or.inr rfl, rfl, by decide, by decide⟩

/-- Wide groups: 128 rows, tiles of 64. -/
example : (⟨256, 128, 4, 8, 8⟩ : GemmCfg).Ok 256 3 1 :=
  ⟨rfl, rfl, by decide, rfl, rfl, by decide, Or.inl rfl, rfl, by decide, by decide⟩

example : (Reg 1 3 1 1 1) ∧ 127 < exCfg.threads ∧ opRow exCfg 3 127 1 1 1 = 255 ∧ opCol exCfg 1 127 3 1 = 255 := by
  unfold Reg; decide

/-- A layer: AWQ weights `k + n mod 16`, zero points all 3.  `C156_awq` supplies the layout. -/
example : ∃ B : Nat → Nat, AwqPacked 4 8 64 B (fun _ _ => 3) :=
  ⟨fun _ => 0x33333333, fun _ _ i _ _ hi => by
    have : ∀ i, i < 32 / 4 → field 4 0x33333333 i = 3 := by decide
    exact this i hi⟩

/-- A nibble 15 is 15 - 8 = 7 and a nibble 0 is -8; a byte 255 is 127. -/
example : dequant16 (exactArith fp16) .u4b8 0x00f0000f 0 0 = 7 ∧
    dequant16 (exactArith fp16) .u4b8 0x00f0000f 1 1 = 7 ∧
    dequant16 (exactArith fp16) .u4b8 0x00f0000f 0 1 = -8 ∧
    dequant16 (exactArith fp16) .u8b128 0xff000000 1 1 = 127 ∧
    dequantB16 (exactArith bf16) .u4b8 0x00f0000f 1 1 = 7 := by decide +kernel

end Verif.Marlin
