import Verif.Quant.Blocks

/-! What the block formats mean, independently of the kernels. -/

namespace Verif.Quant

/-- `q` is a best code for `x` among `lo..hi` when code `c` stands for the number `g c`. -/
def Best (x : ℝ) (g : Int → ℝ) (lo hi q : Int) : Prop :=
  lo ≤ q ∧ q ≤ hi ∧ ∀ c, lo ≤ c → c ≤ hi → |x - g q| ≤ |x - g c|

/-- `a` is the largest magnitude among the first `n` elements. -/
def IsAmax (n : Nat) (x : Nat → ℝ) (a : ℝ) : Prop := (∀ j < n, |x j| ≤ a) ∧ ∃ j < n, |x j| = a

/-- q8_0: a half-precision scale and 32 signed bytes. -/
noncomputable def Q80.val (P : Plat) (b : Q80) (j : Nat) : ℝ := P.load b.d * b.qs j

/-- q4_0: a half-precision scale and 32 nibbles offset by 8; the low nibbles are the first half. -/
def Q40.code (b : Q40) (j : Nat) : Int :=
  if j < 16 then ((b.qs j % 16 : Nat) : Int) - 8 else ((b.qs (j - 16) / 16 : Nat) : Int) - 8

noncomputable def Q40.val (P : Plat) (b : Q40) (j : Nat) : ℝ := P.load b.d * b.code j

/-- q8_K: a float scale and 256 signed bytes. -/
noncomputable def Q8K.val (b : Q8K) (j : Nat) : ℝ := b.d * b.qs j

/-- q4_K: eight groups of 32 with 6-bit scales and minima.  Groups 0..3 keep theirs in the low six bits of bytes
0..3 and 4..7; groups 4..7 keep four bits in bytes 8..11 and two in the top of bytes 0..3 and 4..7. -/
def Q4K.scale (b : Q4K) (g : Nat) : Nat :=
  if g < 4 then b.scales g % 64 else b.scales (g + 4) % 16 + 16 * (b.scales (g - 4) / 64)

def Q4K.min (b : Q4K) (g : Nat) : Nat :=
  if g < 4 then b.scales (g + 4) % 64 else b.scales (g + 4) / 16 + 16 * (b.scales g / 64)

/-- Elements `64k .. 64k+31` are the low nibbles of bytes `32k ..`, the next 32 the high ones. -/
def Q4K.code (b : Q4K) (j : Nat) : Nat :=
  if j % 64 < 32 then b.qs (32 * (j / 64) + j % 32) % 16 else b.qs (32 * (j / 64) + j % 32) / 16

noncomputable def Q4K.val (P : Plat) (b : Q4K) (j : Nat) : ℝ :=
  P.load b.d * b.scale (j / 32) * b.code j - P.load b.dmin * b.min (j / 32)

/-- q6_K: 16 groups of 16 with 8-bit scales; a code is four low bits from `ql` and two high bits from `qh`,
offset by 32. -/
def Q6K.code (b : Q6K) (j : Nat) : Int :=
  let n := j / 128
  let c := j % 128 / 32
  let l := j % 32
  let lo := b.ql (64 * n + 32 * (c % 2) + l)
  let hi := b.qh (32 * n + l)
  (((if c < 2 then lo % 16 else lo / 16) + 16 * (hi / 4 ^ c % 4) : Nat) : Int) - 32

noncomputable def Q6K.val (P : Plat) (b : Q6K) (j : Nat) : ℝ := P.load b.d * b.scales (j / 16) * b.code j

/-- The `p`-th number of a row of blocks of `w` elements. -/
def rowVal {β : Type} (w : Nat) (v : β → Nat → ℝ) (b : Nat → β) (p : Nat) : ℝ := v (b (p / w)) (p % w)

/-- The real dot product of two rows. -/
noncomputable def dotR (n : Nat) (f g : Nat → ℝ) : ℝ := ∑ p ∈ Finset.range n, f p * g p

/-- The bytes of a block are bytes. -/
def Q40.Bytes (b : Q40) : Prop := ∀ j < 16, b.qs j < 256
def Q4K.Bytes (b : Q4K) : Prop := (∀ j < 128, b.qs j < 256) ∧ ∀ j < 12, b.scales j < 256
def Q6K.Bytes (b : Q6K) : Prop :=
  (∀ j < 128, b.ql j < 256) ∧ (∀ j < 64, b.qh j < 256) ∧ ∀ j < 16, -128 ≤ b.scales j ∧ b.scales j ≤ 127
def Q80.Bytes (b : Q80) : Prop := ∀ j < 32, -128 ≤ b.qs j ∧ b.qs j ≤ 127
def Q8K.Bytes (b : Q8K) : Prop := ∀ j < 256, -128 ≤ b.qs j ∧ b.qs j ≤ 127

end Verif.Quant
