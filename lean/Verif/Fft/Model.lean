import Verif.Prelude
import Mathlib.Analysis.SpecialFunctions.Complex.Log
import Mathlib.Data.BitVec

/-!
# The discrete Fourier transform

Models of mllm/backends/cpu/ops/STFTOp.cpp (`ST`): the two radix-2 transforms, Bluestein's transform and the
bit reversal they use.  Numbers are exact complex numbers (the code computes in `float`); a vector is a function of
the index; loops are folds over the index range.
-/

namespace Verif.Fft

open Complex

/-- `BitReverseTable256` (ST L51-L65). -/
def table : Array (BitVec 8) := #[
  0x00, 0x80, 0x40, 0xC0, 0x20, 0xA0, 0x60, 0xE0, 0x10, 0x90, 0x50, 0xD0, 0x30, 0xB0, 0x70, 0xF0, 0x08, 0x88, 0x48, 0xC8,
  0x28, 0xA8, 0x68, 0xE8, 0x18, 0x98, 0x58, 0xD8, 0x38, 0xB8, 0x78, 0xF8, 0x04, 0x84, 0x44, 0xC4, 0x24, 0xA4, 0x64, 0xE4,
  0x14, 0x94, 0x54, 0xD4, 0x34, 0xB4, 0x74, 0xF4, 0x0C, 0x8C, 0x4C, 0xCC, 0x2C, 0xAC, 0x6C, 0xEC, 0x1C, 0x9C, 0x5C, 0xDC,
  0x3C, 0xBC, 0x7C, 0xFC, 0x02, 0x82, 0x42, 0xC2, 0x22, 0xA2, 0x62, 0xE2, 0x12, 0x92, 0x52, 0xD2, 0x32, 0xB2, 0x72, 0xF2,
  0x0A, 0x8A, 0x4A, 0xCA, 0x2A, 0xAA, 0x6A, 0xEA, 0x1A, 0x9A, 0x5A, 0xDA, 0x3A, 0xBA, 0x7A, 0xFA, 0x06, 0x86, 0x46, 0xC6,
  0x26, 0xA6, 0x66, 0xE6, 0x16, 0x96, 0x56, 0xD6, 0x36, 0xB6, 0x76, 0xF6, 0x0E, 0x8E, 0x4E, 0xCE, 0x2E, 0xAE, 0x6E, 0xEE,
  0x1E, 0x9E, 0x5E, 0xDE, 0x3E, 0xBE, 0x7E, 0xFE, 0x01, 0x81, 0x41, 0xC1, 0x21, 0xA1, 0x61, 0xE1, 0x11, 0x91, 0x51, 0xD1,
  0x31, 0xB1, 0x71, 0xF1, 0x09, 0x89, 0x49, 0xC9, 0x29, 0xA9, 0x69, 0xE9, 0x19, 0x99, 0x59, 0xD9, 0x39, 0xB9, 0x79, 0xF9,
  0x05, 0x85, 0x45, 0xC5, 0x25, 0xA5, 0x65, 0xE5, 0x15, 0x95, 0x55, 0xD5, 0x35, 0xB5, 0x75, 0xF5, 0x0D, 0x8D, 0x4D, 0xCD,
  0x2D, 0xAD, 0x6D, 0xED, 0x1D, 0x9D, 0x5D, 0xDD, 0x3D, 0xBD, 0x7D, 0xFD, 0x03, 0x83, 0x43, 0xC3, 0x23, 0xA3, 0x63, 0xE3,
  0x13, 0x93, 0x53, 0xD3, 0x33, 0xB3, 0x73, 0xF3, 0x0B, 0x8B, 0x4B, 0xCB, 0x2B, 0xAB, 0x6B, 0xEB, 0x1B, 0x9B, 0x5B, 0xDB,
  0x3B, 0xBB, 0x7B, 0xFB, 0x07, 0x87, 0x47, 0xC7, 0x27, 0xA7, 0x67, 0xE7, 0x17, 0x97, 0x57, 0xD7, 0x37, 0xB7, 0x77, 0xF7,
  0x0F, 0x8F, 0x4F, 0xCF, 0x2F, 0xAF, 0x6F, 0xEF, 0x1F, 0x9F, 0x5F, 0xDF, 0x3F, 0xBF, 0x7F, 0xFF]

/-- A table entry as a 32-bit word. -/
def entry (x : BitVec 32) : BitVec 32 := (table.getD (x &&& 0xff).toNat 0).zeroExtend 32

/-- `bitReverse` (ST L68-L77) for up to 32 significant bits; the shift is done in 64 bits. -/
def bitReverse (num bits : Nat) : Nat :=
  let x := BitVec.ofNat 32 num
  let rev := (entry x <<< 24) ||| (entry (x >>> 8) <<< 16) ||| (entry (x >>> 16) <<< 8) ||| entry (x >>> 24)
  (rev.zeroExtend 64 >>> (32 - bits)).toNat

/-- `computeAngularVelocity` (ST L25-L33): -1 for the transform, 1 for its inverse. -/
noncomputable def velocity (n : Nat) (inverse : Bool) : ℝ := (if inverse then 1 else -1) * (2 * Real.pi) / n

/-- One butterfly (ST L105-L110, L150-L155). -/
def butterfly (w : ℂ) (p q : Nat) (d : Nat → ℂ) : Nat → ℂ :=
  Function.update (Function.update d p (d p + w * d q)) q (d p - w * d q)

/-- The loop over `k` of one block at `j`, with the running factor (ST L103-L113, L148-L158). -/
def block (wm : ℂ) (mid j : Nat) (d : Nat → ℂ) : Nat → ℂ :=
  ((List.range mid).foldl (fun (s : (Nat → ℂ) × ℂ) k => (butterfly s.2 (j + k) (j + k + mid) s.1, s.2 * wm)) (d, 1)).1

/-- The loop over the blocks of length `stride` (ST L96-L114, L141-L159). -/
noncomputable def stage (n : Nat) (inverse : Bool) (stride : Nat) (d : Nat → ℂ) : Nat → ℂ :=
  let angle : ℝ := velocity n inverse * ((n / stride : Nat) : ℝ)
  let wm : ℂ := ⟨Real.cos angle, Real.sin angle⟩
  (List.range (n / stride)).foldl (fun d b => block wm (stride / 2) (b * stride) d) d

/-- The loop over the strides 2, 4, ... up to `n` (ST L96, L141); `bits` is the logarithm of `n`. -/
noncomputable def stages (n bits : Nat) (inverse : Bool) (d : Nat → ℂ) : Nat → ℂ :=
  (List.range bits).foldl (fun d s => stage n inverse (2 ^ (s + 1)) d) d

/-- The scaling of the inverse (ST L117-L119, L162-L164). -/
noncomputable def scaled (n : Nat) (inverse : Bool) (d : Nat → ℂ) : Nat → ℂ :=
  fun i => if inverse ∧ i < n then d i / n else d i

/-- `fftRadix2` (ST L80-L120) of a real input of `size` values; `log2` is exact on powers of two. -/
noncomputable def fftRadix2 (input : Nat → ℝ) (size n : Nat) (out : Nat → ℂ) (inverse : Bool) : Nat → ℂ :=
  let bits := Nat.log2 n
  let d : Nat → ℂ := fun i => if i < n then (if bitReverse i bits < size then (input (bitReverse i bits) : ℂ) else 0) else out i
  scaled n inverse (stages n bits inverse d)

/-- The swaps of `fftRadix2Complex` (ST L128-L131) on a vector of `n` elements. -/
def swaps (n bits : Nat) (d : Nat → ℂ) : Nat → ℂ :=
  (List.range n).foldl (fun d i =>
    let r := bitReverse i bits
    if r < n ∧ i < r then Function.update (Function.update d i (d r)) r (d i) else d) d

/-- `fftRadix2Complex` (ST L122-L165). -/
noncomputable def fftRadix2Complex (d : Nat → ℂ) (n : Nat) (inverse : Bool) : Nat → ℂ :=
  if n = 0 then d else
    let bits := Nat.log2 n
    scaled n inverse (stages n bits inverse (swaps n bits d))

/-- The loop of `nextPowerOf2` (ST L44-L49). -/
def nextPow (fuel x out : Nat) : Nat :=
  match fuel with
  | 0 => out
  | fuel + 1 => if out ≤ x then nextPow fuel x (2 * out) else out

/-- `nextPowerOf2` (ST L44-L49). -/
def nextPowerOf2 (x : Nat) : Nat := nextPow x (x - 1) 1

/-- `complex(cos(e), sin(e))` for `e = s * pi * n * n / N` (ST L184-L185, L193-L194, L213-L214). -/
noncomputable def chirp (s : ℝ) (N n : Nat) : ℂ :=
  let e : ℝ := s * Real.pi * n * n / N
  ⟨Real.cos e, Real.sin e⟩

/-- `b` of Bluestein's transform (ST L190-L197): the second loop stores the mirrored values. -/
noncomputable def kernel (dir : ℝ) (N M : Nat) : Nat → ℂ :=
  let b : Nat → ℂ := fun n => if n < N then chirp (-dir) N n else 0
  (List.range' 1 (N - 1)).foldl (fun b n => Function.update b (M - n) (b n)) b

/-- `fftBluestein` and `fftBluesteinComplex` (ST L167-L225, L227-L285) of `size` values, the former on values that are
real. -/
noncomputable def fftBluestein (input : Nat → ℂ) (size N : Nat) (inverse : Bool) : Nat → ℂ :=
  let M := nextPowerOf2 (2 * N - 1)
  let dir : ℝ := if inverse then 1 else -1
  let a : Nat → ℂ := fun n => if n < N ∧ n < size then input n * chirp dir N n else 0
  let fa := fftRadix2Complex a M false
  let fb := fftRadix2Complex (kernel dir N M) M false
  let c := fftRadix2Complex (fun i => fa i * fb i) M true
  fun n => if inverse then c n * chirp dir N n / N else c n * chirp dir N n

/-- `is_power_of_2` (ST L35-L42): the number of one bits is one. -/
def isPow2 (n : Nat) : Bool := ((List.range (n.log2 + 1)).filter fun i => n.testBit i).length == 1

end Verif.Fft
